import Verif.Circuit.Mount
import Verif.Circuit.Induced
import Verif.Circuit.ValueLemmas
import Verif.Graph.BfsReach

/-! # Facts about `mount` and `add_subcircuit` -/

namespace PM.Graph

open Spec

variable {D V : Type}

/-- The effect of `add_edge(u, v, …)` on the out-edges of `u`. -/
def updOut (u : Node) (l : List Edge) (v : Node) (w : Option LogP) : List Edge :=
  if l.any (fun e => e.dst == v) then l.map (fun e => if e.dst == v then { e with weight := w.or e.weight } else e)
  else l ++ [⟨u, v, w⟩]

theorem outEdges_addEdge (g : Graph D) (u v : Node) (w : Option LogP) (n : Node) :
    (g.addEdge u v w).outEdges n = if n = u then updOut u (g.outEdges u) v w else g.outEdges n := by
  have hany : (g.outEdges u).any (fun e => e.dst == v) = g.edges.any (fun e => e.src == u && e.dst == v) := by
    unfold outEdges
    rw [List.any_filter]
  unfold addEdge updOut
  rw [hany]
  split_ifs with h1 h2 h2
  · subst h2
    unfold outEdges
    simp only
    rw [List.filter_map]
    have hf : ((fun e : Edge => e.src == n) ∘ fun e : Edge =>
        if (e.src == n && e.dst == v) = true then { e with weight := w.or e.weight } else e)
        = fun e : Edge => e.src == n := by
      funext e
      simp only [Function.comp]
      split <;> rfl
    rw [hf]
    apply List.map_congr_left
    intro e he
    have := (List.mem_filter.1 he).2
    rw [this, Bool.true_and]
  · unfold outEdges
    simp only
    rw [List.filter_map]
    have hf : ((fun e : Edge => e.src == n) ∘ fun e : Edge =>
        if (e.src == u && e.dst == v) = true then { e with weight := w.or e.weight } else e)
        = fun e : Edge => e.src == n := by
      funext e
      simp only [Function.comp]
      split <;> rfl
    rw [hf]
    conv_rhs => rw [← List.map_id (List.filter _ _)]
    apply List.map_congr_left
    intro e he
    have := (List.mem_filter.1 he).2
    have hne : e.src ≠ u := by
      intro h
      rw [h] at this
      exact h2 ((beq_iff_eq.1 this).symm)
    rw [if_neg]
    · rfl
    · simp [hne]
  · subst h2
    unfold outEdges
    simp [List.filter_append]
  · unfold outEdges
    have : (u == n) = false := by simpa using fun h => h2 h.symm
    simp [List.filter_append, this]

@[simp] theorem ids_addEdge (g : Graph D) (u v : Node) (w : Option LogP) : (g.addEdge u v w).ids = g.ids := by
  unfold addEdge ids; split <;> rfl

@[simp] theorem nodes_addEdge (g : Graph D) (u v : Node) (w : Option LogP) : (g.addEdge u v w).nodes = g.nodes := by
  unfold addEdge; split <;> rfl

@[simp] theorem kind?_addEdge (g : Graph D) (u v : Node) (w : Option LogP) (n : Node) :
    (g.addEdge u v w).kind? n = g.kind? n := by
  unfold kind?; rw [nodes_addEdge]

theorem foldl_addEdge_nodes {f : Edge → Option LogP} (es : List Edge) : ∀ (g : Graph D),
    (es.foldl (fun g e => g.addEdge e.src e.dst (f e)) g).nodes = g.nodes := by
  induction es with
  | nil => intro g; rfl
  | cons e es ih => intro g; rw [List.foldl_cons, ih, nodes_addEdge]

theorem foldl_addEdge_out {f : Edge → Option LogP} (n : Node) (es : List Edge) : ∀ (g : Graph D),
    (es.foldl (fun g e => g.addEdge e.src e.dst (f e)) g).outEdges n =
      (es.filter fun e => e.src == n).foldl (fun l e => updOut n l e.dst (f e)) (g.outEdges n) := by
  induction es with
  | nil => intro g; rfl
  | cons e es ih =>
    intro g
    rw [List.foldl_cons, ih, outEdges_addEdge]
    by_cases h : e.src = n
    · subst h; simp
    · have h' : ¬ n = e.src := fun hc => h hc.symm
      rw [if_neg h', List.filter_cons_of_neg (by simpa using h)]

theorem updOut_id {n : Node} {l : List Edge} {e : Edge} {w : Option LogP} (hnd : (l.map Edge.dst).Nodup) (he : e ∈ l)
    (hw : w = none ∨ w = e.weight) : updOut n l e.dst w = l := by
  unfold updOut
  rw [if_pos (by simp only [List.any_eq_true, beq_iff_eq]; exact ⟨e, he, rfl⟩)]
  conv_rhs => rw [← List.map_id l]
  apply List.map_congr_left
  intro e' he'
  split
  · rename_i h
    have : e' = e := List.inj_on_of_nodup_map hnd he' he (by simpa using h)
    subst this
    rcases hw with rfl | rfl
    · rfl
    · cases e'; simp
  · rfl

theorem foldl_updOut_id {n : Node} {l : List Edge} {f : Edge → Option LogP} (hnd : (l.map Edge.dst).Nodup)
    (hf : ∀ e ∈ l, f e = none ∨ f e = e.weight) : ∀ es : List Edge, (∀ e ∈ es, e ∈ l) →
    es.foldl (fun l e => updOut n l e.dst (f e)) l = l := by
  intro es
  induction es with
  | nil => intro _; rfl
  | cons e es ih =>
    intro h
    rw [List.foldl_cons, updOut_id hnd (h e (by simp)) (hf e (h e (by simp)))]
    exact ih fun e' he' => h e' (by simp [he'])

theorem foldl_updOut_none {n : Node} : ∀ (es l : List Edge), ((l ++ es).map Edge.dst).Nodup →
    (∀ e ∈ es, e.src = n) →
    es.foldl (fun l e => updOut n l e.dst none) l = l ++ es.map (fun e => { e with weight := none }) := by
  intro es
  induction es with
  | nil => intro l _ _; simp
  | cons e es ih =>
    intro l hnd hs
    have h1 : updOut n l e.dst none = l ++ [{ e with weight := none }] := by
      unfold updOut
      rw [if_neg]
      · have := hs e (by simp)
        subst this; rfl
      · simp only [List.any_eq_true, beq_iff_eq, not_exists, not_and]
        intro e' he' hd
        rw [List.map_append, List.nodup_append] at hnd
        exact hnd.2.2 e'.dst (List.mem_map_of_mem he') e.dst (by simp) hd
    rw [List.foldl_cons, h1, ih]
    · simp
    · simpa using hnd
    · exact fun e' he' => hs e' (by simp [he'])

theorem foldl_updOut_weights {n : Node} : ∀ (B A : List Edge), ((A ++ B).map Edge.dst).Nodup →
    (B.filter fun e => e.weight.isSome).foldl (fun l e => updOut n l e.dst e.weight)
      (A ++ B.map (fun e => { e with weight := none })) = A ++ B := by
  intro B
  induction B with
  | nil => intro A _; simp
  | cons e B ih =>
    intro A hnd
    have hnd' : (((A ++ [e]) ++ B).map Edge.dst).Nodup := by simpa using hnd
    have hih := ih (A ++ [e]) hnd'
    simp only [List.append_assoc, List.singleton_append] at hih
    cases hw : e.weight with
    | none =>
      rw [List.filter_cons_of_neg (by simp [hw])]
      have : ({ e with weight := none } : Edge) = e := by cases e; simp_all
      rw [List.map_cons, this]
      exact hih
    | some w =>
      rw [List.filter_cons_of_pos (by simp [hw]), List.foldl_cons]
      have hstep : updOut n (A ++ (e :: B).map (fun e => { e with weight := none })) e.dst e.weight
          = A ++ e :: B.map (fun e => { e with weight := none }) := by
        unfold updOut
        rw [if_pos (by simp)]
        rw [List.map_append, List.map_cons, List.map_cons]
        rw [List.map_append, List.nodup_append] at hnd
        simp only [List.map_cons, List.nodup_cons] at hnd
        congr 1
        · conv_rhs => rw [← List.map_id A]
          apply List.map_congr_left
          intro e' he'
          rw [if_neg]
          · rfl
          · simp only [beq_iff_eq]
            exact hnd.2.2 e'.dst (List.mem_map_of_mem he') e.dst (by simp)
        · congr 1
          · rw [if_pos (by simp)]
            cases e; simp_all
          · rw [List.map_map]
            apply List.map_congr_left
            intro e' he'
            simp only [Function.comp]
            rw [if_neg]
            simp only [beq_iff_eq]
            intro hd
            exact hnd.2.1.1 (hd ▸ List.mem_map_of_mem he')
      rw [hstep]
      exact hih

theorem foldl_addNode_ids (ps : List (Node × Kind D)) : ∀ (g : Graph D) (n : Node),
    n ∈ (ps.foldl (fun g p => g.addNode p.1 p.2) g).ids ↔ n ∈ g.ids ∨ n ∈ ps.map Prod.fst := by
  induction ps with
  | nil => intro g n; simp
  | cons p ps ih =>
    intro g n
    rw [List.foldl_cons, ih]
    unfold addNode
    split
    · rename_i h
      simp only [List.map_cons, List.mem_cons]
      constructor
      · rintro (h' | h')
        · exact .inl h'
        · exact .inr (.inr h')
      · rintro (h' | rfl | h')
        · exact .inl h'
        · exact .inl h
        · exact .inr h'
    · simp only [ids, List.map_append, List.map_cons, List.map_nil, List.mem_append, List.mem_cons]
      tauto

theorem foldl_addNode_edges (ps : List (Node × Kind D)) : ∀ (g : Graph D),
    (ps.foldl (fun g p => g.addNode p.1 p.2) g).edges = g.edges := by
  induction ps with
  | nil => intro g; rfl
  | cons p ps ih =>
    intro g
    rw [List.foldl_cons, ih]
    unfold addNode
    split <;> rfl

theorem kind?_addNode (g : Graph D) (m : Node) (k : Kind D) (n : Node) :
    (g.addNode m k).kind? n = if n ∈ g.ids then g.kind? n else if n = m then some k else none := by
  unfold addNode
  by_cases hm : m ∈ g.ids
  · rw [if_pos hm]
    by_cases hn : n ∈ g.ids
    · rw [if_pos hn]
    · rw [if_neg hn, if_neg (fun h : n = m => hn (h ▸ hm))]
      cases hk : g.kind? n with
      | none => rfl
      | some k' => exact absurd (mem_ids_of_kind? hk) hn
  · rw [if_neg hm]
    unfold kind?
    rw [List.find?_append]
    by_cases hn : n ∈ g.ids
    · rw [if_pos hn]
      have : (g.nodes.find? fun p => p.1 == n).isSome := by
        have := kind?_isSome.2 hn
        simpa [kind?] using this
      obtain ⟨p, hp⟩ := Option.isSome_iff_exists.1 this
      rw [hp]; rfl
    · rw [if_neg hn]
      have : g.nodes.find? (fun p => p.1 == n) = none := by
        have h := mt (kind?_isSome (g := g) (n := n)).1 hn
        rw [kind?, Option.isSome_map, Bool.not_eq_true, Option.isSome_eq_false_iff, Option.isNone_iff_eq_none] at h
        exact h
      rw [this]
      by_cases hnm : n = m
      · subst hnm; simp
      · have : (m == n) = false := by simpa using fun h => hnm h.symm
        simp [this, hnm]

theorem foldl_addNode_kind? (ps : List (Node × Kind D)) : ∀ (g : Graph D) (n : Node),
    (ps.foldl (fun g p => g.addNode p.1 p.2) g).kind? n =
      if n ∈ g.ids then g.kind? n else (ps.find? fun p => p.1 == n).map Prod.snd := by
  induction ps with
  | nil =>
    intro g n
    rw [List.foldl_nil]
    split
    · rfl
    · rename_i h
      cases hk : g.kind? n with
      | none => rfl
      | some k' => exact absurd (mem_ids_of_kind? hk) h
  | cons p ps ih =>
    intro g n
    rw [List.foldl_cons, ih, kind?_addNode]
    have hids : n ∈ (g.addNode p.1 p.2).ids ↔ n ∈ g.ids ∨ n = p.1 := by
      have := foldl_addNode_ids [p] g n
      simpa using this
    by_cases hn : n ∈ g.ids
    · rw [if_pos (hids.2 (.inl hn)), if_pos hn, if_pos hn]
    · by_cases hp : n = p.1
      · rw [if_pos (hids.2 (.inr hp)), if_neg hn, if_neg hn, if_pos hp, List.find?_cons_of_pos (by simp [hp])]; rfl
      · rw [if_neg (by rw [hids]; tauto), if_neg hn,
          List.find?_cons_of_neg (by simpa using fun h => hp h.symm)]

/-- The two circuits have the same units and edges below the units they share. -/
def Agree (g s : Graph D) : Prop :=
  ∀ n ∈ g.ids, n ∈ s.ids → g.kind? n = s.kind? n ∧ g.outEdges n = s.outEdges n

theorem edgeView_filter {s : Graph D} (hw : s.WF) (n : Node) (p : Edge → Bool) :
    (s.edgeView.filter p).filter (fun e => e.src == n) = (s.outEdges n).filter p := by
  rw [List.filter_comm]
  congr 1
  unfold edgeView
  have hnd := hw.nodup
  have hmem : n ∉ s.ids → s.outEdges n = [] := by
    intro h
    unfold outEdges
    rw [List.filter_eq_nil_iff]
    intro e he hs
    exact h (by simpa using (beq_iff_eq.1 hs) ▸ hw.srcMem e he)
  have key : ∀ l : List Node, l.Nodup → ((l.flatMap s.outEdges).filter fun e => e.src == n)
      = if n ∈ l then s.outEdges n else [] := by
    intro l
    induction l with
    | nil => intro _; rfl
    | cons a l ih =>
      intro hl
      rw [List.nodup_cons] at hl
      rw [List.flatMap_cons, List.filter_append, ih hl.2]
      by_cases ha : a = n
      · subst ha
        rw [if_neg hl.1, if_pos (by simp), List.append_nil, List.filter_eq_self]
        intro e he
        simpa using (mem_outEdges.1 he).2
      · have : (s.outEdges a).filter (fun e => e.src == n) = [] := by
          rw [List.filter_eq_nil_iff]
          intro e he hs
          exact ha ((mem_outEdges.1 he).2.symm.trans (by simpa using hs))
        rw [this, List.nil_append]
        have h' : n ∈ a :: l ↔ n ∈ l := by simp [List.mem_cons, Ne.symm ha]
        simp only [h']
  rw [key _ hnd]
  split
  · rfl
  · rename_i h; exact (hmem h).symm

theorem nodup_succ {g : Graph D} (hw : g.WF) (n : Node) : ((g.outEdges n).map Edge.dst).Nodup := by
  have h := hw.edgeNodup
  have h1 : ((g.outEdges n).map fun e => (e.src, e.dst)).Nodup :=
    h.sublist (List.Sublist.map _ List.filter_sublist)
  have h2 : (g.outEdges n).map (fun e => (e.src, e.dst)) = ((g.outEdges n).map Edge.dst).map fun d => (n, d) := by
    rw [List.map_map]
    apply List.map_congr_left
    intro e he
    simp [(mem_outEdges.1 he).2]
  rw [h2] at h1
  exact h1.of_map

theorem addCircuit_ids {g s : Graph D} {n : Node} : n ∈ (g.addCircuit s).ids ↔ n ∈ g.ids ∨ n ∈ s.ids := by
  unfold addCircuit
  simp only
  rw [ids, foldl_addEdge_nodes (f := fun e => e.weight), foldl_addEdge_nodes (f := fun _ => none), ← ids,
    foldl_addNode_ids]
  rfl

theorem addCircuit_kind? {g s : Graph D} {n : Node} :
    (g.addCircuit s).kind? n = if n ∈ g.ids then g.kind? n else s.kind? n := by
  unfold addCircuit
  simp only
  rw [kind?, foldl_addEdge_nodes (f := fun e => e.weight), foldl_addEdge_nodes (f := fun _ => none), ← kind?,
    foldl_addNode_kind?]
  rfl

theorem outEdges_eq_nil {g : Graph D} (hw : g.WF) {n : Node} (h : n ∉ g.ids) : g.outEdges n = [] := by
  unfold outEdges
  rw [List.filter_eq_nil_iff]
  intro e he hs
  exact h (by simpa using (beq_iff_eq.1 hs) ▸ hw.srcMem e he)

theorem addCircuit_outEdges {g s : Graph D} (hg : g.WF) (hs : s.WF) (ha : Agree g s) {n : Node} :
    (g.addCircuit s).outEdges n = if n ∈ g.ids then g.outEdges n else s.outEdges n := by
  unfold addCircuit
  simp only
  rw [foldl_addEdge_out n, foldl_addEdge_out (f := fun _ => none) n]
  have h1 := edgeView_filter hs n (fun e => e.weight.isSome)
  have h2 := edgeView_filter hs n (fun _ => true)
  simp only [List.filter_true] at h2
  rw [h1, h2]
  have h3 : (s.nodes.foldl (fun g p => g.addNode p.1 p.2) g).outEdges n = g.outEdges n := by
    unfold outEdges; rw [foldl_addNode_edges]
  rw [h3]
  by_cases hn : n ∈ g.ids
  · rw [if_pos hn]
    by_cases hns : n ∈ s.ids
    · rw [(ha n hn hns).2]
      rw [foldl_updOut_id (nodup_succ hs n) (fun _ _ => .inl rfl) _ (fun e he => he),
        foldl_updOut_id (nodup_succ hs n) (fun _ _ => .inr rfl) _ (fun e he => (List.mem_filter.1 he).1)]
    · rw [outEdges_eq_nil hs hns]; rfl
  · rw [if_neg hn, outEdges_eq_nil hg hn]
    rw [foldl_updOut_none _ [] (by simpa using nodup_succ hs n) (fun e he => (mem_outEdges.1 he).2)]
    have := foldl_updOut_weights (n := n) (s.outEdges n) [] (by simpa using nodup_succ hs n)
    simpa using this

theorem wf_addEdge {g : Graph D} (hw : g.WF) {u v : Node} {w : Option LogP} (hu : u ∈ g.ids) (hv : v ∈ g.ids) :
    (g.addEdge u v w).WF := by
  unfold addEdge
  split
  · have hp : (g.edges.map fun e => if (e.src == u && e.dst == v) = true then { e with weight := w.or e.weight } else e).map
        (fun e => (e.src, e.dst)) = g.edges.map (fun e => (e.src, e.dst)) := by
      rw [List.map_map]
      apply List.map_congr_left
      intro e _
      simp only [Function.comp]
      split <;> rfl
    refine ⟨hw.nodup, ?_, ?_, ?_⟩
    · simp only; rw [hp]; exact hw.edgeNodup
    · intro e he
      obtain ⟨e', he', rfl⟩ := List.mem_map.1 he
      split
      · exact hw.srcMem e' he'
      · exact hw.srcMem e' he'
    · intro e he
      obtain ⟨e', he', rfl⟩ := List.mem_map.1 he
      split
      · exact hw.dstMem e' he'
      · exact hw.dstMem e' he'
  · rename_i h
    refine ⟨hw.nodup, ?_, ?_, ?_⟩
    · simp only [List.map_append, List.map_cons, List.map_nil]
      rw [List.nodup_append]
      refine ⟨hw.edgeNodup, by simp, ?_⟩
      intro a ha b hb hab
      rw [List.mem_singleton] at hb
      subst hb
      obtain ⟨e, he, rfl⟩ := List.mem_map.1 ha
      apply h
      simp only [List.any_eq_true, Bool.and_eq_true, beq_iff_eq]
      simp only [Prod.mk.injEq] at hab
      exact ⟨e, he, hab.1, hab.2⟩
    · intro e he
      rcases List.mem_append.1 he with h | h
      · exact hw.srcMem e h
      · rw [List.mem_singleton] at h; subst h; exact hu
    · intro e he
      rcases List.mem_append.1 he with h | h
      · exact hw.dstMem e h
      · rw [List.mem_singleton] at h; subst h; exact hv

theorem wf_foldl_addEdge {f : Edge → Option LogP} (es : List Edge) : ∀ {g : Graph D}, g.WF →
    (∀ e ∈ es, e.src ∈ g.ids ∧ e.dst ∈ g.ids) → (es.foldl (fun g e => g.addEdge e.src e.dst (f e)) g).WF := by
  induction es with
  | nil => intro g hw _; exact hw
  | cons e es ih =>
    intro g hw h
    rw [List.foldl_cons]
    refine ih (wf_addEdge hw (h e (by simp)).1 (h e (by simp)).2) ?_
    intro e' he'
    rw [ids_addEdge]
    exact h e' (by simp [he'])

theorem wf_foldl_addNode (ps : List (Node × Kind D)) : ∀ {g : Graph D}, g.WF →
    (ps.foldl (fun g p => g.addNode p.1 p.2) g).WF := by
  induction ps with
  | nil => intro g hw; exact hw
  | cons p ps ih =>
    intro g hw
    rw [List.foldl_cons]
    apply ih
    unfold addNode
    split
    · exact hw
    · rename_i h
      refine ⟨?_, hw.edgeNodup, ?_, ?_⟩
      · simp only [ids, List.map_append, List.map_cons, List.map_nil]
        rw [List.nodup_append]
        refine ⟨hw.nodup, by simp, ?_⟩
        intro a ha b hb hab
        rw [List.mem_singleton] at hb
        subst hb; subst hab
        exact h ha
      · intro e he
        simp only [ids, List.map_append, List.mem_append]
        exact .inl (hw.srcMem e he)
      · intro e he
        simp only [ids, List.map_append, List.mem_append]
        exact .inl (hw.dstMem e he)

theorem mem_edges_of_edgeView {s : Graph D} {e : Edge} (h : e ∈ s.edgeView) : e ∈ s.edges := by
  obtain ⟨n, _, h⟩ := List.mem_flatMap.1 h
  exact (mem_outEdges.1 h).1

theorem wf_addCircuit {g s : Graph D} (hg : g.WF) (hs : s.WF) : (g.addCircuit s).WF := by
  unfold addCircuit
  simp only
  have hmem : ∀ e ∈ s.edges, e.src ∈ (s.nodes.foldl (fun g p => g.addNode p.1 p.2) g).ids ∧
      e.dst ∈ (s.nodes.foldl (fun g p => g.addNode p.1 p.2) g).ids := by
    intro e he
    exact ⟨(foldl_addNode_ids _ _ _).2 (.inr (hs.srcMem e he)), (foldl_addNode_ids _ _ _).2 (.inr (hs.dstMem e he))⟩
  apply wf_foldl_addEdge
  · apply wf_foldl_addEdge (f := fun _ => none)
    · exact wf_foldl_addNode _ hg
    · exact fun e he => hmem e (mem_edges_of_edgeView he)
  · intro e he
    rw [ids, foldl_addEdge_nodes (f := fun _ => none), ← ids]
    exact hmem e (mem_edges_of_edgeView (List.mem_filter.1 he).1)

/-- Values depend only on what lies below. -/
theorem eval_congr_on {g g' : Graph D} {A : Alg D V} {S : Node → Prop} (hc : ∀ n, S n → ∀ c ∈ g.succ n, S c)
    (hk : ∀ n, S n → g'.kind? n = g.kind? n) (ho : ∀ n, S n → g'.outEdges n = g.outEdges n) {n : Node} {v : V}
    (hn : S n) (h : Eval g A n v) : Eval g' A n v := by
  induction h with
  | leaf h1 h2 => exact .leaf ((hk _ hn).trans h1) h2
  | sum child h1 _ h3 h4 ih =>
    refine .sum child ((hk _ hn).trans h1) ?_ ?_ ?_
    · intro c hcm
      unfold succ at hcm
      rw [ho _ hn] at hcm
      exact ih c hcm (hc _ hn c hcm)
    · rw [ho _ hn]; exact h3
    · rw [ho _ hn]; exact h4
  | prod child h1 _ h3 ih =>
    refine .prod child ((hk _ hn).trans h1) ?_ ?_
    · intro c hcm
      unfold succ at hcm
      rw [ho _ hn] at hcm
      exact ih c hcm (hc _ hn c hcm)
    · unfold succ; rw [ho _ hn]; exact h3

theorem eval_iff_on {g g' : Graph D} {A : Alg D V} {S : Node → Prop} (hc : ∀ n, S n → ∀ c ∈ g.succ n, S c)
    (hk : ∀ n, S n → g'.kind? n = g.kind? n) (ho : ∀ n, S n → g'.outEdges n = g.outEdges n) {n : Node} {v : V}
    (hn : S n) : Eval g' A n v ↔ Eval g A n v := by
  refine ⟨fun h => eval_congr_on (g := g') (g' := g) (S := S) ?_ (fun n h => (hk n h).symm) (fun n h => (ho n h).symm) hn h,
    eval_congr_on hc hk ho hn⟩
  intro n hn c hcm
  unfold succ at hcm
  rw [ho n hn] at hcm
  exact hc n hn c hcm

end PM.Graph
