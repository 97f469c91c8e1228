import Verif.Circuit.CondLeaf
import Verif.Circuit.MarginalLemmas

/-! Helper lemmas: the pass of `log_conditional_of_simple_event_in_place`. -/

namespace PM

open Spec

/-- `omega` does not see through the abbreviation `Node`. -/
macro "nomega" : tactic => `(tactic| ((try unfold Node at *); omega))

namespace Graph

variable {D : Type}

/-! ### Edits -/

theorem kind?_setLeaf {g : Graph D} {n k : Node} {d : D} (hn : n ∈ g.ids) :
    (g.setLeaf n d).kind? k = if k = n then some (.leaf d) else g.kind? k := by
  unfold kind? setLeaf
  simp only [List.find?_map]
  have e : ((fun p : Node × Kind D => p.1 == k) ∘ fun p => if p.1 == n then (p.1, Kind.leaf d) else p)
      = fun p => p.1 == k := by
    funext p
    simp only [Function.comp]
    split <;> rfl
  rw [e]
  by_cases hk : k = n
  · subst hk
    rw [if_pos rfl]
    have : (g.nodes.find? fun p => p.1 == k).isSome := by
      have := kind?_isSome.2 hn
      simpa [kind?] using this
    obtain ⟨q, hq⟩ := Option.isSome_iff_exists.1 this
    have h2 := List.find?_some hq
    simp only [hq, Option.map_some, h2, if_true]
  · rw [if_neg hk]
    cases hq : g.nodes.find? fun p => p.1 == k with
    | none => rfl
    | some q =>
      have h2 := List.find?_some hq
      have : (q.1 == n) = false := by
        rw [beq_eq_false_iff_ne]
        rw [beq_iff_eq] at h2
        rw [h2]; exact hk
      simp only [Option.map_some, this, Bool.false_eq_true, if_false]

theorem ids_setLeaf (g : Graph D) (n : Node) (d : D) : (g.setLeaf n d).ids = g.ids := by
  unfold ids setLeaf
  rw [List.map_map]
  apply List.map_congr_left
  intro p _
  simp only [Function.comp]
  split <;> rfl

theorem WF.setLeaf {g : Graph D} (hw : g.WF) (n : Node) (d : D) : (g.setLeaf n d).WF :=
  ⟨by rw [ids_setLeaf]; exact hw.nodup, hw.edgeNodup, by rw [ids_setLeaf]; exact hw.srcMem,
    by rw [ids_setLeaf]; exact hw.dstMem⟩

theorem fresh_eq_of_ids {g h : Graph D} (e : g.ids = h.ids) : g.fresh = h.fresh := by unfold fresh; rw [e]

theorem lt_fresh {g : Graph D} {n : Node} (hn : n ∈ g.ids) : n < g.fresh := by
  unfold fresh
  generalize g.ids = l at hn
  induction l with
  | nil => simp at hn
  | cons a l ih =>
    simp only [List.foldr_cons]
    rcases List.mem_cons.1 hn with rfl | h
    · nomega
    · have := ih h; nomega

theorem foldl_addEdge_fresh (s : Node) : ∀ (l : List Edge) (g : Graph D),
    (∀ e ∈ g.edges, e.dst = s → e.src ∉ l.map Edge.src) → (l.map Edge.src).Nodup →
    l.foldl (fun g e => g.addEdge e.src s e.weight) g
      = { g with edges := g.edges ++ l.map fun e => ⟨e.src, s, e.weight⟩ } := by
  intro l
  induction l with
  | nil => intro g _ _; simp
  | cons a l ih =>
    intro g h1 h2
    simp only [List.map_cons, List.nodup_cons] at h2
    have hnew : g.addEdge a.src s a.weight = { g with edges := g.edges ++ [⟨a.src, s, a.weight⟩] } := by
      unfold addEdge
      rw [if_neg]
      simp only [List.any_eq_true, Bool.and_eq_true, beq_iff_eq, not_exists, not_and]
      intro e he hs hd
      exact h1 e he hd (by simp [hs])
    rw [List.foldl_cons, hnew, ih]
    · simp
    · intro e he hd
      rcases List.mem_append.1 he with he | he
      · intro hm; exact h1 e he hd (by simp only [List.map_cons, List.mem_cons]; exact .inr hm)
      · rw [List.mem_singleton.1 he]; exact h2.1
    · exact h2.2

theorem WF.inEdges_src_nodup {g : Graph D} (hw : g.WF) (n : Node) : ((g.inEdges n).map Edge.src).Nodup := by
  have h : (g.inEdges n).Nodup := hw.edges_nodup.filter _
  refine List.Nodup.map_on ?_ h
  intro a ha b hb hab
  simp only [inEdges, List.mem_filter, beq_iff_eq] at ha hb
  exact hw.edge_ext ha.1 hb.1 hab (ha.2.trans hb.2.symm)

/-- The new edges of an expanded leaf. -/
noncomputable def newEdges (s : Node) (ps : List (Leaf × LogP)) : List Edge :=
  ps.zipIdx.map fun q => ⟨s, s + 1 + q.2, some (.fin q.1.2.exp)⟩

def newNodes (s : Node) (ps : List (Leaf × LogP)) : List (Node × Kind Leaf) :=
  (s, .sum) :: ps.zipIdx.map fun q => (s + 1 + q.2, .leaf q.1.1)

theorem mem_newEdges {s : Node} {ps : List (Leaf × LogP)} {e : Edge} (h : e ∈ newEdges s ps) : e.src = s ∧ s < e.dst := by
  obtain ⟨q, _, rfl⟩ := List.mem_map.1 h
  exact ⟨rfl, by simp only; nomega⟩

theorem mem_newNodes {s : Node} {ps : List (Leaf × LogP)} {p : Node × Kind Leaf} (h : p ∈ newNodes s ps) : s ≤ p.1 := by
  rcases List.mem_cons.1 h with rfl | h
  · exact le_rfl
  · obtain ⟨q, _, rfl⟩ := List.mem_map.1 h
    simp only; nomega

theorem rerouteLeaf_eq {g : Circuit} (hw : g.WF) {n : Node} (hn : n ∈ g.ids) (ps : List (Leaf × LogP)) :
    g.rerouteLeaf n ps = (⟨g.nodes ++ newNodes g.fresh ps,
      g.edges ++ newEdges g.fresh ps ++ (g.inEdges n).map fun e => ⟨e.src, g.fresh, e.weight⟩⟩ : Circuit).removeNode n := by
  have hs := lt_fresh hn
  unfold rerouteLeaf connectIncoming
  simp only
  have hin : Graph.inEdges (⟨g.nodes ++ newNodes g.fresh ps, g.edges ++ newEdges g.fresh ps⟩ : Circuit) n = g.inEdges n := by
    simp only [inEdges, List.filter_append]
    have : (newEdges g.fresh ps).filter (fun e => e.dst == n) = [] := by
      rw [List.filter_eq_nil_iff]
      intro e he
      have := mem_newEdges he
      simp only [beq_iff_eq]; nomega
    rw [this, List.append_nil]
  have hin' : Graph.inEdges (⟨g.nodes ++ (g.fresh, .sum) :: ps.zipIdx.map fun q => (g.fresh + 1 + q.2, .leaf q.1.1),
      g.edges ++ ps.zipIdx.map fun q => ⟨g.fresh, g.fresh + 1 + q.2, some (.fin q.1.2.exp)⟩⟩ : Circuit) n = g.inEdges n := hin
  rw [hin', foldl_addEdge_fresh]
  · rfl
  · intro e he hd
    exfalso
    rcases List.mem_append.1 he with he | he
    · have := lt_fresh (hw.dstMem e he); nomega
    · have := (mem_newEdges he).2; nomega
  · exact hw.inEdges_src_nodup n

theorem perm_filter_map {α : Type} (p : α → Bool) (f : α → α) (l : List α) :
    (l.filter (fun a => !p a) ++ (l.filter p).map f).Perm (l.map fun a => if p a then f a else a) := by
  induction l with
  | nil => simp
  | cons a l ih =>
    by_cases h : p a
    · simp only [List.filter_cons, h, Bool.not_true, Bool.false_eq_true, if_false, if_true, List.map_cons]
      exact List.perm_middle.trans (ih.cons _)
    · simp only [List.filter_cons, h, Bool.not_false, if_true, List.map_cons, Bool.false_eq_true, if_false, List.cons_append]
      exact ih.cons _

/-- The circuit after `expandLeaf`. -/
structure Expanded (g : Circuit) (n : Node) (g' : Circuit) : Prop where
  wf : g'.WF
  kind : ∀ k ∈ g.ids, k ≠ n → g'.kind? k = g.kind? k
  mem : ∀ k ∈ g.ids, k ≠ n → k ∈ g'.ids
  freshMem : g.fresh ∈ g'.ids
  ge : ∀ k ∈ g'.ids, k ∈ g.ids ∨ g.fresh ≤ k
  out : ∀ k ∈ g.ids, k ≠ n → (g'.outEdges k).Perm
    ((g.outEdges k).map fun e => if e.dst == n then ⟨e.src, g.fresh, e.weight⟩ else e)
  dst : ∀ e ∈ g'.edges, (∃ e' ∈ g.edges, e'.dst = e.dst ∧ e.dst ≠ n) ∨ g.fresh < e.dst ∨
    (e.dst = g.fresh ∧ ∃ e' ∈ g.edges, e'.dst = n)

theorem kind?_append_left {g : Graph D} {l : List (Node × Kind D)} {es : List Edge} {k : Node} (hk : k ∈ g.ids) :
    (⟨g.nodes ++ l, es⟩ : Graph D).kind? k = g.kind? k := by
  have := kind?_isSome.2 hk
  unfold kind? at this ⊢
  simp only [List.find?_append]
  cases h : g.nodes.find? fun p => p.1 == k with
  | none => rw [h] at this; simp at this
  | some q => rfl

theorem zipIdx_map_nodup {α : Type} (l : List α) (s : Nat) : (l.zipIdx.map fun q => s + 1 + q.2).Nodup := by
  have : (l.zipIdx.map fun q => s + 1 + q.2) = (List.range' 0 l.length).map fun i => s + 1 + i := by
    rw [← List.zipIdx_map_snd 0 l, List.map_map]
    rfl
  rw [this]
  exact (List.nodup_range' (step := 1)).map fun a b h => by nomega

theorem expandLeaf_spec {g : Circuit} (hw : g.WF) {n : Node} (hn : n ∈ g.ids) {ps : List (Leaf × LogP)} (hps : ps ≠ []) :
    ∃ g', g.expandLeaf n ps = .ok g' ∧ Expanded g n g' := by
  have hs := lt_fresh hn
  have hreq := rerouteLeaf_eq hw hn ps
  set s := g.fresh with hsdef
  set g1 : Circuit := ⟨g.nodes ++ newNodes s ps,
      g.edges ++ newEdges s ps ++ (g.inEdges n).map fun e => ⟨e.src, s, e.weight⟩⟩ with hg1
  have hids1 : ∀ k, k ∈ g1.ids ↔ k ∈ g.ids ∨ k ∈ (newNodes s ps).map Prod.fst := by
    intro k; simp [hg1, ids]
  have hlt : ∀ k ∈ g.ids, k < s := fun k hk => lt_fresh hk
  have hnew : ∀ k ∈ (newNodes s ps).map Prod.fst, s ≤ k := by
    intro k hk
    obtain ⟨p, hp, rfl⟩ := List.mem_map.1 hk
    exact mem_newNodes hp
  have hwf1 : g1.WF := by
    refine ⟨?_, ?_, ?_, ?_⟩
    · simp only [hg1, ids, List.map_append]
      refine List.Nodup.append hw.nodup ?_ ?_
      · simp only [newNodes, List.map_cons, List.map_map, List.nodup_cons]
        refine ⟨?_, zipIdx_map_nodup ps s⟩
        intro h
        obtain ⟨q, _, hq⟩ := List.mem_map.1 h
        simp only [Function.comp] at hq
        nomega
      · intro k h1 h2
        have := hlt k h1
        have := hnew k h2
        nomega
    · simp only [hg1, List.map_append]
      refine List.Nodup.append (List.Nodup.append hw.edgeNodup ?_ ?_) ?_ ?_
      · simp only [newEdges, List.map_map]
        have : ((fun e : Edge => (e.src, e.dst)) ∘ fun q : (Leaf × LogP) × Nat =>
            (⟨s, s + 1 + q.2, some (.fin q.1.2.exp)⟩ : Edge)) = (fun k => (s, k)) ∘ fun q : (Leaf × LogP) × Nat => s + 1 + q.2 := rfl
        rw [this, ← List.map_map]
        exact (zipIdx_map_nodup ps s).map fun a b h => by simpa using h
      · intro p h1 h2
        obtain ⟨e, he, rfl⟩ := List.mem_map.1 h1
        obtain ⟨e', he', heq⟩ := List.mem_map.1 h2
        simp only [Prod.mk.injEq] at heq
        have := hlt _ (hw.srcMem e he)
        have := (mem_newEdges he').1
        nomega
      · rw [List.map_map]
        have : ((fun e : Edge => (e.src, e.dst)) ∘ fun e : Edge => (⟨e.src, s, e.weight⟩ : Edge))
            = (fun k => (k, s)) ∘ Edge.src := rfl
        rw [this, ← List.map_map]
        exact (hw.inEdges_src_nodup n).map fun a b h => by simpa using h
      · intro p h1 h2
        obtain ⟨e', he', rfl⟩ := List.mem_map.1 h2
        obtain ⟨e0, he0, rfl⟩ := List.mem_map.1 he'
        rcases List.mem_append.1 h1 with h1 | h1
        · obtain ⟨e, he, heq⟩ := List.mem_map.1 h1
          simp only [Prod.mk.injEq] at heq
          have := hlt _ (hw.dstMem e he)
          nomega
        · obtain ⟨e, he, heq⟩ := List.mem_map.1 h1
          simp only [Prod.mk.injEq] at heq
          have := (mem_newEdges he).2
          nomega
    · intro e he
      rw [hids1]
      rcases List.mem_append.1 he with he | he
      · rcases List.mem_append.1 he with he | he
        · exact .inl (hw.srcMem e he)
        · right; rw [(mem_newEdges he).1]; simp [newNodes]
      · obtain ⟨e0, he0, rfl⟩ := List.mem_map.1 he
        exact .inl (hw.srcMem e0 (List.mem_filter.1 he0).1)
    · intro e he
      rw [hids1]
      rcases List.mem_append.1 he with he | he
      · rcases List.mem_append.1 he with he | he
        · exact .inl (hw.dstMem e he)
        · right
          obtain ⟨q, hq, rfl⟩ := List.mem_map.1 he
          simp only [newNodes, List.map_cons, List.map_map, List.mem_cons]
          right
          exact List.mem_map.2 ⟨q, hq, rfl⟩
      · obtain ⟨e0, he0, rfl⟩ := List.mem_map.1 he
        right; simp [newNodes]
  have hwf2 : (g1.removeNode n).WF := by rw [removeNode_eq_induced]; exact hwf1.induced _
  have houts : (g1.removeNode n).outEdges s = newEdges s ps := by
    simp only [removeNode, outEdges, hg1, List.filter_filter, List.filter_append]
    have h1 : g.edges.filter (fun e => e.src == s && (!(e.src == n) && !(e.dst == n))) = [] := by
      rw [List.filter_eq_nil_iff]
      intro e he
      have := hlt _ (hw.srcMem e he)
      have : (e.src == s) = false := beq_eq_false_iff_ne.2 (by nomega)
      simp [this]
    have h2 : (newEdges s ps).filter (fun e => e.src == s && (!(e.src == n) && !(e.dst == n))) = newEdges s ps := by
      rw [List.filter_eq_self]
      intro e he
      have := mem_newEdges he
      have a1 : (e.src == s) = true := by simp [this.1]
      have a2 : (e.src == n) = false := beq_eq_false_iff_ne.2 (by nomega)
      have a3 : (e.dst == n) = false := beq_eq_false_iff_ne.2 (by nomega)
      simp [a1, a2, a3]
    have h3 : ((g.inEdges n).map fun e => (⟨e.src, s, e.weight⟩ : Edge)).filter
        (fun e => e.src == s && (!(e.src == n) && !(e.dst == n))) = [] := by
      rw [List.filter_eq_nil_iff]
      intro e he
      obtain ⟨e0, he0, rfl⟩ := List.mem_map.1 he
      have := hlt _ (hw.srcMem e0 (List.mem_filter.1 he0).1)
      have : (e0.src == s) = false := beq_eq_false_iff_ne.2 (by nomega)
      simp [this]
    rw [h1, h2, h3]; simp
  have hws : (g1.removeNode n).logWeights s = .ok ((newEdges s ps).map fun e => e.weight.getD 0) := by
    unfold logWeights
    rw [houts, mapM_readWeight_ok]
    intro e he
    obtain ⟨q, _, rfl⟩ := List.mem_map.1 he
    rfl
  obtain ⟨w, ws, hww⟩ : ∃ w ws, ((newEdges s ps).map fun e => e.weight.getD 0) = w :: ws := by
    cases ps with
    | nil => exact absurd rfl hps
    | cons q qs => exact ⟨_, _, rfl⟩
  refine ⟨(g1.removeNode n).mapWeights s (· - LogP.logsumexp (w :: ws)), ?_, ?_⟩
  · unfold expandLeaf normalizeUnit
    rw [hreq, hws, hww]
    rfl
  set G := g1.removeNode n with hG
  set φ : Edge → Edge := fun e => if e.src == s then { e with weight := e.weight.map (· - LogP.logsumexp (w :: ws)) } else e with hφ
  have hφs : ∀ e, (φ e).src = e.src := by intro e; simp only [hφ]; split <;> rfl
  have hφd : ∀ e, (φ e).dst = e.dst := by intro e; simp only [hφ]; split <;> rfl
  have hidsG : ∀ k, k ∈ G.ids ↔ k ∈ g1.ids ∧ k ≠ n := by
    intro k
    rw [hG, removeNode_eq_induced, mem_ids_induced]
    simp
  refine ⟨⟨hwf2.nodup, ?_, ?_, ?_⟩, ?_, ?_, ?_, ?_, ?_, ?_⟩
  · show ((G.edges.map φ).map fun e => (e.src, e.dst)).Nodup
    rw [List.map_map]
    have : ((fun e : Edge => (e.src, e.dst)) ∘ φ) = fun e => (e.src, e.dst) := by
      funext e; simp [hφs, hφd]
    rw [this]
    exact hwf2.edgeNodup
  · intro e he
    obtain ⟨e0, he0, rfl⟩ := List.mem_map.1 (show e ∈ G.edges.map φ from he)
    rw [hφs]; exact hwf2.srcMem e0 he0
  · intro e he
    obtain ⟨e0, he0, rfl⟩ := List.mem_map.1 (show e ∈ G.edges.map φ from he)
    rw [hφd]; exact hwf2.dstMem e0 he0
  · intro k hk hkn
    show G.kind? k = _
    rw [hG, kind?_removeNode, if_neg hkn]
    exact kind?_append_left hk
  · intro k hk hkn
    exact (hidsG k).2 ⟨(hids1 k).2 (.inl hk), hkn⟩
  · exact (hidsG s).2 ⟨(hids1 s).2 (.inr (by simp [newNodes])), by nomega⟩
  · intro k hk
    rcases (hids1 k).1 ((hidsG k).1 hk).1 with h | h
    · exact .inl h
    · exact .inr (hnew k h)
  · intro k hk hkn
    have hks : k ≠ s := by have := hlt k hk; nomega
    have e1 : ((G.mapWeights s (· - LogP.logsumexp (w :: ws))).outEdges k) = G.outEdges k := by
      show (G.edges.map φ).filter (fun e => e.src == k) = G.edges.filter (fun e => e.src == k)
      rw [List.filter_map]
      have : ((fun e : Edge => e.src == k) ∘ φ) = fun e => e.src == k := by funext e; simp [hφs]
      rw [this]
      conv_rhs => rw [← List.map_id (G.edges.filter fun e => e.src == k)]
      apply List.map_congr_left
      intro e he
      have hek : e.src = k := by simpa using (List.mem_filter.1 he).2
      simp only [hφ, id]
      rw [if_neg]
      simp [hek, hks]
    rw [e1]
    have e2 : G.outEdges k = (g.outEdges k).filter (fun e => !(e.dst == n)) ++
        ((g.outEdges k).filter (fun e => e.dst == n)).map fun e => ⟨e.src, s, e.weight⟩ := by
      simp only [hG, removeNode, outEdges, hg1, List.filter_filter, List.filter_append]
      have h2 : (newEdges s ps).filter (fun e => e.src == k && (!(e.src == n) && !(e.dst == n))) = [] := by
        rw [List.filter_eq_nil_iff]
        intro e he
        have := (mem_newEdges he).1
        have : (e.src == k) = false := beq_eq_false_iff_ne.2 (by nomega)
        simp [this]
      rw [h2, List.append_nil]
      congr 1
      · apply List.filter_congr
        intro e _
        by_cases h : e.src = k
        · have : (e.src == n) = false := beq_eq_false_iff_ne.2 (by nomega)
          rw [this]; simp [Bool.and_comm]
        · rw [beq_eq_false_iff_ne.2 h]; simp
      · rw [List.filter_map, inEdges, List.filter_filter]
        congr 1
        apply List.filter_congr
        intro e _
        simp only [Function.comp]
        have hsn : (s == n) = false := beq_eq_false_iff_ne.2 (by nomega)
        rw [hsn]
        by_cases h : e.src = k
        · have : (k == n) = false := beq_eq_false_iff_ne.2 hkn
          simp [h, this]
        · rw [beq_eq_false_iff_ne.2 h]; simp
    rw [e2]
    exact perm_filter_map (fun e : Edge => e.dst == n) (fun e => ⟨e.src, s, e.weight⟩) (g.outEdges k)
  · intro e he
    obtain ⟨e0, he0, rfl⟩ := List.mem_map.1 (show e ∈ G.edges.map φ from he)
    rw [hφd]
    simp only [hG, removeNode, List.mem_filter, Bool.and_eq_true, Bool.not_eq_true', beq_eq_false_iff_ne] at he0
    obtain ⟨hm, _, hd⟩ := he0
    rcases List.mem_append.1 hm with hm | hm
    · rcases List.mem_append.1 hm with hm | hm
      · exact .inl ⟨e0, hm, rfl, hd⟩
      · exact .inr (.inl (mem_newEdges hm).2)
    · obtain ⟨e', he', rfl⟩ := List.mem_map.1 hm
      simp only [inEdges, List.mem_filter, beq_iff_eq] at he'
      exact .inr (.inr ⟨rfl, e', he'.1, he'.2⟩)

end Graph
end PM
