import Verif.Circuit.Interaction
import Verif.Circuit.MountLayered
import Verif.Circuit.ValueLemmas

/-! # `mount_with_interaction_terms`: the resulting graph -/

namespace PM.Graph

open Spec

variable {D V : Type}

theorem kind?_eq_none {g : Graph D} {n : Node} (h : n ∉ g.ids) : g.kind? n = none := by
  cases hk : g.kind? n with
  | none => rfl
  | some k => exact absurd (mem_ids_of_kind? hk) h

theorem addNode_new {g : Graph D} (hw : g.WF) {n : Node} (hn : n ∉ g.ids) (k : Kind D) :
    (g.addNode n k).WF ∧ (∀ m, m ∈ (g.addNode n k).ids ↔ m ∈ g.ids ∨ m = n) ∧
      (∀ m ∈ g.ids, (g.addNode n k).kind? m = g.kind? m) ∧ (g.addNode n k).kind? n = some k ∧
      ∀ m, (g.addNode n k).outEdges m = g.outEdges m := by
  have hids : ∀ m, m ∈ (g.addNode n k).ids ↔ m ∈ g.ids ∨ m = n := by
    intro m
    unfold addNode
    rw [if_neg hn]
    simp [ids]
  refine ⟨wf_foldl_addNode [(n, k)] hw, hids, ?_, ?_, ?_⟩
  · intro m hm
    unfold addNode
    rw [if_neg hn]
    obtain ⟨k', hk'⟩ := exists_kind? hm
    unfold kind? at hk' ⊢
    simp only [List.find?_append]
    cases hf : g.nodes.find? fun p => p.1 == m with
    | none => rw [hf] at hk'; cases hk'
    | some p => rfl
  · unfold addNode
    rw [if_neg hn]
    have := kind?_eq_none hn
    unfold kind? at this ⊢
    simp only [List.find?_append]
    cases hf : g.nodes.find? fun p => p.1 == n with
    | none => simp
    | some p => rw [hf] at this; cases this
  · intro m
    unfold addNode
    split <;> rfl

theorem wf_removeEdge {g : Graph D} (hw : g.WF) (u c : Node) : (g.removeEdge u c).WF :=
  ⟨hw.nodup, (List.filter_sublist.map _).nodup hw.edgeNodup, fun e he => hw.srcMem e (List.mem_filter.1 he).1,
    fun e he => hw.dstMem e (List.mem_filter.1 he).1⟩

theorem outEdges_removeEdge_self {g : Graph D} {u c : Node} :
    (g.removeEdge u c).outEdges u = (g.outEdges u).filter fun e => !(e.dst == c) := by
  simp only [outEdges, removeEdge, List.filter_filter]
  apply List.filter_congr
  intro e _
  cases h : (e.src == u) <;> simp

theorem outEdges_removeEdge_other {g : Graph D} {u c n : Node} (h : n ≠ u) :
    (g.removeEdge u c).outEdges n = g.outEdges n := by
  simp only [outEdges, removeEdge, List.filter_filter]
  apply List.filter_congr
  intro e _
  cases h' : (e.src == n) with
  | false => simp
  | true =>
    have : (e.src == u) = false := beq_eq_false_iff_ne.2 (fun h'' => h ((beq_iff_eq.1 h').symm.trans h''))
    simp [this]

/-- `add_subcircuit` of a unit of the same circuit. -/
theorem addSubcircuit_self {g : Graph D} (hw : g.WF) {u o : Node} {w : Option LogP} (hu : u ∈ g.ids) (ho : o ∈ g.ids)
    (hn : o ∉ g.succ u) :
    (g.addSubcircuit g u o w).WF ∧ (∀ n, n ∈ (g.addSubcircuit g u o w).ids ↔ n ∈ g.ids) ∧
      (∀ n, (g.addSubcircuit g u o w).kind? n = g.kind? n) ∧
      (∀ n, n ≠ u → (g.addSubcircuit g u o w).outEdges n = g.outEdges n) ∧
      (g.addSubcircuit g u o w).outEdges u = g.outEdges u ++ [⟨u, o, w⟩] := by
  have hc := Compatible.refl g
  have hwf := wf_addSubcircuit (w := w) hw hw ho hu
  have hids : ∀ n, n ∈ (g.addSubcircuit g u o w).ids ↔ n ∈ g.ids := by
    intro n
    rw [mem_ids_addSubcircuit hw ho]
    exact ⟨fun h => h.elim id (reachable_mem_ids hw ho), .inl⟩
  refine ⟨hwf, hids, ?_, ?_, ?_⟩
  · intro n
    by_cases hm : n ∈ g.ids
    · exact kind?_addSubcircuit_left hm
    · rw [kind?_eq_none hm, kind?_eq_none fun h => hm ((hids n).1 h)]
  · intro n hne
    by_cases hm : n ∈ g.ids
    · exact outEdges_addSubcircuit_left hc hw hw ho hm hne
    · rw [outEdges_eq_nil hw hm, outEdges_eq_nil hwf fun h => hm ((hids n).1 h)]
  · rw [outEdges_addSubcircuit_self hc hw hw ho hu, updOut_new hn]

theorem reachable_compatible {g h : Graph D} (hg : g.WF) (hh : h.WF) (hc : Compatible g h) {x n : Node} (hx : x ∈ g.ids)
    (hxh : x ∈ h.ids) (hr : h.Reachable x n) : n ∈ g.ids := by
  induction hr with
  | refl => exact hx
  | tail hr hs ih =>
    have := (hc _ ih (reachable_mem_ids hh hxh hr)).2
    unfold succ at hs
    rw [← this] at hs
    exact succ_mem_ids hg hs

/-- Mounting a unit of `h` that may have been mounted before. -/
theorem link_step {g h : Graph D} (hg : g.WF) (hh : h.WF) (hc : Compatible g h) {s x : Node} {w : Option LogP}
    (hs : s ∈ g.ids) (hsh : s ∉ h.ids) (hx : x ∈ h.ids) (hn : x ∉ g.succ s) :
    (g.addSubcircuit (g.circuitOf h x) s x w).WF ∧ Compatible (g.addSubcircuit (g.circuitOf h x) s x w) h ∧
      (∀ n, n ∈ (g.addSubcircuit (g.circuitOf h x) s x w).ids ↔ n ∈ g.ids ∨ h.Reachable x n) ∧
      (∀ n ∈ g.ids, (g.addSubcircuit (g.circuitOf h x) s x w).kind? n = g.kind? n) ∧
      (∀ n ∈ g.ids, n ≠ s → (g.addSubcircuit (g.circuitOf h x) s x w).outEdges n = g.outEdges n) ∧
      (g.addSubcircuit (g.circuitOf h x) s x w).outEdges s = g.outEdges s ++ [⟨s, x, w⟩] := by
  unfold circuitOf
  by_cases hxg : x ∈ g.ids
  · rw [if_pos hxg]
    obtain ⟨h1, h2, h3, h4, h5⟩ := addSubcircuit_self (w := w) hg hs hxg hn
    refine ⟨h1, ?_, ?_, fun n _ => h3 n, fun n _ => h4 n, h5⟩
    · intro n hm hnh
      rw [h3 n, h4 n (fun h' => hsh (h' ▸ hnh))]
      exact hc n ((h2 n).1 hm) hnh
    · intro n
      rw [h2 n]
      exact ⟨.inl, fun h' => h'.elim id (reachable_compatible hg hh hc hxg hx)⟩
  · rw [if_neg hxg]
    have hwf := wf_addSubcircuit (w := w) hg hh hx hs
    refine ⟨hwf, ?_, fun n => mem_ids_addSubcircuit hh hx, fun n hm => kind?_addSubcircuit_left hm,
      fun n hm hne => outEdges_addSubcircuit_left hc hg hh hx hm hne, ?_⟩
    · intro n hm hnh
      have hns : n ≠ s := fun h' => hsh (h' ▸ hnh)
      rcases (mem_ids_addSubcircuit hh hx).1 hm with hm | hr
      · rw [kind?_addSubcircuit_left hm, outEdges_addSubcircuit_left hc hg hh hx hm hns]
        exact hc n hm hnh
      · exact ⟨kind?_addSubcircuit_right hc hh hx hr, outEdges_addSubcircuit_right hc hg hh hx hr hns⟩
    · rw [outEdges_addSubcircuit_self hc hg hh hx hs, updOut_new hn]

/-- The inner loop. -/
theorem link_fold {h : Graph D} (hh : h.WF) {s : Node} {pc : ℝ} {pq : ℕ → ℝ} (hsh : s ∉ h.ids) :
    ∀ (L : List (Node × ℕ)) {g : Graph D}, g.WF → Compatible g h → s ∈ g.ids → (∀ x ∈ L, x.1 ∈ h.ids) →
      (L.map Prod.fst).Nodup → (∀ x ∈ L, x.1 ∉ g.succ s) →
      (L.foldl (linkOther h s pc pq) g).WF ∧ Compatible (L.foldl (linkOther h s pc pq) g) h ∧
        (∀ n, n ∈ (L.foldl (linkOther h s pc pq) g).ids ↔ n ∈ g.ids ∨ ∃ x ∈ L, pq x.2 ≠ 0 ∧ h.Reachable x.1 n) ∧
        (∀ n ∈ g.ids, (L.foldl (linkOther h s pc pq) g).kind? n = g.kind? n) ∧
        (∀ n ∈ g.ids, n ≠ s → (L.foldl (linkOther h s pc pq) g).outEdges n = g.outEdges n) ∧
        (L.foldl (linkOther h s pc pq) g).outEdges s = g.outEdges s ++
          (L.filter fun x => decide (pq x.2 ≠ 0)).map fun x => ⟨s, x.1, some (LogP.log (pq x.2 / pc))⟩ := by
  intro L
  induction L with
  | nil => intro g hg hc _ _ _ _; exact ⟨hg, hc, by simp, fun _ _ => rfl, fun _ _ _ => rfl, by simp⟩
  | cons x L ih =>
    intro g hg hc hs hL hnd hn
    simp only [List.map_cons, List.nodup_cons] at hnd
    rw [List.foldl_cons]
    by_cases hx : pq x.2 = 0
    · have e : linkOther h s pc pq g x = g := if_pos hx
      rw [e]
      obtain ⟨h1, h2, h3, h4, h5, h6⟩ := ih hg hc hs (fun y hy => hL y (by simp [hy])) hnd.2 (fun y hy => hn y (by simp [hy]))
      refine ⟨h1, h2, ?_, h4, h5, ?_⟩
      · intro n
        rw [h3 n]
        simp [hx]
      · rw [h6]
        simp [hx]
    · have e : linkOther h s pc pq g x = g.addSubcircuit (g.circuitOf h x.1) s x.1 (some (LogP.log (pq x.2 / pc))) := if_neg hx
      rw [e]
      obtain ⟨a1, a2, a3, a4, a5, a6⟩ := link_step (w := some (LogP.log (pq x.2 / pc))) hg hh hc hs hsh (hL x (by simp))
        (hn x (by simp))
      obtain ⟨h1, h2, h3, h4, h5, h6⟩ := ih a1 a2 ((a3 s).2 (.inl hs)) (fun y hy => hL y (by simp [hy])) hnd.2 (by
        intro y hy hm
        unfold succ at hm
        rw [a6, List.map_append, List.mem_append] at hm
        rcases hm with hm | hm
        · exact hn y (by simp [hy]) hm
        · simp only [List.map_cons, List.map_nil, List.mem_singleton] at hm
          exact hnd.1 (hm ▸ List.mem_map_of_mem hy))
      refine ⟨h1, h2, ?_, ?_, ?_, ?_⟩
      · intro n
        rw [h3 n, a3 n]
        constructor
        · rintro ((h' | h') | ⟨y, hy, h'⟩)
          · exact .inl h'
          · exact .inr ⟨x, by simp, hx, h'⟩
          · exact .inr ⟨y, by simp [hy], h'⟩
        · rintro (h' | ⟨y, hy, h'⟩)
          · exact .inl (.inl h')
          · rcases List.mem_cons.1 hy with rfl | hy
            · exact .inl (.inr h'.2)
            · exact .inr ⟨y, hy, h'⟩
      · intro n hm
        rw [h4 n ((a3 n).2 (.inl hm)), a4 n hm]
      · intro n hm hne
        rw [h5 n ((a3 n).2 (.inl hm)) hne, a5 n hm hne]
      · rw [h6, a6]
        simp [hx]

/-- `normalize()` of the sum unit `s`. -/
theorem normalizeUnit_view {g : Graph D} (hw : g.WF) {s : Node} (hne : g.outEdges s ≠ [])
    (hws : ∀ e ∈ g.outEdges s, e.weight.isSome) :
    ∃ g', g.normalizeUnit s = .ok g' ∧ g'.WF ∧ g'.nodes = g.nodes ∧ (∀ n, n ≠ s → g'.outEdges n = g.outEdges n) ∧
      g'.outEdges s = (g.outEdges s).map fun e =>
        { e with weight := e.weight.map (· - LogP.logsumexp ((g.outEdges s).map fun e => e.weight.getD 0)) } := by
  obtain ⟨w, ws, hww⟩ : ∃ w ws, ((g.outEdges s).map fun e => e.weight.getD 0) = w :: ws := by
    cases h : g.outEdges s with
    | nil => exact absurd h hne
    | cons q qs => exact ⟨_, _, rfl⟩
  refine ⟨g.mapWeights s (· - LogP.logsumexp (w :: ws)), ?_, ?_, rfl, ?_, ?_⟩
  · unfold normalizeUnit logWeights
    rw [mapM_readWeight_ok hws, hww]
    rfl
  · set φ : Edge → Edge := fun e => if e.src == s then { e with weight := e.weight.map (· - LogP.logsumexp (w :: ws)) } else e
      with hφ
    have hφs : ∀ e, (φ e).src = e.src := by intro e; simp only [hφ]; split <;> rfl
    have hφd : ∀ e, (φ e).dst = e.dst := by intro e; simp only [hφ]; split <;> rfl
    refine ⟨hw.nodup, ?_, ?_, ?_⟩
    · show ((g.edges.map φ).map fun e => (e.src, e.dst)).Nodup
      rw [List.map_map]
      have : ((fun e : Edge => (e.src, e.dst)) ∘ φ) = fun e => (e.src, e.dst) := by
        funext e; simp [hφs, hφd]
      rw [this]
      exact hw.edgeNodup
    · intro e he
      obtain ⟨e0, he0, rfl⟩ := List.mem_map.1 (show e ∈ g.edges.map φ from he)
      rw [hφs]; exact hw.srcMem e0 he0
    · intro e he
      obtain ⟨e0, he0, rfl⟩ := List.mem_map.1 (show e ∈ g.edges.map φ from he)
      rw [hφd]; exact hw.dstMem e0 he0
  · intro n hn
    simp only [outEdges, mapWeights, List.filter_map]
    have : ((fun e : Edge => e.src == n) ∘ fun e : Edge =>
        if e.src == s then { e with weight := e.weight.map (· - LogP.logsumexp (w :: ws)) } else e) = fun e => e.src == n := by
      funext e
      simp only [Function.comp]
      split <;> rfl
    rw [this]
    conv_rhs => rw [← List.map_id (List.filter (fun e => e.src == n) g.edges)]
    apply List.map_congr_left
    intro e he
    have h1 := (List.mem_filter.1 he).2
    have h2 : (e.src == s) = false := beq_eq_false_iff_ne.2 fun h' => hn ((beq_iff_eq.1 h1).symm.trans h')
    simp [h2]
  · rw [hww]
    simp only [outEdges, mapWeights, List.filter_map]
    have : ((fun e : Edge => e.src == s) ∘ fun e : Edge =>
        if e.src == s then { e with weight := e.weight.map (· - LogP.logsumexp (w :: ws)) } else e) = fun e => e.src == s := by
      funext e
      simp only [Function.comp]
      split <;> rfl
    rw [this]
    apply List.map_congr_left
    intro e he
    have h1 := (List.mem_filter.1 he).2
    simp only [h1, if_true]

end PM.Graph
