import Verif.Spec.CircuitNode
import Verif.BN.ForwardLemmas
import Verif.Circuit.Denotes
import Verif.Circuit.CondReady

/-! Lemmas for nodes with circuits as conditional distributions. -/

namespace PM.Graph
open Spec

theorem removeUnreachable_idem {D : Type} {h : Graph D} (hw : h.WF) {o : Node} (ho : o ∈ h.ids) :
    (h.removeUnreachable o).removeUnreachable o = h.removeUnreachable o := by
  have hw' := below_wf (o := o) hw
  have ho' : o ∈ (h.removeUnreachable o).ids := (below_ids hw ho).2 .refl
  refine induced_all hw' fun n hn => ?_
  rw [decide_eq_true_eq, mem_layersFrom_iff' hw' ho']
  have hr := (below_ids hw ho).1 hn
  clear hn
  induction hr with
  | refl => exact .refl
  | tail hab hbc ih =>
    refine .tail ih ?_
    obtain ⟨e, he, hs, hd⟩ := mem_succ.1 hbc
    refine mem_succ.2 ⟨e, ?_, hs, hd⟩
    have : e ∈ (h.removeUnreachable o).outEdges e.src := by
      rw [hs, below_outEdges hw ho hab]
      exact mem_outEdges.2 ⟨he, hs⟩
    exact (mem_outEdges.1 this).1

theorem addSubcircuit_below {D : Type} {g h : Graph D} (hw : h.WF) {o : Node} (ho : o ∈ h.ids) (u : Node) (w : Option LogP) :
    g.addSubcircuit h u o w = g.addSubcircuit (h.removeUnreachable o) u o w := by
  unfold addSubcircuit mount
  rw [removeUnreachable_idem hw ho]

end PM.Graph

namespace PM.BN
open PM PM.Spec PM.BN.Spec PM.Graph MeasureTheory
open PM.Leaf (lookup normalizeProbs)

variable {v : Var} {own : Finset Var} {n : Node} {entries : List Entry} {message : List (ℤ × ℝ)}

/-- The entries that are not skipped, with the numbers of their product units. -/
noncomputable def numbered (message : List (ℤ × ℝ)) : Node → List Entry → List (Node × Entry)
  | _, [] => []
  | n, e :: es => open Classical in if lookup message e.state = 0 then numbered message n es else (n, e) :: numbered message (n + 2) es

theorem mem_numbered : ∀ {es : List Entry} {n : Node} {q : Node × Entry}, q ∈ numbered message n es →
    n ≤ q.1 ∧ q.2 ∈ es ∧ lookup message q.2.state ≠ 0
  | [], _, _, h => by simp [numbered] at h
  | e :: es, n, q, h => by
    unfold numbered at h
    split_ifs at h with h0
    · obtain ⟨h1, h2, h3⟩ := mem_numbered h
      exact ⟨h1, by simp [h2], h3⟩
    · rcases List.mem_cons.1 h with rfl | h
      · exact ⟨le_rfl, by simp, h0⟩
      · obtain ⟨h1, h2, h3⟩ := mem_numbered h
        exact ⟨by nomega, by simp [h2], h3⟩

theorem numbered_pairwise {R : Entry → Entry → Prop} : ∀ {es : List Entry} {n : Node}, es.Pairwise R →
    (numbered message n es).Pairwise fun p q => p.1 + 2 ≤ q.1 ∧ R p.2 q.2
  | [], _, _ => by simp [numbered]
  | e :: es, n, h => by
    rw [List.pairwise_cons] at h
    unfold numbered
    split_ifs
    · exact numbered_pairwise h.2
    · rw [List.pairwise_cons]
      refine ⟨fun q hq => ?_, numbered_pairwise h.2⟩
      obtain ⟨h1, h2, _⟩ := mem_numbered hq
      exact ⟨h1, h.1 _ h2⟩

/-- Sums over the entries that are not skipped. -/
theorem sum_numbered (F : Entry → ℝ) : ∀ (es : List Entry) (n : Node),
    ((numbered message n es).map fun q => lookup message q.2.state * F q.2).sum = (es.map fun e => lookup message e.state * F e).sum
  | [], _ => rfl
  | e :: es, n => by
    unfold numbered
    split_ifs with h
    · rw [sum_numbered F es n, List.map_cons, List.sum_cons, h, zero_mul, zero_add]
    · rw [List.map_cons, List.map_cons, List.sum_cons, List.sum_cons, sum_numbered F es (n + 2)]

theorem conditionOn_single (hm : IsMass message) (s : ℤ) :
    conditionOn message [s] = if lookup message s = 0 then (none, 0) else (some [(s, 1)], lookup message s) := by
  have h0 := lookup_nonneg hm.2 s
  unfold conditionOn
  split_ifs with h
  · simp [h]
  · have hpos : 0 < lookup message s := lt_of_le_of_ne h0 (Ne.symm h)
    simp [hpos, normalizeProbs, h]

theorem jointParts_eq (hm : IsMass message) : ∀ {es : List Entry} {n : Node}, (∀ e ∈ es, e.root ∈ e.circuit.ids) →
    jointParts v message n es = .ok (partsOf (fun q : Node × Entry => entryProduct v q.1 [(q.2.state, 1)] q.2) (fun q => q.1)
      (fun q => some (LogP.log (lookup message q.2.state))) (numbered message n es))
  | [], _, _ => rfl
  | e :: es, n, h => by
    unfold jointParts numbered
    rw [conditionOn_single hm]
    by_cases h0 : lookup message e.state = 0
    · simp only [h0, if_true]
      exact jointParts_eq hm fun e he => h e (by simp [he])
    · simp only [h0, if_false, h e (by simp), if_true]
      rw [jointParts_eq hm fun e he => h e (by simp [he])]
      rfl

/-- The value of an entry. -/
theorem denotes_distribution (h : IsCircuit (distribution e) e.root own) : ∃ F, Denotes (distribution e) e.root own F := by
  classical
  refine ⟨fun ℓ => (exists_circuitValue h.layered.graded.acyclic ℓ).choose e.root, h.layered, h.scope, h.valid, fun ℓ f hf => ?_⟩
  exact circuitValue_unique h.layered.wf h.layered.graded.acyclic hf (exists_circuitValue h.layered.graded.acyclic ℓ).choose_spec
    _ (root_mem h.layered.root).1

theorem denotes_entryProduct {e : Entry} (hw : e.circuit.WF) (hr : e.root ∈ e.circuit.ids) (hv : v ∉ own)
    (ho : ∀ k ∈ (distribution e).ids, k < n) {F : (Leaf → ℝ) → ℝ} (hD : Denotes (distribution e) e.root own F) (s : ℤ) :
    Denotes (entryProduct v n [(s, 1)] e) n (insert v own) (fun ℓ => ℓ (.symbolic v [(s, 1)]) * F ℓ) ∧
      ∀ k, k ∈ (entryProduct v n [(s, 1)] e).ids ↔ k = n ∨ k = n + 1 ∨ k ∈ (distribution e).ids := by
  have hd : (Leaf.symbolic v [(s, 1)]).Valid := ⟨by simp, by simp⟩
  have heq : entryProduct v n [(s, 1)] e = (newUnit n .prod).addAll n (partsOf
      (fun b : Bool => if b then newUnit (n + 1) (.leaf (.symbolic v [(s, 1)])) else distribution e)
      (fun b => if b then n + 1 else e.root) (fun _ => none) [true, false]) := by
    unfold entryProduct
    simp only [addAll, partsOf, List.foldl_cons, List.foldl_nil, List.map_cons, List.map_nil, if_true]
    rw [addSubcircuit_below hw hr]
    rfl
  rw [heq]
  obtain ⟨h1, h2⟩ := denotes_prod (u := n) (U := insert v own)
    (G := fun b : Bool => if b then newUnit (n + 1) (.leaf (.symbolic v [(s, 1)])) else distribution e)
    (o := fun b => if b then n + 1 else e.root) (V := fun b => if b then {v} else own)
    (F := fun b ℓ => if b then ℓ (.symbolic v [(s, 1)]) else F ℓ) (is := [true, false])
    (by
      intro b _
      cases b
      · exact hD
      · exact denotes_leaf (n + 1) hd)
    (by
      intro b _ hn
      cases b
      · exact absurd (ho n hn) (lt_irrefl _)
      · simp at hn)
    (by
      rw [List.pairwise_pair]
      intro k hk hk'
      simp only [if_true, ids_newUnit, List.mem_singleton] at hk
      subst hk
      have := ho _ hk'
      nomega)
    (by intro w; simp [or_comm])
    (by simpa using hv)
  refine ⟨h1.congr fun ℓ => by simp, fun k => ?_⟩
  rw [h2]
  simp [or_comm]

/-- The joint distribution of the node and its parent as a circuit. -/
theorem denotes_joint (hm : IsMass message) (h : GoodEntries v own n entries) {F : Entry → (Leaf → ℝ) → ℝ}
    (hF : ∀ e ∈ entries, Denotes (distribution e) e.root own (F e)) (hpos : ∃ e ∈ entries, lookup message e.state ≠ 0) :
    ∃ g, jointWithParent v entries message n = .ok g ∧ Denotes g n (insert v own)
      (fun ℓ => (entries.map fun e => lookup message e.state * (ℓ (.symbolic v [(e.state, 1)]) * F e ℓ)).sum) ∧
      (∀ P : Leaf → Prop, (∀ e ∈ entries, P (.symbolic v [(e.state, 1)])) →
        (∀ e ∈ entries, ∀ k d, (distribution e).kind? k = some (.leaf d) → P d) → ∀ k d, g.kind? k = some (.leaf d) → P d) := by
  unfold jointWithParent
  rw [jointParts_eq hm fun e he => (h.root e he).2]
  refine ⟨_, rfl, ?_⟩
  have hmem : ∀ q ∈ numbered message (n + 1) entries, n < q.1 ∧ q.2 ∈ entries := fun q hq => by
    obtain ⟨h1, h2, _⟩ := mem_numbered hq
    exact ⟨h1, h2⟩
  have hd := fun q (hq : q ∈ numbered message (n + 1) entries) => denotes_entryProduct (n := q.1) (h.root q.2 (hmem q hq).2).1
    (h.root q.2 (hmem q hq).2).2 h.parent (fun k hk => (h.old q.2 (hmem q hq).2 k hk).trans (hmem q hq).1)
    (hF q.2 (hmem q hq).2) q.2.state
  have hu : ∀ q ∈ numbered message (n + 1) entries, n ∉ (entryProduct v q.1 [(q.2.state, 1)] q.2).ids := by
    intro q hq hn
    have h1 := (hmem q hq).1
    rcases ((hd q hq).2 n).1 hn with h2 | h2 | h2
    · nomega
    · nomega
    · exact lt_irrefl _ (h.old q.2 (hmem q hq).2 n h2)
  have hp : (numbered message (n + 1) entries).Pairwise fun p q =>
      DisjointIds (entryProduct v p.1 [(p.2.state, 1)] p.2) (entryProduct v q.1 [(q.2.state, 1)] q.2) := by
    refine (numbered_pairwise h.separate).imp_of_mem ?_
    rintro p q hp hq ⟨h1, h2⟩ k hk hk'
    have hp1 := (hmem p hp).1
    have hq1 := (hmem q hq).1
    rcases ((hd p hp).2 k).1 hk with h3 | h3 | h3 <;> rcases ((hd q hq).2 k).1 hk' with h4 | h4 | h4
    · nomega
    · nomega
    · have := h.old q.2 (hmem q hq).2 k h4; nomega
    · nomega
    · nomega
    · have := h.old q.2 (hmem q hq).2 k h4; nomega
    · have := h.old p.2 (hmem p hp).2 k h3; nomega
    · have := h.old p.2 (hmem p hp).2 k h3; nomega
    · exact h2 k h3 h4
  have hne : numbered message (n + 1) entries ≠ [] := by
    intro h0
    obtain ⟨e, he, hl⟩ := hpos
    have : ∀ (es : List Entry) (k : Node), numbered message k es = [] → ∀ e ∈ es, lookup message e.state = 0 := by
      intro es
      induction es with
      | nil => simp
      | cons a es ih =>
        intro k h0 e he
        unfold numbered at h0
        split_ifs at h0 with h1
        rcases List.mem_cons.1 he with rfl | he
        · exact h1
        · exact ih k h0 e he
    exact hl (this _ _ h0 e he)
  refine ⟨((denotes_sum (u := n) (W := fun q : Node × Entry => LogP.log (lookup message q.2.state)) hne (fun q hq => (hd q hq).1)
    hu hp).1).congr fun ℓ => ?_, fun P h1 h2 => ?_⟩
  · rw [← sum_numbered (fun e => ℓ (.symbolic v [(e.state, 1)]) * F e ℓ) entries (n + 1)]
    congr 1
    refine List.map_congr_left fun q _ => ?_
    rw [LogP.exp_log (lookup_nonneg hm.2 _)]
  · refine leaves_sum (W := fun q : Node × Entry => LogP.log (lookup message q.2.state)) (fun q hq => (hd q hq).1.layered) hu hp ?_
    intro q hq k d hk
    obtain ⟨_, hqe⟩ := hmem q hq
    have hw := (h.root q.2 hqe).1
    have hr := (h.root q.2 hqe).2
    have heq : entryProduct v q.1 [(q.2.state, 1)] q.2 = (newUnit q.1 .prod).addAll q.1 (partsOf
        (fun b : Bool => if b then newUnit (q.1 + 1) (.leaf (.symbolic v [(q.2.state, 1)])) else distribution q.2)
        (fun b => if b then q.1 + 1 else q.2.root) (fun _ => none) [true, false]) := by
      unfold entryProduct
      simp only [addAll, partsOf, List.foldl_cons, List.foldl_nil, List.map_cons, List.map_nil, if_true]
      rw [addSubcircuit_below hw hr]
      rfl
    rw [heq] at hk
    refine leaves_prod (u := q.1) (is := [true, false])
      (G := fun b : Bool => if b then newUnit (q.1 + 1) (.leaf (.symbolic v [(q.2.state, 1)])) else distribution q.2)
      (o := fun b => if b then q.1 + 1 else q.2.root) (P := P) ?_ ?_ ?_ ?_ k d hk
    · intro b _
      cases b
      · exact (hF q.2 hqe).layered
      · exact layered_newUnit _ _
    · intro b _ hn
      have h1 := (hmem q hq).1
      cases b
      · have := h.old q.2 hqe _ hn; nomega
      · simp at hn
    · rw [List.pairwise_pair]
      intro j hj hj'
      simp only [if_true, ids_newUnit, List.mem_singleton] at hj
      have h1 := (hmem q hq).1
      have := h.old q.2 hqe _ hj'
      nomega
    · intro b _ j d hj
      cases b
      · exact h2 q.2 hqe j d hj
      · exact leaves_newUnit (h1 q.2 hqe) j d hj

end PM.BN
