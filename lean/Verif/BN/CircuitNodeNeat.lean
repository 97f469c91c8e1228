import Verif.BN.CircuitNodeLemmas
import Verif.Circuit.Neat

/-!
# The joint circuit of a node and its parent is a tree if the conditional distributions are
-/

namespace PM.BN
open PM PM.Spec PM.BN.Spec PM.Graph
open PM.Leaf (lookup)

variable {v : Var} {own : Finset Var} {n : Node} {entries : List Entry} {message : List (ℤ × ℝ)}

theorem neat_entryProduct {e : Entry} (hw : e.circuit.WF) (hr : e.root ∈ e.circuit.ids)
    (ho : ∀ k ∈ (distribution e).ids, k < n) (hL : Layered (distribution e) e.root) (hN : Neat (distribution e)) (s : ℤ) :
    Neat (entryProduct v n [(s, 1)] e) := by
  have heq : entryProduct v n [(s, 1)] e = (newUnit n .prod).addAll n (partsOf
      (fun b : Bool => if b then newUnit (n + 1) (.leaf (.symbolic v [(s, 1)])) else distribution e)
      (fun b => if b then n + 1 else e.root) (fun _ => none) [true, false]) := by
    unfold entryProduct
    simp only [addAll, partsOf, List.foldl_cons, List.foldl_nil, List.map_cons, List.map_nil, if_true]
    rw [addSubcircuit_below hw hr]
    rfl
  rw [heq]
  have hLs : ∀ b ∈ [true, false], Layered ((fun b : Bool => if b then newUnit (n + 1) (.leaf (.symbolic v [(s, 1)])) else distribution e) b)
      ((fun b : Bool => if b then n + 1 else e.root) b) := by
    intro b _
    cases b
    · exact hL
    · exact layered_newUnit _ _
  have hu : ∀ b ∈ [true, false], n ∉ ((fun b : Bool => if b then (newUnit (n + 1) (.leaf (.symbolic v [(s, 1)])) : Circuit)
      else distribution e) b).ids := by
    intro b _ hn
    cases b
    · exact absurd (ho n hn) (lt_irrefl _)
    · simp at hn
  have hp : [true, false].Pairwise fun i j => DisjointIds ((fun b : Bool => if b then
      (newUnit (n + 1) (.leaf (.symbolic v [(s, 1)])) : Circuit) else distribution e) i)
      ((fun b : Bool => if b then (newUnit (n + 1) (.leaf (.symbolic v [(s, 1)])) : Circuit) else distribution e) j) := by
    rw [List.pairwise_pair]
    intro k hk hk'
    simp only [if_true, ids_newUnit, List.mem_singleton] at hk
    subst hk
    have := ho _ hk'
    nomega
  refine neat_assembled (assembled_parts (w := fun _ => none) (k := .prod) (u := n) (by simp) (fun h => by cases h) hLs hu hp) hu hp hLs
    ?_ (fun h => by cases h)
  intro b _
  cases b
  · exact hN
  · exact neat_leaf _ _

theorem neat_joint (hm : IsMass message) (h : GoodEntries v own n entries) (hN : ∀ e ∈ entries, Neat (distribution e))
    (hone : (entries.map fun e => lookup message e.state).sum = 1) {g : Circuit} (hg : jointWithParent v entries message n = .ok g) :
    Neat g := by
  unfold jointWithParent at hg
  rw [jointParts_eq hm fun e he => (h.root e he).2] at hg
  injection hg with hg
  subst hg
  have hmem : ∀ q ∈ numbered message (n + 1) entries, n < q.1 ∧ q.2 ∈ entries ∧ lookup message q.2.state ≠ 0 := fun q hq => by
    obtain ⟨h1, h2, h3⟩ := mem_numbered hq
    exact ⟨h1, h2, h3⟩
  have hd := fun q (hq : q ∈ numbered message (n + 1) entries) => denotes_entryProduct (n := q.1) (h.root q.2 (hmem q hq).2.1).1
    (h.root q.2 (hmem q hq).2.1).2 h.parent (fun k hk => (h.old q.2 (hmem q hq).2.1 k hk).trans (hmem q hq).1)
    (denotes_distribution (h.circuit q.2 (hmem q hq).2.1)).choose_spec q.2.state
  have hu : ∀ q ∈ numbered message (n + 1) entries, n ∉ (entryProduct v q.1 [(q.2.state, 1)] q.2).ids := by
    intro q hq hn
    have h1 := (hmem q hq).1
    rcases ((hd q hq).2 n).1 hn with h2 | h2 | h2
    · nomega
    · nomega
    · exact lt_irrefl _ (h.old q.2 (hmem q hq).2.1 n h2)
  have hp : (numbered message (n + 1) entries).Pairwise fun p q =>
      DisjointIds (entryProduct v p.1 [(p.2.state, 1)] p.2) (entryProduct v q.1 [(q.2.state, 1)] q.2) := by
    refine (numbered_pairwise h.separate).imp_of_mem ?_
    rintro p q hp hq ⟨h1, h2⟩ k hk hk'
    have hp1 := (hmem p hp).1
    have hq1 := (hmem q hq).1
    rcases ((hd p hp).2 k).1 hk with h3 | h3 | h3 <;> rcases ((hd q hq).2 k).1 hk' with h4 | h4 | h4
    · nomega
    · nomega
    · have := h.old q.2 (hmem q hq).2.1 k h4; nomega
    · nomega
    · nomega
    · have := h.old q.2 (hmem q hq).2.1 k h4; nomega
    · have := h.old p.2 (hmem p hp).2.1 k h3; nomega
    · have := h.old p.2 (hmem p hp).2.1 k h3; nomega
    · exact h2 k h3 h4
  have hpos : ∀ q ∈ numbered message (n + 1) entries, 0 < lookup message q.2.state := fun q hq =>
    lt_of_le_of_ne (lookup_nonneg hm.2 _) (Ne.symm (hmem q hq).2.2)
  refine neat_assembled (assembled_parts (w := fun q : Node × Entry => some (LogP.log (lookup message q.2.state))) (k := .sum) (u := n)
    (by simp) (fun _ _ _ => rfl) (fun q hq => (hd q hq).1.layered) hu hp) hu hp (fun q hq => (hd q hq).1.layered) (fun q hq => ?_)
    (fun _ => ⟨fun q hq => ⟨Real.log (lookup message q.2.state), ?_⟩, ?_⟩)
  · exact neat_entryProduct (h.root q.2 (hmem q hq).2.1).1 (h.root q.2 (hmem q hq).2.1).2
      (fun k hk => (h.old q.2 (hmem q hq).2.1 k hk).trans (hmem q hq).1) (h.circuit q.2 (hmem q hq).2.1).layered (hN q.2 (hmem q hq).2.1) _
  · rw [LogP.log, if_neg (not_le.2 (hpos q hq))]
  · rw [← hone]
    have h1 := sum_numbered (message := message) (fun _ => 1) entries (n + 1)
    simp only [mul_one] at h1
    rw [← h1]
    congr 1
    refine List.map_congr_left fun q _ => ?_
    simp only [linWeight]
    rw [LogP.exp_log (lookup_nonneg hm.2 _)]

end PM.BN
