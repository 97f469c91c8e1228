import Verif.Circuit.Structure
import Verif.Props.Examples
import Verif.Props.ExampleTools

/-!
# C22: `is_decomposable`
-/

namespace PM.Props

open Graph Spec PM.Bound

/-- C22 as claimed: the answer is never `True` for a circuit with a product unit two of whose children share a variable. -/
def C22_full : Prop := ∀ (g : Circuit) (r : Node) (sc : Node → Finset Var), Layered g r → Scoped g sc → ¬ Decomposable g sc →
  g.isDecomposable ≠ .ok true

theorem leaves_filter_product (g : Circuit) (n : Node) : (g.leavesOf n).filter g.isProductUnit = [] := by
  rw [List.filter_eq_nil_iff]
  intro k hk hp
  unfold leavesOf at hk
  split at hk
  · cases hk
  · have := (List.mem_filter.1 hk).2
    unfold isLeafUnit at this
    unfold isProductUnit at hp
    revert this hp
    cases g.kind? k with
    | none => simp
    | some k => cases k <;> simp

/-- The code answers `True` for every circuit with a unique root: it looks for product units among the leaf units. -/
theorem C22_always_true (g : Circuit) (r : Node) (hr : g.root = .ok r) : g.isDecomposable = .ok true := by
  unfold isDecomposable
  rw [hr]
  simp only [bind, Except.bind, leaves_filter_product]
  rfl

/-- `0: ⊗ → 1: U₀[0,1], 2: U₀[0,1]`: the two factors share their variable. -/
noncomputable def overlapping : Circuit where
  nodes := [(0, .prod), (1, .leaf (.uniform 0 0 1 closed closed)), (2, .leaf (.uniform 0 0 1 closed closed))]
  edges := [⟨0, 1, none⟩, ⟨0, 2, none⟩]

theorem overlapping_layered : Layered overlapping 0 where
  wf := ⟨by decide, by decide, by simp [overlapping, ids], by simp [overlapping, ids]⟩
  graded := ⟨fun n => if n = 0 then 0 else 1, by simp [overlapping]⟩
  leaves := Ex.leafTerminal_of (by simp [overlapping, succ, outEdges])
  weighted := Ex.weighted_of (by simp [overlapping, outEdges])
  root := rfl

theorem overlapping_scoped : Scoped overlapping (fun _ => {0}) := by
  refine Ex.scoped_of ?_ ?_ ?_
  · simp [overlapping, Leaf.var]
  · simp [overlapping]
  · simp [overlapping, succ, outEdges]

/-- C22 does not hold. -/
theorem C22_full_false : ¬ C22_full := by
  intro h
  refine h overlapping 0 _ overlapping_layered overlapping_scoped ?_ (C22_always_true _ 0 rfl)
  intro hd
  have := hd 0 rfl
  have hs : overlapping.succ 0 = [1, 2] := rfl
  rw [hs] at this
  simp at this

/-- C22, the part that holds: the check of a single product unit is exact.  Missing: the circuit-level check does not call
it. -/
theorem C22_unit_partial {g : Circuit} (hw : g.WF) (ha : g.Acyclic) {sc : Node → Finset Var} (hs : Scoped g sc) (n : Node) :
    ∃ b, g.productIsDecomposable n = .ok b ∧ (b = true ↔ (g.succ n).Pairwise fun a b => Disjoint (sc a) (sc b)) := by
  obtain ⟨rank, hrank, hb⟩ := ha.bounded hw
  have hv : ∀ c ∈ g.ids, g.varsOf (g.nodes.length + 1) c = .ok (sc c) := fun c hc =>
    varsOf_eq hw hs hrank _ _ (Nat.lt_succ_of_le (hb c)) hc
  have hmem : ∀ c ∈ g.succ n, c ∈ g.ids := fun c hc => by
    obtain ⟨e, he, _, rfl⟩ := mem_succ.1 hc
    exact hw.dstMem e he
  unfold productIsDecomposable
  revert hmem
  generalize g.succ n = l
  induction l with
  | nil => intro _; exact ⟨true, rfl, by simp⟩
  | cons c cs ih =>
    intro hmem
    obtain ⟨b, h1, h2⟩ := ih fun d hd => hmem d (List.mem_cons_of_mem _ hd)
    have hag : ∀ ds : List Node, (∀ d ∈ ds, d ∈ g.ids) →
        decomposableChildren.against g (sc c) ds = .ok (decide (∀ d ∈ ds, Disjoint (sc c) (sc d))) := by
      intro ds
      induction ds with
      | nil => intro _; simp [decomposableChildren.against]
      | cons d ds ihd =>
        intro hd
        have hid := ihd fun k hk => hd k (List.mem_cons_of_mem _ hk)
        unfold decomposableChildren.against
        rw [hv d (hd d (by simp))]
        simp only [bind, Except.bind]
        by_cases hdis : Disjoint (sc c) (sc d)
        · rw [if_neg, hid]
          · simp [hdis]
          · rw [Finset.disjoint_iff_inter_eq_empty, Finset.inter_comm] at hdis
            simp [hdis]
        · rw [if_pos]
          · simp [hdis]
          · show 0 < (sc d ∩ sc c).card
            rw [Finset.card_pos, Finset.nonempty_iff_ne_empty, Finset.inter_comm]
            exact fun he => hdis (Finset.disjoint_iff_inter_eq_empty.2 he)
    unfold decomposableChildren
    rw [hv c (hmem c (by simp))]
    simp only [bind, Except.bind]
    rw [hag cs fun d hd => hmem d (List.mem_cons_of_mem _ hd)]
    by_cases hall : ∀ d ∈ cs, Disjoint (sc c) (sc d)
    · refine ⟨b, ?_, ?_⟩
      · simp only [decide_eq_true hall]
        simpa using h1
      · rw [h2, List.pairwise_cons]
        exact ⟨fun h => ⟨hall, h⟩, fun h => h.2⟩
    · refine ⟨false, by simp [hall], ?_⟩
      rw [List.pairwise_cons]
      simp [hall]

example : overlapping.WF ∧ overlapping.Acyclic ∧ Scoped overlapping (fun _ => {0}) :=
  ⟨overlapping_layered.wf, overlapping_layered.graded.acyclic, overlapping_scoped⟩

end PM.Props
