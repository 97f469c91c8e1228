import Verif.Dist.Leaf
import Mathlib.MeasureTheory.Measure.Typeclasses.NullSingletonClass

/-! Cumulative distribution functions at extended real points and the measure of intervals. -/

namespace PM

open MeasureTheory Set

namespace SimpleInterval

theorem measurableSet_toSet (I : SimpleInterval) : MeasurableSet I.toSet := by
  have h : I.toSet = {x : ℝ | leftOK I.left I.lower x} ∩ {x : ℝ | rightOK I.right I.upper x} := rfl
  rw [h]
  apply MeasurableSet.inter
  · cases I.left with
    | opn => exact measurableSet_lt measurable_const measurable_coe_real_ereal
    | closed => exact measurableSet_le measurable_const measurable_coe_real_ereal
  · cases I.right with
    | opn => exact measurableSet_lt measurable_coe_real_ereal measurable_const
    | closed => exact measurableSet_le measurable_coe_real_ereal measurable_const

theorem isEmpty_iff (I : SimpleInterval) : ¬ I.IsEmpty → I.lower ≤ I.upper := by
  intro h
  by_contra hc
  exact h (.inl (not_le.1 hc))

theorem toSet_of_isEmpty {I : SimpleInterval} (h : I.IsEmpty) : I.toSet = ∅ := by
  ext x
  simp only [toSet, Mem, mem_ofPred_eq, mem_empty_iff_false, iff_false, not_and]
  intro hl hr
  have h1 : I.lower ≤ x := by
    unfold leftOK at hl; split at hl
    · exact hl
    · exact hl.le
  have h2 : (x : EReal) ≤ I.upper := by
    unfold rightOK at hr; split at hr
    · exact hr
    · exact hr.le
  rcases h with h | ⟨h, hb⟩
  · exact absurd (h1.trans h2) (not_le.2 h)
  · rcases hb with hb | hb
    · rw [hb] at hl
      exact absurd ((hl.trans_le h2).trans_eq h.symm) (lt_irrefl _)
    · rw [hb] at hr
      exact absurd ((h1.trans_lt hr).trans_eq h.symm) (lt_irrefl _)

end SimpleInterval

/-- Mass of the points at or below `x`. -/
noncomputable def measF (ν : Measure ℝ) (x : EReal) : ℝ := ν.real {y : ℝ | (y : EReal) ≤ x}

theorem measurableSet_coe_le (x : EReal) : MeasurableSet {y : ℝ | (y : EReal) ≤ x} :=
  measurableSet_le measurable_coe_real_ereal measurable_const

theorem measF_bot (ν : Measure ℝ) : measF ν ⊥ = 0 := by simp [measF]

theorem measF_top (ν : Measure ℝ) : measF ν ⊤ = ν.real univ := by simp [measF]

theorem measF_coe (ν : Measure ℝ) (x : ℝ) : measF ν x = ν.real (Iic x) := by
  simp [measF, Iic]

theorem null_coe_eq (ν : Measure ℝ) [NullSingletonClass ν] (a : EReal) : ν {y : ℝ | (y : EReal) = a} = 0 := by
  apply Set.Subsingleton.measure_zero
  intro x hx y hy
  simp only [mem_ofPred_eq] at hx hy
  exact_mod_cast hx.trans hy.symm

theorem toSet_ae_eq (ν : Measure ℝ) [NullSingletonClass ν] (I : SimpleInterval) :
    I.toSet =ᵐ[ν] {y : ℝ | I.lower < y ∧ (y : EReal) ≤ I.upper} := by
  have h1 : ∀ᵐ y : ℝ ∂ν, (y : EReal) ≠ I.lower := by
    rw [ae_iff]; simpa using null_coe_eq ν I.lower
  have h2 : ∀ᵐ y : ℝ ∂ν, (y : EReal) ≠ I.upper := by
    rw [ae_iff]; simpa using null_coe_eq ν I.upper
  filter_upwards [h1, h2] with y hy1 hy2
  have hl : SimpleInterval.leftOK I.left I.lower y ↔ I.lower < y := by
    unfold SimpleInterval.leftOK
    split
    · exact ⟨fun h => lt_of_le_of_ne h hy1.symm, le_of_lt⟩
    · exact Iff.rfl
  have hr : SimpleInterval.rightOK I.right I.upper y ↔ (y : EReal) ≤ I.upper := by
    unfold SimpleInterval.rightOK
    split
    · exact Iff.rfl
    · exact ⟨le_of_lt, fun h => lt_of_le_of_ne h hy2⟩
  change (SimpleInterval.leftOK I.left I.lower y ∧ SimpleInterval.rightOK I.right I.upper y) = _
  rw [hl, hr]
  rfl

/-- For an atomless finite measure the difference of the cdf at the borders is the mass of the interval. -/
theorem measF_sub (ν : Measure ℝ) [NullSingletonClass ν] [IsFiniteMeasure ν] (I : SimpleInterval) (h : I.lower ≤ I.upper) :
    measF ν I.upper - measF ν I.lower = ν.real I.toSet := by
  have e : {y : ℝ | (y : EReal) ≤ I.upper}
      = {y : ℝ | (y : EReal) ≤ I.lower} ∪ {y : ℝ | I.lower < y ∧ (y : EReal) ≤ I.upper} := by
    ext y
    simp only [mem_ofPred_eq, mem_union]
    constructor
    · intro hy
      rcases le_or_gt (y : EReal) I.lower with h' | h'
      · exact .inl h'
      · exact .inr ⟨h', hy⟩
    · rintro (h' | ⟨_, h'⟩)
      · exact h'.trans h
      · exact h'
  have hd : Disjoint {y : ℝ | (y : EReal) ≤ I.lower} {y : ℝ | I.lower < y ∧ (y : EReal) ≤ I.upper} := by
    rw [Set.disjoint_left]
    intro y hy hy'
    exact absurd hy (not_le.2 hy'.1)
  have hm : MeasurableSet {y : ℝ | I.lower < y ∧ (y : EReal) ≤ I.upper} :=
    (measurableSet_lt measurable_const measurable_coe_real_ereal).inter (measurableSet_coe_le _)
  rw [measureReal_congr (toSet_ae_eq ν I), measF, e, measureReal_union hd hm, measF]
  ring

theorem measF_nonneg (ν : Measure ℝ) (x : EReal) : 0 ≤ measF ν x := measureReal_nonneg

theorem measF_mono (ν : Measure ℝ) [IsFiniteMeasure ν] {x y : EReal} (h : x ≤ y) : measF ν x ≤ measF ν y :=
  measureReal_mono (fun _ hz => le_trans hz h)

end PM
