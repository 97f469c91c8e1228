import Verif.Dist.CdfMeasure
import Verif.Spec.Density
import Mathlib.MeasureTheory.Measure.Lebesgue.Basic
import Mathlib.MeasureTheory.Measure.WithDensity
import Mathlib.MeasureTheory.Measure.Count

/-! Helper lemmas on leaf distributions. -/

namespace PM

open MeasureTheory Set Classical ProbabilityTheory Spec

theorem nnvar_eq (σ : ℝ) : Leaf.nnvar σ = Real.toNNReal (σ ^ 2) := by
  apply NNReal.eq
  rw [Real.coe_toNNReal _ (sq_nonneg σ)]
  rfl

theorem toNNReal_sq_ne {σ : ℝ} (h : 0 < σ) : Real.toNNReal (σ ^ 2) ≠ 0 := by
  simp only [ne_eq, Real.toNNReal_eq_zero, not_le]
  positivity

/-! ### Densities -/

theorem discreteLogLik_exp (probs : List (ℤ × ℝ)) (hp : ∀ kp ∈ probs, 0 ≤ kp.2) (hn : (probs.map Prod.fst).Nodup)
    (x : ℝ) : (Leaf.discreteLogLik probs x).exp = ((probs.filter fun kp => (kp.1 : ℝ) = x).map Prod.snd).sum := by
  have key : ∀ (probs : List (ℤ × ℝ)) (acc : LogP), (∀ kp ∈ probs, 0 ≤ kp.2) → (probs.map Prod.fst).Nodup →
      (probs.foldl (fun acc kp => if x = (kp.1 : ℝ) then LogP.log kp.2 else acc) acc).exp
      = if (∃ kp ∈ probs, (kp.1 : ℝ) = x) then ((probs.filter fun kp => (kp.1 : ℝ) = x).map Prod.snd).sum
        else acc.exp := by
    intro probs
    induction probs with
    | nil => simp
    | cons kp probs ih =>
      intro acc hp hn
      simp only [List.map_cons, List.nodup_cons] at hn
      rw [List.foldl_cons, ih _ (fun q hq => hp q (by simp [hq])) hn.2]
      by_cases hx : x = (kp.1 : ℝ)
      · have hno : ¬ ∃ q ∈ probs, (q.1 : ℝ) = x := by
          rintro ⟨q, hq, hqx⟩
          apply hn.1
          rw [hx] at hqx
          have : q.1 = kp.1 := by exact_mod_cast hqx
          exact List.mem_map.2 ⟨q, hq, this⟩
        have hfil : probs.filter (fun q => decide ((q.1 : ℝ) = x)) = [] := by
          rw [List.filter_eq_nil_iff]
          intro q hq hqx
          exact hno ⟨q, hq, by simpa using hqx⟩
        have hyes : ∃ q ∈ kp :: probs, (q.1 : ℝ) = x := ⟨kp, by simp, hx.symm⟩
        rw [if_neg hno, if_pos hyes, if_pos hx, LogP.exp_log (hp kp (by simp))]
        rw [List.filter_cons_of_pos (by simpa using hx.symm), hfil]
        simp
      · rw [if_neg hx, List.filter_cons_of_neg (by simpa using Ne.symm hx)]
        have : (∃ q ∈ kp :: probs, (q.1 : ℝ) = x) ↔ ∃ q ∈ probs, (q.1 : ℝ) = x := by
          constructor
          · rintro ⟨q, hq, hqx⟩
            rcases List.mem_cons.1 hq with rfl | hq
            · exact absurd hqx.symm hx
            · exact ⟨q, hq, hqx⟩
          · rintro ⟨q, hq, hqx⟩; exact ⟨q, by simp [hq], hqx⟩
        simp only [this]
  rw [Leaf.discreteLogLik, key probs _ hp hn]
  split
  · rfl
  · rename_i hno
    have hfil : probs.filter (fun q => decide ((q.1 : ℝ) = x)) = [] := by
      rw [List.filter_eq_nil_iff]
      intro q hq hqx
      exact hno ⟨q, hq, by simpa using hqx⟩
    simp [hfil]

theorem gaussCdf_eq (μ σ : ℝ) (x : EReal) : Leaf.gaussCdf μ σ x = measF (gaussianReal μ (Real.toNNReal (σ ^ 2))) x := by
  unfold Leaf.gaussCdf
  rw [nnvar_eq]
  induction x with
  | bot => simp [measF_bot]
  | top => simp [measF_top]
  | coe x => simp [measF_coe]

theorem truncZ_eq (I : SimpleInterval) (μ σ : ℝ) (hσ : 0 < σ) (h : I.lower ≤ I.upper) :
    Leaf.truncZ I μ σ = (gaussianReal μ (Real.toNNReal (σ ^ 2))).real I.toSet := by
  have := nullSingletonClass_gaussianReal (μ := μ) (toNNReal_sq_ne hσ)
  rw [Leaf.truncZ, gaussCdf_eq, gaussCdf_eq, measF_sub _ _ h]

theorem toSet_volume_pos {I : SimpleInterval} (h : I.lower < I.upper) : 0 < volume I.toSet := by
  obtain ⟨a, ha1, ha2⟩ := EReal.lt_iff_exists_real_btwn.1 h
  obtain ⟨b, hb1, hb2⟩ := EReal.lt_iff_exists_real_btwn.1 ha2
  have hab : a < b := by exact_mod_cast hb1
  have hsub : Ioo a b ⊆ I.toSet := by
    intro x hx
    have h1 : I.lower < x := ha1.trans (by exact_mod_cast hx.1)
    have h2 : (x : EReal) < I.upper := lt_trans (by exact_mod_cast hx.2) hb2
    refine ⟨?_, ?_⟩
    · unfold SimpleInterval.leftOK; split
      · exact h1.le
      · exact h1
    · unfold SimpleInterval.rightOK; split
      · exact h2.le
      · exact h2
  refine lt_of_lt_of_le ?_ (measure_mono hsub)
  rw [Real.volume_Ioo]
  simpa using hab

theorem gauss_toSet_pos {I : SimpleInterval} (h : I.lower < I.upper) (μ : ℝ) {σ : ℝ} (hσ : 0 < σ) :
    0 < (gaussianReal μ (Real.toNNReal (σ ^ 2))).real I.toSet := by
  have hac := gaussianReal_absolutelyContinuous' μ (toNNReal_sq_ne hσ)
  rw [measureReal_def, ENNReal.toReal_pos_iff]
  refine ⟨?_, measure_lt_top _ _⟩
  rw [pos_iff_ne_zero]
  intro h0
  exact (toSet_volume_pos h).ne' (hac h0)

theorem exp_logLik {d : Leaf} (hv : d.Valid) (x : ℝ) : (d.logLik x).exp = leafDensity d x := by
  cases d with
  | uniform v lo hi l r =>
    simp only [Leaf.logLik, leafDensity]
    have hlt : (0 : ℝ) < hi - lo := sub_pos.2 hv
    by_cases hx : (SimpleInterval.mk lo hi l r).Mem x
    · rw [if_pos hx, if_pos (show _ ∧ _ from hx)]
      simp [Real.exp_neg, Real.exp_log hlt]
    · rw [if_neg hx, if_neg (show ¬ (_ ∧ _) from hx)]
      simp
  | dirac v loc cap =>
    simp only [Leaf.logLik, leafDensity]
    split
    · exact LogP.exp_log (le_of_lt hv)
    · simp
  | symbolic v probs => exact discreteLogLik_exp probs hv.1 hv.2 x
  | integer v probs => exact discreteLogLik_exp probs hv.1 hv.2 x
  | gaussian v μ σ =>
    simp only [Leaf.logLik, leafDensity, nnvar_eq]
    exact LogP.exp_log (gaussianPDFReal_nonneg _ _ _)
  | truncGaussian v I μ σ =>
    simp only [Leaf.logLik, leafDensity, nnvar_eq]
    have hZ := gauss_toSet_pos hv.2 μ hv.1
    split
    · rw [truncZ_eq I μ σ hv.1 hv.2.le, LogP.exp_sub, LogP.exp_log (gaussianPDFReal_nonneg _ _ _),
        LogP.exp_log hZ.le]
      rw [ne_eq, LogP.log_eq_negInf hZ.le]
      exact hZ.ne'
    · simp

theorem leafDensity_nonneg {d : Leaf} (hv : d.Valid) (x : ℝ) : 0 ≤ leafDensity d x := by
  rw [← exp_logLik hv]; exact LogP.exp_nonneg _

theorem measurable_leafDensity (d : Leaf) : Measurable (leafDensity d) := by
  cases d with
  | uniform v lo hi l r =>
    exact Measurable.ite (SimpleInterval.measurableSet_toSet _) measurable_const measurable_const
  | dirac v loc cap => exact Measurable.ite (measurableSet_singleton loc) measurable_const measurable_const
  | symbolic v probs | integer v probs =>
    have : leafDensity (.symbolic v probs) = fun x => (probs.map fun kp => if (kp.1 : ℝ) = x then kp.2 else 0).sum := by
      funext x
      simp only [leafDensity]
      induction probs with
      | nil => simp
      | cons kp probs ih => by_cases h : (kp.1 : ℝ) = x <;> simp [h, ih]
    change Measurable (leafDensity (.symbolic v probs))
    rw [this]
    induction probs with
    | nil => simp
    | cons kp probs ih =>
      simp only [List.map_cons, List.sum_cons]
      refine Measurable.add (Measurable.ite ?_ measurable_const measurable_const) (ih ?_)
      · exact measurableSet_eq_fun measurable_const measurable_id
      · funext x
        simp only [leafDensity]
        clear ih this
        induction probs with
        | nil => simp
        | cons kp probs ih => by_cases h : (kp.1 : ℝ) = x <;> simp [h, ih]
  | gaussian v μ σ => exact measurable_gaussianPDFReal _ _
  | truncGaussian v I μ σ =>
    exact Measurable.ite (SimpleInterval.measurableSet_toSet _)
      ((measurable_gaussianPDFReal _ _).div_const _) measurable_const

end PM
