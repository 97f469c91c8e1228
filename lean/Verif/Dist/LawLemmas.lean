import Verif.Spec.Law
import Verif.Dist.LeafLemmas

/-! The probability a leaf returns is the mass its law gives to the set. -/

namespace PM

open MeasureTheory ProbabilityTheory Set Spec
open scoped ENNReal

namespace VSet

theorem measurableSet_toSet (A : VSet) : MeasurableSet A.toSet := by
  cases A with
  | interval I =>
    have : (VSet.interval I).toSet = ⋃ i ∈ I, i.toSet := by
      ext x; simp [toSet, VSet.Mem, SimpleInterval.toSet]
    rw [this]
    exact MeasurableSet.biUnion I.finite_toSet.countable (fun i _ => i.measurableSet_toSet)
  | symbols S =>
    have : (VSet.symbols S).toSet = ⋃ k ∈ S, {(k : ℝ)} := by
      ext x; simp [toSet, VSet.Mem, eq_comm]
    rw [this]
    exact MeasurableSet.biUnion S.finite_toSet.countable (fun i _ => measurableSet_singleton _)

end VSet

theorem cdfSum_eq {ν : Measure ℝ} [NullSingletonClass ν] [IsFiniteMeasure ν] {F : EReal → ℝ} (hF : ∀ x, F x = measF ν x)
    {I : List SimpleInterval} (hI : (VSet.interval I).Disjoint) :
    Leaf.cdfSum F I = ν.real (VSet.interval I).toSet := by
  obtain ⟨hp, hne⟩ := hI
  unfold Leaf.cdfSum
  induction I with
  | nil => simp [VSet.toSet, VSet.Mem]
  | cons i I ih =>
    have hu : (VSet.interval (i :: I)).toSet = i.toSet ∪ (VSet.interval I).toSet := by
      ext x; simp [VSet.toSet, VSet.Mem, SimpleInterval.toSet]
    have hd : Disjoint i.toSet (VSet.interval I).toSet := by
      rw [Set.disjoint_left]
      rintro x hx ⟨j, hj, hxj⟩
      exact (List.pairwise_cons.1 hp).1 j hj x ⟨hx, hxj⟩
    rw [hu, measureReal_union hd (VSet.measurableSet_toSet _), List.map_cons, List.sum_cons,
      ih (List.pairwise_cons.1 hp).2 (fun j hj => hne j (by simp [hj])), hF, hF,
      measF_sub ν i (i.isEmpty_iff (hne i (by simp)))]

/-! ### Continuous laws -/

theorem uniform_law_eq (v : Var) {lo hi : ℝ} (_h : lo < hi) (l r : Bound) :
    leafLaw (.uniform v lo hi l r) = ENNReal.ofReal (1 / (hi - lo)) • volume.restrict (Ioc lo hi) := by
  have e : (fun x => ENNReal.ofReal (leafDensity (.uniform v lo hi l r) x))
      = (SimpleInterval.mk lo hi l r).toSet.indicator (fun _ => ENNReal.ofReal (1 / (hi - lo))) := by
    funext x
    by_cases hx : (SimpleInterval.mk lo hi l r).Mem x
    · rw [indicator_of_mem (show x ∈ SimpleInterval.toSet _ from hx)]
      simp [leafDensity, hx]
    · rw [indicator_of_notMem (show x ∉ SimpleInterval.toSet _ from hx)]
      simp [leafDensity, hx]
  simp only [leafLaw]
  rw [e, withDensity_indicator (SimpleInterval.measurableSet_toSet _), withDensity_const]
  congr 1
  have := toSet_ae_eq (volume : Measure ℝ) (SimpleInterval.mk lo hi l r)
  rw [Measure.restrict_congr_set this]
  congr 1
  ext y
  simp

theorem uniformCdf_eq (v : Var) {lo hi : ℝ} (h : lo < hi) (l r : Bound) (x : EReal) :
    Leaf.uniformCdf lo hi x = measF (leafLaw (.uniform v lo hi l r)) x := by
  have hpos : 0 < hi - lo := sub_pos.2 h
  have hne : hi - lo ≠ 0 := hpos.ne'
  rw [uniform_law_eq v h]
  unfold Leaf.uniformCdf
  induction x with
  | bot => simp [measF_bot]
  | top =>
    rw [measF_top]
    simp only [top_ne_bot, if_false, if_true]
    rw [measureReal_def, Measure.smul_apply, Measure.restrict_apply_univ, Real.volume_Ioc, smul_eq_mul,
      ← ENNReal.ofReal_mul (by positivity), ENNReal.toReal_ofReal (by positivity)]
    field_simp
  | coe x =>
    rw [measF_coe, measureReal_def, Measure.smul_apply, Measure.restrict_apply measurableSet_Iic, smul_eq_mul]
    have e : Iic x ∩ Ioc lo hi = Ioc lo (min hi x) := by
      ext y; simp only [mem_inter_iff, mem_Iic, mem_Ioc, le_min_iff]; tauto
    rw [e, Real.volume_Ioc, ← ENNReal.ofReal_mul (by positivity)]
    simp only [EReal.coe_ne_bot, EReal.coe_ne_top, if_false, EReal.toReal_coe]
    rcases le_total x lo with h1 | h1
    · have h2 : (x - lo) / (hi - lo) ≤ 0 := div_nonpos_of_nonpos_of_nonneg (by linarith) hpos.le
      rw [max_eq_left h2, min_eq_right (by norm_num : (0 : ℝ) ≤ 1), min_eq_right (h1.trans h.le),
        ENNReal.ofReal_of_nonpos (mul_nonpos_of_nonneg_of_nonpos (by positivity) (by linarith))]
      simp
    · have h2 : 0 ≤ (x - lo) / (hi - lo) := div_nonneg (by linarith) hpos.le
      rw [max_eq_right h2]
      rcases le_total x hi with h3 | h3
      · have h4 : (x - lo) / (hi - lo) ≤ 1 := by rw [div_le_one hpos]; linarith
        rw [min_eq_right h4, min_eq_right h3, ENNReal.toReal_ofReal (by
          apply mul_nonneg (by positivity) (by linarith))]
        field_simp
      · have h4 : 1 ≤ (x - lo) / (hi - lo) := by rw [one_le_div hpos]; linarith
        rw [min_eq_left h4, min_eq_left h3, ENNReal.toReal_ofReal (by positivity)]
        field_simp

theorem gauss_law_eq (v : Var) (μ : ℝ) {σ : ℝ} (h : 0 < σ) :
    leafLaw (.gaussian v μ σ) = gaussianReal μ (Real.toNNReal (σ ^ 2)) := by
  rw [gaussianReal_of_var_ne_zero _ (toNNReal_sq_ne h)]
  rfl

theorem trunc_law_eq (v : Var) {I : SimpleInterval} (μ : ℝ) {σ : ℝ} (h : 0 < σ) (hI : I.lower < I.upper) :
    leafLaw (.truncGaussian v I μ σ) = ENNReal.ofReal (1 / (gaussianReal μ (Real.toNNReal (σ ^ 2))).real I.toSet) •
      (gaussianReal μ (Real.toNNReal (σ ^ 2))).restrict I.toSet := by
  have hZ := gauss_toSet_pos hI μ h
  set Z := (gaussianReal μ (Real.toNNReal (σ ^ 2))).real I.toSet with hZd
  have e : (fun x => ENNReal.ofReal (leafDensity (.truncGaussian v I μ σ) x))
      = I.toSet.indicator (ENNReal.ofReal (1 / Z) • gaussianPDF μ (Real.toNNReal (σ ^ 2))) := by
    funext x
    by_cases hx : I.Mem x
    · rw [indicator_of_mem (show x ∈ SimpleInterval.toSet _ from hx)]
      simp only [leafDensity, hx, if_true, Pi.smul_apply, smul_eq_mul, gaussianPDF]
      rw [← ENNReal.ofReal_mul (by positivity)]
      congr 1
      rw [← hZd]
      ring
    · rw [indicator_of_notMem (show x ∉ SimpleInterval.toSet _ from hx)]
      simp [leafDensity, hx]
  simp only [leafLaw]
  rw [e, withDensity_indicator I.measurableSet_toSet, withDensity_smul _ (measurable_gaussianPDF _ _),
    gaussianReal_of_var_ne_zero _ (toNNReal_sq_ne h), restrict_withDensity I.measurableSet_toSet]

theorem truncCdf_eq (v : Var) {I : SimpleInterval} (μ : ℝ) {σ : ℝ} (h : 0 < σ) (hI : I.lower < I.upper) (x : EReal) :
    Leaf.truncCdf I μ σ x = measF (leafLaw (.truncGaussian v I μ σ)) x := by
  have hZ := gauss_toSet_pos hI μ h
  have hnull := nullSingletonClass_gaussianReal (μ := μ) (toNNReal_sq_ne h)
  rw [trunc_law_eq v μ h hI]
  unfold Leaf.truncCdf
  rw [truncZ_eq I μ σ h hI.le]
  set γ := gaussianReal μ (Real.toNNReal (σ ^ 2)) with hγ
  set Z := γ.real I.toSet with hZd
  have hm : measF (ENNReal.ofReal (1 / Z) • γ.restrict I.toSet) x
      = (1 / Z) * γ.real ({y : ℝ | (y : EReal) ≤ x} ∩ I.toSet) := by
    rw [measF, measureReal_def, Measure.smul_apply, Measure.restrict_apply (measurableSet_coe_le x), smul_eq_mul,
      ENNReal.toReal_mul, ENNReal.toReal_ofReal (by positivity), measureReal_def]
  rw [hm]
  by_cases hl : SimpleInterval.leftOK I.left I.lower x
  · rw [if_pos hl, gaussCdf_eq, gaussCdf_eq, ← hγ]
    have hlx : I.lower ≤ x := by
      unfold SimpleInterval.leftOK at hl; split at hl
      · exact hl
      · exact hl.le
    rcases le_total x I.upper with hx | hx
    · have hsub := measF_sub γ ⟨I.lower, x, .opn, .closed⟩ hlx
      simp only at hsub
      have hset : ({y : ℝ | (y : EReal) ≤ x} ∩ I.toSet : Set ℝ) =ᵐ[γ] (SimpleInterval.mk I.lower x .opn .closed).toSet := by
        refine (ae_eq_set_inter (ae_eq_refl {y : ℝ | (y : EReal) ≤ x}) (toSet_ae_eq γ I)).trans ?_
        apply Filter.EventuallyEq.of_eq
        ext y
        simp only [SimpleInterval.toSet, SimpleInterval.Mem, SimpleInterval.leftOK,
          SimpleInterval.rightOK]
        constructor
        · rintro ⟨h1, h2, _⟩; exact ⟨h2, h1⟩
        · rintro ⟨h1, h2⟩; exact ⟨h2, h1, h2.trans hx⟩
      rw [hsub, measureReal_congr hset]
      rw [min_eq_right]
      · ring
      · rw [div_le_one hZ, ← measureReal_congr hset]
        exact measureReal_mono inter_subset_right
    · have hset : ({y : ℝ | (y : EReal) ≤ x} ∩ I.toSet : Set ℝ) = I.toSet := by
        apply inter_eq_right.2
        intro y hy
        have h2 : (y : EReal) ≤ I.upper := by
          have hr := hy.2
          unfold SimpleInterval.rightOK at hr; split at hr
          · exact hr
          · exact hr.le
        exact h2.trans hx
      rw [hset, ← hZd]
      have h1 : 1 ≤ (measF γ x - measF γ I.lower) / Z := by
        rw [one_le_div hZ, hZd, ← measF_sub γ I hI.le]
        have := measF_mono γ hx
        linarith
      rw [min_eq_left h1]
      field_simp
  · rw [if_neg hl]
    have hset : ({y : ℝ | (y : EReal) ≤ x} ∩ I.toSet : Set ℝ) = ∅ := by
      ext y
      simp only [mem_inter_iff, mem_ofPred_eq, mem_empty_iff_false, iff_false, not_and]
      intro hy hm
      apply hl
      have h2 := hm.1
      unfold SimpleInterval.leftOK at h2 ⊢
      split at h2
      · exact h2.trans hy
      · exact h2.trans_le hy
    rw [hset]
    simp

theorem finite_leafLaw {d : Leaf} (hv : d.Valid) : IsFiniteMeasure (leafLaw d) := by
  cases d with
  | dirac v loc cap => simp only [leafLaw]; infer_instance
  | symbolic v probs | integer v probs =>
    simp only [leafLaw]
    clear hv
    induction probs with
    | nil => simp only [List.map_nil, List.sum_nil]; infer_instance
    | cons kp probs ih =>
      simp only [List.map_cons, List.sum_cons]
      have : IsFiniteMeasure (ENNReal.ofReal kp.2 • Measure.dirac (kp.1 : ℝ)) :=
        Measure.smul_finite _ ENNReal.ofReal_ne_top
      infer_instance
  | uniform v lo hi l r =>
    rw [uniform_law_eq v hv]
    exact Measure.smul_finite _ ENNReal.ofReal_ne_top
  | gaussian v μ σ => rw [gauss_law_eq v μ hv]; infer_instance
  | truncGaussian v I μ σ =>
    rw [trunc_law_eq v μ hv.1 hv.2]
    exact Measure.smul_finite _ ENNReal.ofReal_ne_top

theorem discrete_law_apply (probs : List (ℤ × ℝ)) (hp : ∀ kp ∈ probs, 0 ≤ kp.2) {A : Set ℝ} (hA : MeasurableSet A) :
    (probs.map fun kp => ENNReal.ofReal kp.2 • Measure.dirac (kp.1 : ℝ)).sum A
      = ENNReal.ofReal (probs.map fun kp => A.indicator (fun _ => kp.2) (kp.1 : ℝ)).sum := by
  induction probs with
  | nil => simp
  | cons kp probs ih =>
    have h0 : ∀ x : ℝ, 0 ≤ A.indicator (fun _ => kp.2) x := indicator_nonneg (fun _ _ => hp kp (by simp))
    have h1 : 0 ≤ (probs.map fun kp => A.indicator (fun _ => kp.2) (kp.1 : ℝ)).sum := by
      apply List.sum_nonneg
      intro x hx
      obtain ⟨q, hq, rfl⟩ := List.mem_map.1 hx
      exact indicator_nonneg (fun _ _ => hp q (by simp [hq])) _
    simp only [List.map_cons, List.sum_cons, Measure.add_apply, Measure.smul_apply, smul_eq_mul]
    rw [ih (fun q hq => hp q (by simp [hq])), ENNReal.ofReal_add (h0 _) h1, Measure.dirac_apply' _ hA]
    congr 1
    by_cases hk : (kp.1 : ℝ) ∈ A <;> simp [hk]

theorem lookup_sum (probs : List (ℤ × ℝ)) (hn : (probs.map Prod.fst).Nodup) (S : List ℤ) (hS : S.Nodup) :
    (S.map (Leaf.lookup probs)).sum
      = (probs.map fun kp => (VSet.symbols S).toSet.indicator (fun _ => kp.2) (kp.1 : ℝ)).sum := by
  have hmem : ∀ (S : List ℤ) (k : ℤ), ((k : ℝ) ∈ (VSet.symbols S).toSet) ↔ k ∈ S := by
    intro S k
    simp only [VSet.toSet, VSet.Mem, mem_ofPred_eq]
    constructor
    · rintro ⟨j, hj, he⟩; have : j = k := by exact_mod_cast he
      exact this ▸ hj
    · intro h; exact ⟨k, h, rfl⟩
  induction S with
  | nil =>
    have : (probs.map fun kp => (VSet.symbols []).toSet.indicator (fun _ => kp.2) (kp.1 : ℝ))
        = probs.map fun _ => 0 := by
      apply List.map_congr_left
      intro kp _
      rw [indicator_of_notMem]
      rw [hmem]; simp
    rw [this]; simp
  | cons s S ih =>
    obtain ⟨hs, hS⟩ := List.nodup_cons.1 hS
    rw [List.map_cons, List.sum_cons, ih hS]
    have hl : Leaf.lookup probs s = (probs.map fun kp => if kp.1 = s then kp.2 else 0).sum := by
      clear ih
      induction probs with
      | nil => rfl
      | cons kp probs ih =>
        obtain ⟨h1, h2⟩ := List.nodup_cons.1 hn
        simp only [List.map_cons, List.sum_cons]
        by_cases hk : kp.1 = s
        · have hz : (probs.map fun kp => if kp.1 = s then kp.2 else 0) = probs.map fun _ => (0 : ℝ) := by
            apply List.map_congr_left
            intro q hq
            rw [if_neg]
            rintro rfl
            exact h1 (hk ▸ List.mem_map.2 ⟨q, hq, rfl⟩)
          rw [hz]
          simp [Leaf.lookup, hk]
        · have := ih h2
          simp only [Leaf.lookup, List.find?_cons] at this ⊢
          have hb : (kp.1 == s) = false := by simpa using hk
          simp only [hb, if_neg hk, zero_add]
          exact this
    rw [hl, ← List.sum_map_add]
    congr 1
    apply List.map_congr_left
    intro kp _
    by_cases h1 : kp.1 = s
    · have h2 : (kp.1 : ℝ) ∉ (VSet.symbols S).toSet := by rw [hmem, h1]; exact hs
      have h3 : (kp.1 : ℝ) ∈ (VSet.symbols (s :: S)).toSet := by rw [hmem, h1]; simp
      rw [indicator_of_notMem h2, indicator_of_mem h3, if_pos h1, add_zero]
    · by_cases h2 : kp.1 ∈ S
      · rw [indicator_of_mem ((hmem _ _).2 h2), indicator_of_mem ((hmem _ _).2 (by simp [h2])), if_neg h1, zero_add]
      · rw [indicator_of_notMem (fun h => h2 ((hmem _ _).1 h)),
          indicator_of_notMem (fun h => by have := (hmem _ _).1 h; simp [h1, h2] at this), if_neg h1, zero_add]

/-- `probability_of_simple_event` of a leaf is the mass of the set under the leaf's law. -/
theorem leaf_prob_eq {d : Leaf} (hv : d.Valid) {A : VSet} (hf : Fits d A) (hA : A.Disjoint) :
    d.prob A = .ok ((leafLaw d).real A.toSet) := by
  have hfin := finite_leafLaw hv
  cases d with
  | symbolic v probs =>
    cases A with
    | interval I => exact absurd hf id
    | symbols S =>
      simp only [Leaf.prob, leafLaw]
      rw [measureReal_def, discrete_law_apply probs hv.1 (VSet.measurableSet_toSet _), ← lookup_sum probs hv.2 S hA,
        ENNReal.toReal_ofReal]
      apply List.sum_nonneg
      intro x hx
      obtain ⟨k, _, rfl⟩ := List.mem_map.1 hx
      unfold Leaf.lookup
      split
      · rename_i p hp
        exact hv.1 p (List.mem_of_find?_eq_some hp)
      · exact le_rfl
  | dirac v loc cap =>
    cases A with
    | symbols S => exact absurd hf id
    | interval I =>
      simp only [Leaf.prob, leafLaw]
      rw [measureReal_def, Measure.dirac_apply' _ (VSet.measurableSet_toSet _)]
      by_cases h : (VSet.interval I).Mem loc
      · rw [if_pos h, indicator_of_mem (show loc ∈ (VSet.interval I).toSet from h)]; simp
      · rw [if_neg h, indicator_of_notMem (show loc ∉ (VSet.interval I).toSet from h)]; simp
  | integer v probs =>
    cases A with
    | symbols S => exact absurd hf id
    | interval I =>
      simp only [Leaf.prob, leafLaw]
      rw [measureReal_def, discrete_law_apply probs hv.1 (VSet.measurableSet_toSet _), ENNReal.toReal_ofReal]
      · congr 2
      · apply List.sum_nonneg
        intro x hx
        obtain ⟨q, hq, rfl⟩ := List.mem_map.1 hx
        exact indicator_nonneg (fun _ _ => hv.1 q hq) _
  | uniform v lo hi l r =>
    cases A with
    | symbols S => exact absurd hf id
    | interval I =>
      have hn : NullSingletonClass (leafLaw (.uniform v lo hi l r)) := by
        simp only [leafLaw]; infer_instance
      simp only [Leaf.prob]
      rw [cdfSum_eq (uniformCdf_eq v hv l r) hA]
  | gaussian v μ σ =>
    cases A with
    | symbols S => exact absurd hf id
    | interval I =>
      have hn : NullSingletonClass (leafLaw (.gaussian v μ σ)) := by
        simp only [leafLaw]; infer_instance
      simp only [Leaf.prob]
      rw [cdfSum_eq (ν := leafLaw (.gaussian v μ σ)) (fun x => by rw [gaussCdf_eq, gauss_law_eq v μ hv]) hA]
  | truncGaussian v J μ σ =>
    cases A with
    | symbols S => exact absurd hf id
    | interval I =>
      have hn : NullSingletonClass (leafLaw (.truncGaussian v J μ σ)) := by
        simp only [leafLaw]; infer_instance
      simp only [Leaf.prob]
      rw [cdfSum_eq (truncCdf_eq v μ hv.1 hv.2) hA]

theorem leafLaw_univ {d : Leaf} (hv : d.Valid) (hn : d.Normalized) : leafLaw d univ = 1 := by
  cases d with
  | dirac v loc cap => simp [leafLaw]
  | symbolic v probs | integer v probs =>
    simp only [leafLaw]
    rw [discrete_law_apply probs hv.1 MeasurableSet.univ]
    simp only [indicator_univ]
    have : (probs.map fun kp => kp.2).sum = 1 := hn
    rw [this]; simp
  | uniform v lo hi l r =>
    have hlt : (0 : ℝ) < hi - lo := sub_pos.2 hv
    rw [uniform_law_eq v hv, Measure.smul_apply, Measure.restrict_apply_univ, Real.volume_Ioc, smul_eq_mul,
      ← ENNReal.ofReal_mul (by positivity)]
    rw [one_div, inv_mul_cancel₀ hlt.ne']; simp
  | gaussian v μ σ => rw [gauss_law_eq v μ hv]; simp
  | truncGaussian v I μ σ =>
    have hZ := gauss_toSet_pos hv.2 μ hv.1
    rw [trunc_law_eq v μ hv.1 hv.2, Measure.smul_apply, Measure.restrict_apply_univ, smul_eq_mul,
      ← ENNReal.ofReal_toReal (measure_ne_top (gaussianReal μ (Real.toNNReal (σ ^ 2))) I.toSet),
      ← ENNReal.ofReal_mul (by positivity)]
    rw [← measureReal_def, one_div, inv_mul_cancel₀ hZ.ne']; simp

end PM
