import Verif.Dist.Moment
import Verif.Dist.LawLemmas
import Mathlib.MeasureTheory.Function.JacobianOneDim
import Mathlib.Analysis.SpecialFunctions.Gaussian.GaussianIntegral

/-!
# Moments of the Gaussian and the truncated Gaussian
-/

namespace PM

open Classical ProbabilityTheory MeasureTheory Set

/-- The constant in front of the Gamma cdf. -/
noncomputable def halfCoef (k : ℕ) : ℝ :=
  (2 : ℝ) ^ ((k : ℝ) / 2) * Real.Gamma (((k : ℝ) + 1) / 2) / (2 * Real.sqrt Real.pi)

theorem half_pointwise (k : ℕ) {z : ℝ} (hz : 0 < z) :
    gaussianPDFReal 0 1 z * z ^ k = halfCoef k * (|z| * gammaPDFReal (((k : ℝ) + 1) / 2) 1 (z ^ 2 / 2)) := by
  have hG : 0 < Real.Gamma (((k : ℝ) + 1) / 2) := Real.Gamma_pos_of_pos (by positivity)
  have hpi := Real.pi_pos
  rw [gaussianPDFReal, gammaPDFReal, if_pos (by positivity), abs_of_pos hz, halfCoef]
  have e1 : (z ^ 2 / 2) ^ (((k : ℝ) + 1) / 2 - 1) = z ^ (k : ℝ) / z / ((2 : ℝ) ^ ((k : ℝ) / 2) / Real.sqrt 2) := by
    rw [Real.div_rpow (by positivity) (by norm_num)]
    congr 1
    · rw [← Real.rpow_natCast z 2, ← Real.rpow_mul hz.le, ← Real.rpow_sub_one hz.ne']
      congr 1
      push_cast
      ring
    · rw [Real.sqrt_eq_rpow, ← Real.rpow_sub (by norm_num)]
      congr 1
      ring
  rw [e1, Real.rpow_natCast]
  have e2 : Real.sqrt (2 * Real.pi * ((1 : NNReal) : ℝ)) = Real.sqrt 2 * Real.sqrt Real.pi := by
    rw [NNReal.coe_one, mul_one, Real.sqrt_mul (by norm_num)]
  rw [e2]
  have e3 : -(z - 0) ^ 2 / (2 * ((1 : NNReal) : ℝ)) = -(1 * (z ^ 2 / 2)) := by
    rw [NNReal.coe_one]
    ring
  rw [e3, Real.one_rpow]
  have hs2 : Real.sqrt 2 * Real.sqrt 2 = 2 := Real.mul_self_sqrt (by norm_num)
  have h2 : (0 : ℝ) < (2 : ℝ) ^ ((k : ℝ) / 2) := by positivity
  have hsp : 0 < Real.sqrt Real.pi := Real.sqrt_pos.2 hpi
  have hs : 0 < Real.sqrt 2 := by positivity
  field_simp
  linear_combination (-1 : ℝ) * hs2

theorem half_moment (k : ℕ) {s : Set ℝ} (hs : MeasurableSet s) (hpos : s ⊆ Ioi 0) :
    ∫ z in s, z ^ k ∂(gaussianReal 0 1)
      = halfCoef k * ∫ u in (fun z : ℝ => z ^ 2 / 2) '' s, gammaPDFReal (((k : ℝ) + 1) / 2) 1 u := by
  have hd : ∀ x ∈ s, HasDerivWithinAt (fun z : ℝ => z ^ 2 / 2) x s x := by
    intro x _
    have h := (hasDerivAt_pow 2 x).div_const 2
    have e : ((2 : ℕ) : ℝ) * x ^ (2 - 1) / 2 = x := by
      norm_num
    rw [e] at h
    exact h.hasDerivWithinAt
  have hinj : InjOn (fun z : ℝ => z ^ 2 / 2) s := by
    intro a ha b hb hab
    have ha' : (0 : ℝ) < a := hpos ha
    have hb' : (0 : ℝ) < b := hpos hb
    have : a ^ 2 = b ^ 2 := by simpa using hab
    exact (pow_left_inj₀ ha'.le hb'.le (by norm_num)).1 this
  rw [integral_image_eq_integral_abs_deriv_smul hs hd hinj, ← integral_const_mul,
    ← integral_indicator hs, integral_gaussianReal_eq_integral_smul (by norm_num), ← integral_indicator hs]
  refine integral_congr_ae (.of_forall fun z => ?_)
  by_cases hz : z ∈ s
  · simp only [indicator_of_mem hz, smul_eq_mul]
    exact half_pointwise k (hpos hz)
  · simp [indicator_of_notMem hz]

/-- `{z : z ≤ b}` for an extended real. -/
def below (b : EReal) : Set ℝ := {z | (z : EReal) ≤ b}

theorem measurableSet_below (b : EReal) : MeasurableSet (below b) :=
  measurableSet_le measurable_coe_real_ereal measurable_const

theorem gammaReal_Iic {a : ℝ} (ha : 0 < a) (x : ℝ) :
    (gammaMeasure a 1).real (Iic x) = ∫ u in Iic x, gammaPDFReal a 1 u := by
  have := isProbabilityMeasure_gammaMeasure ha one_pos
  rw [← cdf_gammaMeasure_eq_integral ha one_pos, cdf_eq_real]

theorem gammaPDFReal_integral_Ioi (a : ℝ) {s : Set ℝ} (hs : MeasurableSet s) :
    ∫ u in s, gammaPDFReal a 1 u = ∫ u in s ∩ Ioi 0, gammaPDFReal a 1 u := by
  rw [← integral_indicator hs, ← integral_indicator (hs.inter measurableSet_Ioi)]
  refine integral_congr_ae ?_
  have : ∀ᵐ x : ℝ, x ≠ 0 := by
    rw [ae_iff]
    simp
  filter_upwards [this] with x hx
  by_cases h0 : 0 < x
  · by_cases hxs : x ∈ s
    · rw [indicator_of_mem hxs, indicator_of_mem (show x ∈ s ∩ Ioi 0 from ⟨hxs, h0⟩)]
    · rw [indicator_of_notMem hxs, indicator_of_notMem (fun h => hxs h.1)]
  · have hneg : x < 0 := lt_of_le_of_ne (not_lt.1 h0) hx
    rw [indicator_of_notMem (s := s ∩ Ioi 0) (fun h => h0 h.2)]
    by_cases hxs : x ∈ s
    · rw [indicator_of_mem hxs, gammaPDFReal, if_neg (not_le.2 hneg)]
    · rw [indicator_of_notMem hxs]

theorem image_halfSq_Ioc {b : ℝ} (hb : 0 ≤ b) : (fun z : ℝ => z ^ 2 / 2) '' Ioc 0 b = Iic (b ^ 2 / 2) ∩ Ioi 0 := by
  ext u
  constructor
  · rintro ⟨z, ⟨hz, hzb⟩, rfl⟩
    refine ⟨?_, ?_⟩
    · show z ^ 2 / 2 ≤ b ^ 2 / 2
      have : z ^ 2 ≤ b ^ 2 := pow_le_pow_left₀ hz.le hzb 2
      linarith
    · show (0 : ℝ) < z ^ 2 / 2
      positivity
  · rintro ⟨h1, h2⟩
    have h1 : u ≤ b ^ 2 / 2 := h1
    have h2 : 0 < u := h2
    refine ⟨Real.sqrt (2 * u), ⟨Real.sqrt_pos.2 (by linarith), ?_⟩, ?_⟩
    · rw [Real.sqrt_le_left hb]
      linarith
    · show Real.sqrt (2 * u) ^ 2 / 2 = u
      rw [Real.sq_sqrt (by linarith)]
      ring

theorem image_halfSq_Ioi : (fun z : ℝ => z ^ 2 / 2) '' Ioi 0 = univ ∩ Ioi 0 := by
  ext u
  constructor
  · rintro ⟨z, hz, rfl⟩
    have hz : (0 : ℝ) < z := hz
    exact ⟨trivial, show (0 : ℝ) < z ^ 2 / 2 by positivity⟩
  · rintro ⟨-, h2⟩
    have h2 : 0 < u := h2
    refine ⟨Real.sqrt (2 * u), Real.sqrt_pos.2 (by linarith), ?_⟩
    show Real.sqrt (2 * u) ^ 2 / 2 = u
    rw [Real.sq_sqrt (by linarith)]
    ring

theorem gammaPDFReal_integral_one {a : ℝ} (ha : 0 < a) : ∫ u, gammaPDFReal a 1 u = 1 := by
  rw [integral_eq_lintegral_of_nonneg_ae (.of_forall fun x => gammaPDFReal_nonneg ha one_pos x)
    (measurable_gammaPDFReal a 1).aestronglyMeasurable]
  have := lintegral_gammaPDF_eq_one ha one_pos
  unfold gammaPDF at this
  rw [this]
  rfl

/-- Moments over `(0, b]`. -/
theorem half_Ioc (k : ℕ) {b : ℝ} (hb : 0 ≤ b) :
    ∫ z in Ioc 0 b, z ^ k ∂(gaussianReal 0 1) = halfCoef k * Leaf.gammaCdfHalfSq (((k : ℝ) + 1) / 2) b := by
  rw [half_moment k measurableSet_Ioc (fun z hz => hz.1), image_halfSq_Ioc hb,
    ← gammaPDFReal_integral_Ioi _ measurableSet_Iic, ← gammaReal_Iic (by positivity), Leaf.gammaCdfHalfSq,
    if_neg (by simp), EReal.toReal_coe]

/-- Moments over `(0, ∞)`. -/
theorem half_Ioi (k : ℕ) : ∫ z in Ioi 0, z ^ k ∂(gaussianReal 0 1) = halfCoef k := by
  rw [half_moment k measurableSet_Ioi subset_rfl, image_halfSq_Ioi,
    ← gammaPDFReal_integral_Ioi _ MeasurableSet.univ, Measure.restrict_univ, gammaPDFReal_integral_one (by positivity),
    mul_one]

theorem integrable_pow_gauss (μ : ℝ) (v : NNReal) (k : ℕ) : Integrable (fun z : ℝ => z ^ k) (gaussianReal μ v) := by
  rcases Nat.eq_zero_or_pos k with rfl | hk
  · simp
  have := (memLp_id_gaussianReal (μ := μ) (v := v) (k : NNReal)).integrable_norm_rpow (by simp; omega) (by simp)
  refine (this.mono' (by fun_prop) (.of_forall fun z => ?_))
  simp

/-- Reflection. -/
theorem gauss_reflect (k : ℕ) {s : Set ℝ} (hs : MeasurableSet s) :
    ∫ z in (Neg.neg ⁻¹' s), z ^ k ∂(gaussianReal 0 1) = (-1) ^ k * ∫ z in s, z ^ k ∂(gaussianReal 0 1) := by
  have hm : (gaussianReal 0 1).map (fun x : ℝ => -x) = gaussianReal 0 1 := by
    rw [gaussianReal_map_neg, neg_zero]
  conv_rhs => rw [← hm]
  rw [setIntegral_map hs (by fun_prop) (by fun_prop), ← integral_const_mul]
  refine integral_congr_ae (.of_forall fun z => ?_)
  show z ^ k = (-1) ^ k * (-z) ^ k
  rw [← mul_pow]
  simp

/-- Selector of the sign in the formula. -/
noncomputable def selSign (k : ℕ) (b : EReal) : ℝ := if k % 2 = 0 then Leaf.signE b else 1

theorem selSign_neg (k : ℕ) {b : EReal} (hb : b < 0) : selSign k b = -(-1) ^ k := by
  unfold selSign Leaf.signE
  rcases Nat.even_or_odd k with h | h
  · rw [if_pos (Nat.even_iff.1 h), if_pos hb, h.neg_one_pow]
  · rw [if_neg (by rw [Nat.odd_iff.1 h]; norm_num), h.neg_one_pow]
    norm_num

theorem selSign_pos (k : ℕ) {b : EReal} (hb : 0 < b) : selSign k b = 1 := by
  unfold selSign Leaf.signE
  rw [if_neg (not_lt.2 hb.le), if_neg hb.ne']
  simp

/-- The moment up to `b` relative to the moment up to `0`. -/
theorem below_moment (k : ℕ) (b : EReal) :
    ∫ z in below b, z ^ k ∂(gaussianReal 0 1) - ∫ z in below 0, z ^ k ∂(gaussianReal 0 1)
      = halfCoef k * Leaf.gammaCdfHalfSq (((k : ℝ) + 1) / 2) b * selSign k b := by
  have hi := integrable_pow_gauss 0 1 k
  have hn := nullSingletonClass_gaussianReal (μ := 0) (v := 1) (by norm_num)
  have h0 : below 0 = Iic 0 := by
    ext z
    show ((z : EReal) ≤ 0) ↔ z ≤ 0
    exact_mod_cast Iff.rfl
  rcases lt_trichotomy b 0 with hb | hb | hb
  · -- negative bound
    rw [selSign_neg k hb, h0]
    induction b with
    | bot =>
      have : below ⊥ = ∅ := by
        ext z
        simp [below]
      rw [this, Leaf.gammaCdfHalfSq, if_pos (Or.inl rfl)]
      have hr := gauss_reflect k (s := Ioi 0) measurableSet_Ioi
      have hpre : (Neg.neg ⁻¹' Ioi (0 : ℝ)) = Iio 0 := by
        ext z
        simp
      rw [hpre, half_Ioi] at hr
      rw [integral_Iic_eq_integral_Iio, hr]
      simp
      ring
    | top => simp at hb
    | coe b =>
      have hb' : b < 0 := by exact_mod_cast hb
      have hbb : below (b : EReal) = Iic b := by
        ext z
        show ((z : EReal) ≤ b) ↔ z ≤ b
        exact_mod_cast Iff.rfl
      have hr := gauss_reflect k (s := Ioc 0 (-b)) measurableSet_Ioc
      have hpre : (Neg.neg ⁻¹' Ioc (0 : ℝ) (-b)) = Ico b 0 := by
        ext z
        simp
      rw [hpre, half_Ioc k (by linarith), integral_Ico_eq_integral_Ioo, ← integral_Ioc_eq_integral_Ioo] at hr
      have hg : Leaf.gammaCdfHalfSq (((k : ℝ) + 1) / 2) ((-b : ℝ) : EReal)
          = Leaf.gammaCdfHalfSq (((k : ℝ) + 1) / 2) (b : EReal) := by
        rw [Leaf.gammaCdfHalfSq, Leaf.gammaCdfHalfSq, if_neg (by simp), if_neg (by simp), EReal.toReal_coe,
          EReal.toReal_coe, neg_sq]
      rw [hg] at hr
      have hd : Iic (0 : ℝ) \ Iic b = Ioc b 0 := by
        ext z
        simp
      have hdi := setIntegral_sdiff (μ := gaussianReal 0 1) (f := fun z : ℝ => z ^ k) (s := Iic (0 : ℝ)) (t := Iic b)
        measurableSet_Iic hi.integrableOn (Iic_subset_Iic.2 hb'.le)
      rw [hd, hr] at hdi
      rw [hbb]
      linear_combination hdi
  · subst hb
    have : Leaf.gammaCdfHalfSq (((k : ℝ) + 1) / 2) 0 = 0 := by
      have := half_Ioc k (le_refl (0 : ℝ))
      rw [Ioc_self, setIntegral_empty] at this
      have hc : 0 < halfCoef k := by
        unfold halfCoef
        have : 0 < Real.Gamma (((k : ℝ) + 1) / 2) := Real.Gamma_pos_of_pos (by positivity)
        have := Real.pi_pos
        positivity
      rcases mul_eq_zero.1 this.symm with h | h
      · exact absurd h hc.ne'
      · exact h
    rw [this]
    ring
  · rw [selSign_pos k hb, mul_one, h0]
    induction b with
    | bot => simp at hb
    | top =>
      have : below ⊤ = univ := by
        ext z
        simp [below]
      rw [this, Leaf.gammaCdfHalfSq, if_pos (Or.inr rfl), mul_one, ← half_Ioi k]
      have hd : univ \ Iic (0 : ℝ) = Ioi 0 := by
        ext z
        simp
      rw [← hd, setIntegral_sdiff measurableSet_Iic hi.integrableOn (subset_univ _)]
    | coe b =>
      have hb' : 0 < b := by exact_mod_cast hb
      have hbb : below (b : EReal) = Iic b := by
        ext z
        show ((z : EReal) ≤ b) ↔ z ≤ b
        exact_mod_cast Iff.rfl
      have hd : Iic b \ Iic (0 : ℝ) = Ioc 0 b := by
        ext z
        simp [and_comm]
      rw [← half_Ioc k hb'.le, ← hd, setIntegral_sdiff measurableSet_Iic hi.integrableOn (Iic_subset_Iic.2 hb'.le), hbb]

/-! ### Moments of the Gaussian -/

theorem std_moment (k : ℕ) : ∫ z, z ^ k ∂(gaussianReal 0 1) = halfCoef k * (1 + (-1) ^ k) := by
  have h1 := below_moment k ⊤
  have h2 := below_moment k ⊥
  have e1 : below ⊤ = univ := by
    ext z
    simp [below]
  have e2 : below ⊥ = ∅ := by
    ext z
    simp [below]
  rw [e1, selSign_pos k (by simp), Leaf.gammaCdfHalfSq, if_pos (Or.inr rfl), Measure.restrict_univ] at h1
  rw [e2, selSign_neg k (by simp), Leaf.gammaCdfHalfSq, if_pos (Or.inl rfl), setIntegral_empty] at h2
  linear_combination h1 - h2

theorem std_moment_odd {k : ℕ} (hk : Odd k) : ∫ z, z ^ k ∂(gaussianReal 0 1) = 0 := by
  rw [std_moment, hk.neg_one_pow]
  ring

theorem std_moment_even (j : ℕ) :
    ∫ z, z ^ (2 * j) ∂(gaussianReal 0 1) = (2 * j).factorial / (j.factorial * 2 ^ j) := by
  have hpi : 0 < Real.sqrt Real.pi := Real.sqrt_pos.2 Real.pi_pos
  rw [std_moment, (even_two_mul j).neg_one_pow, halfCoef]
  have e1 : (2 : ℝ) ^ (((2 * j : ℕ) : ℝ) / 2) = 2 ^ j := by
    rw [← Real.rpow_natCast 2 j]
    congr 1
    push_cast
    ring
  have e2 : (((2 * j : ℕ) : ℝ) + 1) / 2 = (j : ℝ) + 1 / 2 := by
    push_cast
    ring
  rw [e1, e2, Real.Gamma_nat_add_half]
  have e3 : ((2 * j - 1).doubleFactorial : ℝ) * (j.factorial * 2 ^ j) = (2 * j).factorial := by
    rcases Nat.eq_zero_or_pos j with rfl | hj
    · simp
    · have h1 := Nat.factorial_eq_mul_doubleFactorial (2 * j - 1)
      have h2 : 2 * j - 1 + 1 = 2 * j := by omega
      rw [h2, Nat.doubleFactorial_two_mul] at h1
      rw [h1]
      push_cast
      ring
  rw [← e3]
  have hf : (0 : ℝ) < j.factorial := by exact_mod_cast j.factorial_pos
  field_simp
  ring

theorem gauss_affine (μ : ℝ) {σ : ℝ} (_hσ : 0 < σ) :
    gaussianReal μ (Real.toNNReal (σ ^ 2)) = (gaussianReal 0 1).map (fun z => σ * z + μ) := by
  have h : (fun z : ℝ => σ * z + μ) = (fun x => x + μ) ∘ (fun z => σ * z) := rfl
  rw [h, ← Measure.map_map (by fun_prop) (by fun_prop), gaussianReal_map_const_mul, gaussianReal_map_add_const]
  congr 1
  · ring
  · ext
    rw [Real.coe_toNNReal _ (sq_nonneg σ)]
    simp

theorem binomial_integral (n : ℕ) (a d : ℝ) (s : Set ℝ) :
    ∫ z in s, (a * z + d) ^ n ∂(gaussianReal 0 1)
      = ∑ k ∈ Finset.range (n + 1), (n.choose k : ℝ) * a ^ k * d ^ (n - k) * ∫ z in s, z ^ k ∂(gaussianReal 0 1) := by
  have : ∀ z : ℝ, (a * z + d) ^ n
      = ∑ k ∈ Finset.range (n + 1), ((n.choose k : ℝ) * a ^ k * d ^ (n - k)) * z ^ k := by
    intro z
    rw [add_pow]
    refine Finset.sum_congr rfl fun k _ => ?_
    rw [mul_pow]
    ring
  simp only [this]
  rw [integral_finsetSum]
  · refine Finset.sum_congr rfl fun k _ => ?_
    rw [integral_const_mul]
  · intro k _
    exact ((integrable_pow_gauss 0 1 k).integrableOn).const_mul _

theorem list_range_sum (n : ℕ) (f : ℕ → ℝ) : ((List.range n).map f).sum = ∑ i ∈ Finset.range n, f i := by
  rw [Finset.sum_range]
  induction n with
  | zero => simp
  | succ n ih =>
    rw [List.range_succ, List.map_append, List.sum_append, ih, Fin.sum_univ_castSucc]
    simp

theorem sum_even (n : ℕ) (f : ℕ → ℝ) (hf : ∀ k, Odd k → f k = 0) :
    ∑ k ∈ Finset.range (n + 1), f k = ∑ j ∈ Finset.range (n / 2 + 1), f (2 * j) := by
  induction n with
  | zero => simp
  | succ n ih =>
    rw [Finset.sum_range_succ, ih]
    rcases Nat.even_or_odd (n + 1) with h | h
    · obtain ⟨j, hj⟩ := h
      have e1 : (n + 1) / 2 = n / 2 + 1 := by omega
      have e2 : n + 1 = 2 * (n / 2 + 1) := by omega
      rw [e1, Finset.sum_range_succ _ (n / 2 + 1), ← e2]
    · obtain ⟨j, hj⟩ := h
      have e1 : (n + 1) / 2 = n / 2 := by omega
      rw [e1, hf (n + 1) ⟨j, hj⟩, add_zero]

theorem rawMoment_eq (μ : ℝ) {σ : ℝ} (hσ : 0 < σ) (n : ℕ) :
    Leaf.rawMoment μ σ n = ∫ x, x ^ n ∂(gaussianReal μ (Real.toNNReal (σ ^ 2))) := by
  rw [gauss_affine μ hσ, integral_map (by fun_prop) (by fun_prop), ← setIntegral_univ, binomial_integral, sum_even,
    Leaf.rawMoment, list_range_sum]
  · refine Finset.sum_congr rfl fun j _ => ?_
    rw [setIntegral_univ, std_moment_even]
    ring
  · intro k hk
    rw [setIntegral_univ, std_moment_odd hk, mul_zero]

theorem gaussMoment_eq (μ : ℝ) {σ : ℝ} (hσ : 0 < σ) (k : ℕ) (c : ℝ) :
    Leaf.gaussMoment μ σ k c = ∫ x, (x - c) ^ k ∂(gaussianReal μ (Real.toNNReal (σ ^ 2))) := by
  have : ∀ x : ℝ, (x - c) ^ k = ∑ i ∈ Finset.range (k + 1), ((k.choose i : ℝ) * (-c) ^ (k - i)) * x ^ i := by
    intro x
    rw [sub_eq_add_neg, add_pow]
    refine Finset.sum_congr rfl fun i _ => ?_
    ring
  simp only [this]
  rw [integral_finsetSum]
  · rw [Leaf.gaussMoment, list_range_sum]
    refine Finset.sum_congr rfl fun i _ => ?_
    rw [integral_const_mul, rawMoment_eq μ hσ]
    ring
  · intro i _
    exact (integrable_pow_gauss _ _ i).const_mul _

/-! ### Moments of the truncated Gaussian -/

theorem below_stdBound (μ : ℝ) {σ : ℝ} (hσ : 0 < σ) (b : EReal) :
    (fun z : ℝ => σ * z + μ) ⁻¹' below b = below (Leaf.stdBound μ σ b) := by
  ext z
  unfold Leaf.stdBound below
  induction b with
  | bot => simp
  | top => simp
  | coe b =>
    rw [if_neg (by simp), if_neg (by simp), EReal.toReal_coe]
    show ((σ * z + μ : ℝ) : EReal) ≤ (b : EReal) ↔ (z : EReal) ≤ (((b - μ) / σ : ℝ) : EReal)
    rw [EReal.coe_le_coe_iff, EReal.coe_le_coe_iff, le_div_iff₀ hσ]
    constructor <;> intro h <;> nlinarith

/-- The moment over an interval with respect to a measure without atoms. -/
theorem interval_below (I : SimpleInterval) (hI : I.lower ≤ I.upper) (ν : Measure ℝ) [NullSingletonClass ν]
    [IsFiniteMeasure ν] {f : ℝ → ℝ} (hf : Integrable f ν) :
    ∫ x in I.toSet, f x ∂ν = ∫ x in below I.upper, f x ∂ν - ∫ x in below I.lower, f x ∂ν := by
  have hsub : below I.lower ⊆ below I.upper := fun z hz => le_trans (show (z : EReal) ≤ I.lower from hz) hI
  rw [← setIntegral_sdiff (measurableSet_below _) hf.integrableOn hsub]
  refine setIntegral_congr_set ?_
  have hfin : ∀ b : EReal, ν {z : ℝ | (z : EReal) = b} = 0 := by
    intro b
    induction b with
    | bot =>
      have : {z : ℝ | (z : EReal) = ⊥} = ∅ := by
        ext z
        simp
      rw [this, measure_empty]
    | top =>
      have : {z : ℝ | (z : EReal) = ⊤} = ∅ := by
        ext z
        simp
      rw [this, measure_empty]
    | coe b =>
      have : {z : ℝ | (z : EReal) = b} = {b} := by
        ext z
        simp
      rw [this]
      exact measure_singleton b
  have hne : ∀ b : EReal, ∀ᵐ z : ℝ ∂ν, (z : EReal) ≠ b := by
    intro b
    rw [ae_iff]
    simpa using hfin b
  filter_upwards [hne I.lower, hne I.upper] with z h1 h2
  apply propext
  show z ∈ I.toSet ↔ z ∈ below I.upper \ below I.lower
  have e1 : z ∈ I.toSet ↔ SimpleInterval.leftOK I.left I.lower z ∧ SimpleInterval.rightOK I.right I.upper z := Iff.rfl
  rw [e1, Set.mem_sdiff]
  show _ ↔ ((z : EReal) ≤ I.upper ∧ ¬ (z : EReal) ≤ I.lower)
  have el : SimpleInterval.leftOK I.left I.lower z ↔ I.lower < (z : EReal) := by
    cases I.left
    · exact Iff.rfl
    · exact ⟨fun h => lt_of_le_of_ne h (Ne.symm h1), fun h => le_of_lt h⟩
  have er : SimpleInterval.rightOK I.right I.upper z ↔ (z : EReal) ≤ I.upper := by
    cases I.right
    · exact ⟨fun h => le_of_lt h, fun h => lt_of_le_of_ne h h2⟩
    · exact Iff.rfl
  rw [el, er, not_le]
  exact and_comm

theorem truncMoment_eq {I : SimpleInterval} (hI : I.lower < I.upper) (μ : ℝ) {σ : ℝ} (hσ : 0 < σ) (n : ℕ) (c : ℝ) :
    Leaf.truncMoment I μ σ n c
      = (∫ x in I.toSet, (x - c) ^ n ∂(gaussianReal μ (Real.toNNReal (σ ^ 2))))
        / (gaussianReal μ (Real.toNNReal (σ ^ 2))).real I.toSet := by
  have hn := nullSingletonClass_gaussianReal (μ := μ) (toNNReal_sq_ne hσ)
  have hint : Integrable (fun x : ℝ => (x - c) ^ n) (gaussianReal μ (Real.toNNReal (σ ^ 2))) := by
    have : (fun x : ℝ => (x - c) ^ n)
        = fun x => ∑ i ∈ Finset.range (n + 1), ((n.choose i : ℝ) * (-c) ^ (n - i)) * x ^ i := by
      funext x
      rw [sub_eq_add_neg, add_pow]
      refine Finset.sum_congr rfl fun i _ => ?_
      ring
    rw [this]
    exact integrable_finsetSum _ fun i _ => (integrable_pow_gauss _ _ i).const_mul _
  have key : ∀ b : EReal, ∫ x in below b, (x - c) ^ n ∂(gaussianReal μ (Real.toNNReal (σ ^ 2)))
      = σ ^ n * ∑ k ∈ Finset.range (n + 1), (n.choose k : ℝ) * (-((c - μ) / σ)) ^ (n - k)
        * ∫ z in below (Leaf.stdBound μ σ b), z ^ k ∂(gaussianReal 0 1) := by
    intro b
    rw [gauss_affine μ hσ, setIntegral_map (measurableSet_below b) (by fun_prop) (by fun_prop), below_stdBound μ hσ]
    have e : ∀ z : ℝ, (σ * z + μ - c) ^ n = σ ^ n * (1 * z + -((c - μ) / σ)) ^ n := by
      intro z
      rw [← mul_pow]
      congr 1
      field_simp
      ring
    simp only [e]
    rw [integral_const_mul, binomial_integral]
    simp only [one_pow, mul_one]
  rw [interval_below I hI.le _ hint, key, key, ← mul_sub, ← Finset.sum_sub_distrib, Leaf.truncMoment, list_range_sum,
    truncZ_eq I μ σ hσ hI.le, mul_comm, div_mul_eq_mul_div]
  congr 2
  refine Finset.sum_congr rfl fun k _ => ?_
  have h1 := below_moment k (Leaf.stdBound μ σ I.upper)
  have h2 := below_moment k (Leaf.stdBound μ σ I.lower)
  rw [← mul_sub]
  have h3 : ∫ z in below (Leaf.stdBound μ σ I.upper), z ^ k ∂(gaussianReal 0 1)
      - ∫ z in below (Leaf.stdBound μ σ I.lower), z ^ k ∂(gaussianReal 0 1)
      = halfCoef k * Leaf.gammaCdfHalfSq (((k : ℝ) + 1) / 2) (Leaf.stdBound μ σ I.upper)
          * selSign k (Leaf.stdBound μ σ I.upper)
        - halfCoef k * Leaf.gammaCdfHalfSq (((k : ℝ) + 1) / 2) (Leaf.stdBound μ σ I.lower)
          * selSign k (Leaf.stdBound μ σ I.lower) := by
    linear_combination h1 - h2
  rw [h3]
  unfold selSign halfCoef
  have hpi : 0 < Real.sqrt Real.pi := Real.sqrt_pos.2 Real.pi_pos
  field_simp
  ring

end PM
