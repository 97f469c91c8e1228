import Verif.Spec.MonteCarlo
import Mathlib.MeasureTheory.Measure.Lebesgue.Basic
import Mathlib.Probability.StrongLaw
import Mathlib.Probability.HasLawExists
import Mathlib.MeasureTheory.Integral.Bochner.Set
import Mathlib.MeasureTheory.Function.L1Space.Integrable
import Mathlib.MeasureTheory.Integral.Bochner.ContinuousLinearMap

/-! # C73: Monte Carlo estimates of the L1 distance -/

namespace PM.Props
open Spec MonteCarlo MeasureTheory

section
variable {X : Type*} [MeasurableSpace X] {μ : Measure X} {p q : X → ℝ}

theorem lawOf_prob (h : IsDensity μ p) : IsProbabilityMeasure (lawOf μ p) :=
  ⟨by rw [lawOf, withDensity_apply _ MeasurableSet.univ, Measure.restrict_univ, h.mass]⟩

theorem density_integrable (h : IsDensity μ p) : Integrable p μ := by
  refine ⟨h.measurable.aestronglyMeasurable, ?_⟩
  rw [hasFiniteIntegral_iff_ofReal (Filter.Eventually.of_forall h.nonneg), h.mass]
  exact ENNReal.one_lt_top

theorem density_integral (h : IsDensity μ p) : ∫ x, p x ∂μ = 1 := by
  rw [integral_eq_lintegral_of_nonneg_ae (Filter.Eventually.of_forall h.nonneg) h.measurable.aestronglyMeasurable, h.mass]
  simp

/-- The expected mean of a bounded function. -/
theorem expected_mean (h : IsDensity μ p) {n : ℕ} (hn : n ≠ 0) {f : X → ℝ} (hf : Integrable f (lawOf μ p)) :
    expected μ p n (fun l => (l.map f).sum / (l.length : ℝ)) = ∫ x, f x ∂lawOf μ p := by
  have := lawOf_prob h
  unfold expected
  have h1 : ∀ s : Fin n → X, ((List.ofFn s).map f).sum / (List.ofFn s).length = (∑ i, f (s i)) / n := by
    intro s
    rw [List.map_ofFn, List.sum_ofFn, List.length_ofFn]
    rfl
  simp only [h1]
  have h2 : ∀ i : Fin n, Integrable (fun s : Fin n → X => f (s i)) (Measure.pi fun _ => lawOf μ p) := fun i =>
    (measurePreserving_eval (fun _ : Fin n => lawOf μ p) i).integrable_comp_of_integrable hf
  rw [integral_div, integral_finsetSum _ fun i _ => h2 i]
  have h3 : ∀ i : Fin n, ∫ s : Fin n → X, f (s i) ∂(Measure.pi fun _ => lawOf μ p) = ∫ x, f x ∂lawOf μ p := by
    intro i
    have hmp := measurePreserving_eval (fun _ : Fin n => lawOf μ p) i
    have := integral_map (f := f) hmp.measurable.aemeasurable (by rw [hmp.map_eq]; exact hf.aestronglyMeasurable)
    rw [hmp.map_eq] at this
    exact this.symm
  simp only [h3, Finset.sum_const, Finset.card_univ, Fintype.card_fin, nsmul_eq_mul]
  have : (n : ℝ) ≠ 0 := by exact_mod_cast hn
  field_simp

theorem integral_lawOf (h : IsDensity μ p) (f : X → ℝ) : ∫ x, f x ∂lawOf μ p = ∫ x, p x * f x ∂μ := by
  rw [lawOf, integral_withDensity_eq_integral_toReal_smul (h.measurable.ennreal_ofReal) (Filter.Eventually.of_forall fun x => by simp)]
  congr 1
  funext x
  rw [ENNReal.toReal_ofReal (h.nonneg x), smul_eq_mul]

theorem integral_indicator_law (h : IsDensity μ p) {A : Set X} (hA : MeasurableSet A) :
    ∫ x, A.indicator (fun _ => (1 : ℝ)) x ∂lawOf μ p = ∫ x in A, p x ∂μ := by
  rw [integral_lawOf h, ← integral_indicator hA]
  congr 1
  funext x
  by_cases hx : x ∈ A <;> simp [hx]

omit [MeasurableSpace X] in
theorem higherFraction_eq (p q : X → ℝ) (t : ℝ) :
    higherFraction p q t = fun l : List X => (l.map ({x | t < p x - q x}.indicator fun _ => (1 : ℝ))).sum / (l.length : ℝ) := by
  funext l
  unfold higherFraction
  congr 3

theorem measurableSet_higher (hp : IsDensity μ p) (hq : IsDensity μ q) (t : ℝ) : MeasurableSet {x | t < p x - q x} :=
  measurableSet_lt measurable_const (hp.measurable.sub hq.measurable)

theorem expected_fraction {r : X → ℝ} (hp : IsDensity μ p) (hq : IsDensity μ q) (hr : IsDensity μ r) (t : ℝ) {n : ℕ} (hn : n ≠ 0) :
    expected μ r n (higherFraction p q t) = ∫ x in {x | t < p x - q x}, r x ∂μ := by
  have := lawOf_prob hr
  have hA := measurableSet_higher hp hq t
  rw [higherFraction_eq, expected_mean hr hn ((integrable_const (1 : ℝ)).indicator hA), integral_indicator_law hr hA]

end

/-- The expected value of `l1_metric` with `n` samples. -/
noncomputable def expectedL1 {X : Type*} [MeasurableSpace X] (μ : Measure X) (p q : X → ℝ) (tolerance : ℝ) (n : ℕ) : ℝ :=
  expected μ p n fun samplesP => expected μ q n fun samplesQ => l1Metric p q tolerance samplesP samplesQ

/-- **C73, the full statement**: with independent samples of the two models, the expected value of `l1_metric` is the L1 distance of
their densities. -/
def C73_full : Prop :=
  ∀ (X : Type) [MeasurableSpace X] (μ : Measure X) (p q : X → ℝ) (n : ℕ), IsDensity μ p → IsDensity μ q → n ≠ 0 →
    expectedL1 μ p q defaultTolerance n = l1Distance μ p q

section
variable {X : Type*} [MeasurableSpace X] {μ : Measure X} {p q : X → ℝ}

theorem integrable_fraction {r : X → ℝ} (hp : IsDensity μ p) (hq : IsDensity μ q) (hr : IsDensity μ r) (t : ℝ) (n : ℕ) :
    Integrable (fun s : Fin n → X => higherFraction p q t (List.ofFn s)) (Measure.pi fun _ => lawOf μ r) := by
  have := lawOf_prob hr
  have hA := measurableSet_higher hp hq t
  have h1 : ∀ s : Fin n → X, higherFraction p q t (List.ofFn s) = (∑ i, {x | t < p x - q x}.indicator (fun _ => (1 : ℝ)) (s i)) / n := by
    intro s
    rw [higherFraction_eq]
    simp only [List.map_ofFn, List.sum_ofFn, List.length_ofFn]
    rfl
  simp only [h1]
  refine (integrable_finsetSum _ fun i _ => ?_).div_const _
  exact (measurePreserving_eval (fun _ : Fin n => lawOf μ r) i).integrable_comp_of_integrable ((integrable_const (1 : ℝ)).indicator hA)

/-- The expected value: twice the difference of the probabilities of the set where the first density is higher by more than the
tolerance. -/
theorem C73_expected (hp : IsDensity μ p) (hq : IsDensity μ q) (t : ℝ) {n : ℕ} (hn : n ≠ 0) :
    expectedL1 μ p q t n = 2 * ((∫ x in {x | t < p x - q x}, p x ∂μ) - ∫ x in {x | t < p x - q x}, q x ∂μ) := by
  have hP := lawOf_prob hp
  have hQ := lawOf_prob hq
  have h1 : ∀ l, expected μ q n (fun samplesQ => l1Metric p q t l samplesQ)
      = 2 * (higherFraction p q t l - ∫ x in {x | t < p x - q x}, q x ∂μ) := by
    intro l
    rw [← expected_fraction hp hq hq t hn]
    unfold expected l1Metric
    rw [integral_const_mul, integral_sub (integrable_const _) (integrable_fraction hp hq hq t n), integral_const]
    simp
  unfold expectedL1
  simp only [h1]
  rw [← expected_fraction hp hq hp t hn]
  unfold expected
  rw [integral_const_mul, integral_sub (integrable_fraction hp hq hp t n) (integrable_const _), integral_const]
  simp

/-- The L1 distance is twice the integral of the difference where it is positive. -/
theorem l1_eq (hp : IsDensity μ p) (hq : IsDensity μ q) : l1Distance μ p q = 2 * ∫ x in {x | 0 < p x - q x}, (p x - q x) ∂μ := by
  have hA := measurableSet_higher hp hq 0
  have hi : Integrable (fun x => p x - q x) μ := (density_integrable hp).sub (density_integrable hq)
  have h0 : ∫ x, (p x - q x) ∂μ = 0 := by
    rw [integral_sub (density_integrable hp) (density_integrable hq), density_integral hp, density_integral hq, sub_self]
  have habs : ∀ x, |p x - q x| = 2 * {x | 0 < p x - q x}.indicator (fun x => p x - q x) x - (p x - q x) := by
    intro x
    by_cases hx : 0 < p x - q x
    · rw [Set.indicator_of_mem (show x ∈ {x | 0 < p x - q x} from hx), abs_of_pos hx]
      ring
    · rw [Set.indicator_of_notMem (show x ∉ {x | 0 < p x - q x} from hx), abs_of_nonpos (not_lt.1 hx)]
      ring
  unfold l1Distance
  simp only [habs]
  rw [integral_sub ((hi.indicator hA).const_mul 2) hi, h0, sub_zero, integral_const_mul, integral_indicator hA]

/-- C73 without a tolerance. -/
theorem C73_unbiased_partial (hp : IsDensity μ p) (hq : IsDensity μ q) {n : ℕ} (hn : n ≠ 0) :
    expectedL1 μ p q 0 n = l1Distance μ p q := by
  rw [C73_expected hp hq 0 hn, l1_eq hp hq,
    integral_sub (density_integrable hp).integrableOn (density_integrable hq).integrableOn]

/-- C73 with a tolerance: the expected value is at most the L1 distance, and the error is at most twice the tolerance times the size of
the support of the first density.  Missing: with the default tolerance the error is not zero (`C73_full_false`). -/
theorem C73_tolerance_partial (hp : IsDensity μ p) (hq : IsDensity μ q) {n : ℕ} (hn : n ≠ 0) {t M : ℝ} (ht : 0 ≤ t) (hM : 0 ≤ M)
    (hsize : μ {x | p x ≠ 0} ≤ ENNReal.ofReal M) :
    l1Distance μ p q - 2 * t * M ≤ expectedL1 μ p q t n ∧ expectedL1 μ p q t n ≤ l1Distance μ p q := by
  have hA := measurableSet_higher hp hq 0
  have hB := measurableSet_higher hp hq t
  have hi : Integrable (fun x => p x - q x) μ := (density_integrable hp).sub (density_integrable hq)
  have hS : MeasurableSet {x | p x ≠ 0} := (measurableSet_singleton (0 : ℝ)).compl.preimage hp.measurable
  have hind : ∀ c x, {x | c < p x - q x}.indicator (fun x => p x - q x) x = if c < p x - q x then p x - q x else 0 := fun c x => by
    rw [Set.indicator_apply]
    rfl
  have hindS : ∀ x, {x | p x ≠ 0}.indicator (fun _ => t) x = if p x = 0 then 0 else t := fun x => by
    rw [Set.indicator_apply]
    by_cases h : p x = 0
    · rw [if_pos h, if_neg (show x ∉ {x | p x ≠ 0} from fun hx => hx h)]
    · rw [if_neg h, if_pos (show x ∈ {x | p x ≠ 0} from h)]
  have hfin : μ {x | p x ≠ 0} ≠ ⊤ := ne_top_of_le_ne_top ENNReal.ofReal_ne_top hsize
  rw [C73_expected hp hq t hn, l1_eq hp hq,
    ← integral_sub (density_integrable hp).integrableOn (density_integrable hq).integrableOn]
  have hle : ∫ x in {x | t < p x - q x}, (p x - q x) ∂μ ≤ ∫ x in {x | 0 < p x - q x}, (p x - q x) ∂μ := by
    rw [← integral_indicator hB, ← integral_indicator hA]
    refine integral_mono (hi.indicator hB) (hi.indicator hA) fun x => ?_
    simp only [hind]
    split_ifs <;> linarith
  have hge : ∫ x in {x | 0 < p x - q x}, (p x - q x) ∂μ ≤ (∫ x in {x | t < p x - q x}, (p x - q x) ∂μ) + t * M := by
    have h1 : Integrable ({x | p x ≠ 0}.indicator fun _ => t) μ := (integrable_indicator_iff hS).2 (integrableOn_const hfin)
    have h2 : ∫ x, {x | p x ≠ 0}.indicator (fun _ => t) x ∂μ ≤ t * M := by
      rw [integral_indicator hS, setIntegral_const, smul_eq_mul, mul_comm]
      refine mul_le_mul_of_nonneg_left ?_ ht
      rw [Measure.real]
      exact ENNReal.toReal_le_of_le_ofReal hM hsize
    refine le_trans ?_ (add_le_add_right h2 _)
    rw [← integral_indicator hB, ← integral_indicator hA, ← integral_add (hi.indicator hB) h1]
    refine integral_mono (hi.indicator hA) ((hi.indicator hB).add h1) fun x => ?_
    have h3 := hq.nonneg x
    simp only [hind, hindS]
    split_ifs <;> linarith
  constructor <;> linarith

/-- `S` is a sequence of independent samples of the distribution with density `p`. -/
structure Samples {Ω : Type*} [MeasurableSpace Ω] (ρ : Measure Ω) (μ : Measure X) (p : X → ℝ) (S : ℕ → Ω → X) : Prop where
  measurable : ∀ i, Measurable (S i)
  independent : Pairwise fun i j => ProbabilityTheory.IndepFun (S i) (S j) ρ
  law : ∀ i, ρ.map (S i) = lawOf μ p

theorem fraction_converges {Ω : Type*} [MeasurableSpace Ω] {ρ : Measure Ω} {r : X → ℝ} (hp : IsDensity μ p)
    (hq : IsDensity μ q) (hr : IsDensity μ r) (t : ℝ) {S : ℕ → Ω → X} (hS : Samples ρ μ r S) :
    ∀ᵐ ω ∂ρ, Filter.Tendsto (fun n => higherFraction p q t ((List.range n).map fun i => S i ω)) Filter.atTop
      (nhds (∫ x in {x | t < p x - q x}, r x ∂μ)) := by
  have hA := measurableSet_higher hp hq t
  have hP := lawOf_prob hr
  set f : X → ℝ := {x | t < p x - q x}.indicator fun _ => (1 : ℝ) with hf
  have hfm : Measurable f := measurable_const.indicator hA
  have hfi : Integrable f (lawOf μ r) := (integrable_const (1 : ℝ)).indicator hA
  have h1 := ProbabilityTheory.strong_law_ae_real (μ := ρ) (fun i ω => f (S i ω))
    ((hS.law 0 ▸ hfi : Integrable f (ρ.map (S 0))).comp_measurable (hS.measurable 0))
    (fun i j hij => (hS.independent hij).comp hfm hfm)
    (fun i => ⟨(hfm.comp (hS.measurable i)).aemeasurable, (hfm.comp (hS.measurable 0)).aemeasurable, by
      have h2 : ∀ i, ρ.map (fun ω => f (S i ω)) = (lawOf μ r).map f := fun i => by
        rw [← hS.law i, Measure.map_map hfm (hS.measurable i)]
        rfl
      rw [h2, h2]⟩)
  have h2 : ∫ ω, f (S 0 ω) ∂ρ = ∫ x in {x | t < p x - q x}, r x ∂μ := by
    rw [← integral_indicator_law hr hA, ← hS.law 0, integral_map (hS.measurable 0).aemeasurable hfm.aestronglyMeasurable]
  rw [h2] at h1
  filter_upwards [h1] with ω hω
  refine hω.congr fun n => ?_
  rw [higherFraction_eq]
  simp only [List.map_map, List.length_map, List.length_range]
  congr 1

/-- With more and more independent samples, the estimate without a tolerance converges to the L1 distance. -/
theorem C73_consistent {Ω : Type*} [MeasurableSpace Ω] {ρ : Measure Ω} (hp : IsDensity μ p) (hq : IsDensity μ q)
    {S T : ℕ → Ω → X} (hS : Samples ρ μ p S) (hT : Samples ρ μ q T) :
    ∀ᵐ ω ∂ρ, Filter.Tendsto (fun n => l1Metric p q 0 ((List.range n).map fun i => S i ω) ((List.range n).map fun i => T i ω))
      Filter.atTop (nhds (l1Distance μ p q)) := by
  rw [l1_eq hp hq, integral_sub (density_integrable hp).integrableOn (density_integrable hq).integrableOn]
  filter_upwards [fraction_converges hp hq hp 0 hS, fraction_converges hp hq hq 0 hT] with ω h1 h2
  exact (h1.sub h2).const_mul 2

end

/-- **C74**: `l1_metric_but_with_uniform_measure` is unbiased, provided that the uniform model really is uniform on a set `S` outside of
which both models have density zero.  Missing: `uniform_measure_of_event` is not uniform in general (`C50_full_false`); it is for boxes with
equally long intervals (`C50_constant_density_partial`). -/
theorem C74_uniform_partial {X : Type*} [MeasurableSpace X] {μ : Measure X} {p q u : X → ℝ} {S : Set X} {c : ℝ} (hc : 0 < c)
    (hp : IsDensity μ p) (hq : IsDensity μ q) (hu : IsDensity μ u) (hin : ∀ x ∈ S, u x = c) (hout : ∀ x ∉ S, u x = 0)
    (hps : ∀ x ∉ S, p x = 0) (hqs : ∀ x ∉ S, q x = 0) {n : ℕ} (hn : n ≠ 0) :
    (∀ l : List X, l ≠ [] → ∃ r, l1Uniform p q u l = .ok r) ∧
      expected μ u n (fun l => match l1Uniform p q u l with | .ok r => r | .error _ => 0) = l1Distance μ p q := by
  refine ⟨fun l hl => ?_, ?_⟩
  · cases l with
    | nil => exact absurd rfl hl
    | cons x l => exact ⟨_, rfl⟩
  have hU := lawOf_prob hu
  have hS : S = {x | u x ≠ 0} := by
    ext x
    constructor
    · intro hx
      show u x ≠ 0
      rw [hin x hx]
      exact hc.ne'
    · intro hx
      by_contra h
      exact hx (hout x h)
  have hSm : MeasurableSet S := by
    rw [hS]
    exact (measurableSet_singleton (0 : ℝ)).compl.preimage hu.measurable
  have hae : ∀ᵐ x ∂lawOf μ u, x ∈ S := by
    rw [lawOf, ae_withDensity_iff hu.measurable.ennreal_ofReal]
    refine Filter.Eventually.of_forall fun x hx => ?_
    by_contra h
    exact hx (by rw [hout x h, ENNReal.ofReal_zero])
  have hprod : ∀ x, u x * |p x - q x| = c * |p x - q x| := by
    intro x
    by_cases hx : x ∈ S
    · rw [hin x hx]
    · rw [hps x hx, hqs x hx]
      simp
  have hint : Integrable (fun x => |p x - q x|) (lawOf μ u) := by
    rw [lawOf, integrable_withDensity_iff hu.measurable.ennreal_ofReal (Filter.Eventually.of_forall fun x => by simp)]
    have : (fun x => |p x - q x| * (ENNReal.ofReal (u x)).toReal) = fun x => c * |p x - q x| := by
      funext x
      rw [ENNReal.toReal_ofReal (hu.nonneg x), mul_comm, hprod]
    rw [this]
    exact (((density_integrable hp).sub (density_integrable hq)).abs).const_mul c
  have h1 : expected μ u n (fun l => match l1Uniform p q u l with | .ok r => r | .error _ => 0)
      = expected μ u n (fun l => (l.map fun y => |p y - q y|).sum / (l.length : ℝ)) / c := by
    unfold expected
    rw [← integral_div]
    apply integral_congr_ae
    obtain ⟨m, rfl⟩ := Nat.exists_eq_succ_of_ne_zero hn
    have h0 := (measurePreserving_eval (fun _ : Fin (m + 1) => lawOf μ u) 0).quasiMeasurePreserving.ae hae
    filter_upwards [h0] with s hs
    rw [List.ofFn_succ]
    simp only [l1Uniform]
    rw [hin _ hs]
  rw [h1, expected_mean hu hn hint, integral_lawOf hu]
  simp only [hprod]
  rw [integral_const_mul, l1Distance]
  field_simp

/-- The density of the uniform distribution on the interval from `a` to `b`. -/
noncomputable def uniformDensity (a b : ℝ) (x : ℝ) : ℝ := (Set.Ioo a b).indicator (fun _ => 1 / (b - a)) x

theorem isDensity_uniform {a b : ℝ} (h : a < b) : IsDensity volume (uniformDensity a b) := by
  have h0 : 0 < b - a := by linarith
  refine ⟨measurable_const.indicator measurableSet_Ioo, fun x => Set.indicator_nonneg (fun _ _ => by positivity) x, ?_⟩
  have : ∀ x, ENNReal.ofReal (uniformDensity a b x) = (Set.Ioo a b).indicator (fun _ => ENNReal.ofReal (1 / (b - a))) x := by
    intro x
    by_cases hx : x ∈ Set.Ioo a b <;> simp [uniformDensity, hx]
  simp only [this]
  rw [lintegral_indicator measurableSet_Ioo, setLIntegral_const, Real.volume_Ioo, ← ENNReal.ofReal_mul (by positivity)]
  rw [one_div, inv_mul_cancel₀ h0.ne', ENNReal.ofReal_one]

/-- C73 is false of the code: two uniform distributions with disjoint wide supports have the distance two, but the estimate is always
zero, since their densities are below the tolerance. -/
theorem C73_full_false : ¬ C73_full := by
  intro h
  have hp := isDensity_uniform (a := 0) (b := 10 ^ 8) (by norm_num)
  have hq := isDensity_uniform (a := 10 ^ 8) (b := 2 * 10 ^ 8) (by norm_num)
  have h1 := h ℝ volume _ _ 1 hp hq one_ne_zero
  have hA : {x | defaultTolerance < uniformDensity 0 (10 ^ 8) x - uniformDensity (10 ^ 8) (2 * 10 ^ 8) x} = ∅ := by
    rw [Set.eq_empty_iff_forall_notMem]
    intro x hx
    have h2 : uniformDensity 0 (10 ^ 8) x ≤ 1 / 10 ^ 8 := by
      by_cases hx : x ∈ Set.Ioo (0 : ℝ) (10 ^ 8)
      · simp [uniformDensity, hx]
      · simp [uniformDensity, hx]
    have h3 := hq.nonneg x
    have h4 : defaultTolerance < uniformDensity 0 (10 ^ 8) x - uniformDensity (10 ^ 8) (2 * 10 ^ 8) x := hx
    unfold defaultTolerance at h4
    norm_num at h2 h3 h4
    linarith
  rw [C73_expected hp hq _ one_ne_zero, hA, l1_eq hp hq] at h1
  have hset : {x | 0 < uniformDensity 0 (10 ^ 8) x - uniformDensity (10 ^ 8) (2 * 10 ^ 8) x} = Set.Ioo 0 (10 ^ 8) := by
    ext x
    simp only [Set.mem_ofPred_eq]
    by_cases h1 : x ∈ Set.Ioo (0 : ℝ) (10 ^ 8)
    · have h2 : x ∉ Set.Ioo (10 ^ 8 : ℝ) (2 * 10 ^ 8) := fun h => absurd h.1 (not_lt.2 h1.2.le)
      simp only [uniformDensity, Set.indicator_of_mem h1, Set.indicator_of_notMem h2, h1, iff_true]
      norm_num
    · have := hq.nonneg x
      have h3 : uniformDensity 0 (10 ^ 8) x = 0 := by simp [uniformDensity, h1]
      rw [h3]
      simp only [h1, iff_false, not_lt]
      linarith
  rw [hset] at h1
  have hval : ∫ x in Set.Ioo (0 : ℝ) (10 ^ 8), (uniformDensity 0 (10 ^ 8) x - uniformDensity (10 ^ 8) (2 * 10 ^ 8) x) = 1 := by
    have : ∫ x in Set.Ioo (0 : ℝ) (10 ^ 8), (uniformDensity 0 (10 ^ 8) x - uniformDensity (10 ^ 8) (2 * 10 ^ 8) x)
        = ∫ x in Set.Ioo (0 : ℝ) (10 ^ 8), 1 / 10 ^ 8 := by
      refine setIntegral_congr_fun measurableSet_Ioo fun x hx => ?_
      have h2 : x ∉ Set.Ioo (10 ^ 8 : ℝ) (2 * 10 ^ 8) := fun h => absurd h.1 (not_lt.2 hx.2.le)
      simp [uniformDensity, Set.indicator_of_mem hx, Set.indicator_of_notMem h2]
    rw [this, setIntegral_const, Measure.real, Real.volume_Ioo]
    norm_num
  rw [hval] at h1
  simp at h1

/-- The hypotheses of `C73_tolerance_partial` are met by two overlapping uniform distributions and the default tolerance. -/
example : l1Distance volume (uniformDensity 0 2) (uniformDensity 1 3) - 2 * defaultTolerance * 2
    ≤ expectedL1 volume (uniformDensity 0 2) (uniformDensity 1 3) defaultTolerance 100 := by
  refine (C73_tolerance_partial (isDensity_uniform (by norm_num)) (isDensity_uniform (by norm_num)) (by norm_num)
    (by unfold defaultTolerance; positivity) (by norm_num) ?_).1
  refine (measure_mono (t := Set.Ioo 0 2) ?_).trans (by rw [Real.volume_Ioo]; norm_num)
  intro x hx
  by_contra hn
  exact hx (by simp [uniformDensity, hn])

/-- The hypotheses of `C73_consistent` are met: there are independent samples of any two densities. -/
theorem exists_samples {X : Type} [MeasurableSpace X] {μ : Measure X} {p q : X → ℝ} (hp : IsDensity μ p) (hq : IsDensity μ q) :
    ∃ (Ω : Type) (_ : MeasurableSpace Ω) (ρ : Measure Ω) (S T : ℕ → Ω → X), Samples ρ μ p S ∧ Samples ρ μ q T := by
  have := lawOf_prob hp
  have := lawOf_prob hq
  have : ∀ i : ℕ ⊕ ℕ, IsProbabilityMeasure (Sum.elim (fun _ => lawOf μ p) (fun _ => lawOf μ q) i) := by
    rintro (i | i) <;> assumption
  obtain ⟨Ω, m, P, Z, h1, h2, h3, _⟩ := ProbabilityTheory.exists_hasLaw_indepFun (fun _ : ℕ ⊕ ℕ => X)
    (Sum.elim (fun _ => lawOf μ p) (fun _ => lawOf μ q))
  exact ⟨Ω, m, P, fun i => Z (.inl i), fun i => Z (.inr i),
    ⟨fun i => h1 _, fun i j hij => h3.indepFun (by simpa using hij), fun i => (h2 (.inl i)).map_eq⟩,
    ⟨fun i => h1 _, fun i j hij => h3.indepFun (by simpa using hij), fun i => (h2 (.inr i)).map_eq⟩⟩

/-- The hypotheses of `C74_uniform_partial` are met by two overlapping uniform distributions. -/
example : expected volume (uniformDensity 0 4) 100 (fun l => match l1Uniform (uniformDensity 0 2) (uniformDensity 1 3) (uniformDensity 0 4) l with
    | .ok r => r | .error _ => 0) = l1Distance volume (uniformDensity 0 2) (uniformDensity 1 3) := by
  refine (C74_uniform_partial (S := Set.Ioo 0 4) (c := 1 / 4) (by norm_num) (isDensity_uniform (by norm_num)) (isDensity_uniform (by norm_num))
    (isDensity_uniform (by norm_num)) ?_ ?_ ?_ ?_ (by norm_num)).2
  · intro x hx
    simp [uniformDensity, Set.indicator_of_mem hx]
  · intro x hx
    simp [uniformDensity, Set.indicator_of_notMem hx]
  · intro x hx
    refine Set.indicator_of_notMem (fun h => hx ⟨h.1, ?_⟩) _
    have := h.2
    linarith
  · intro x hx
    refine Set.indicator_of_notMem (fun h => hx ⟨?_, ?_⟩) _
    · have := h.1
      linarith
    · have := h.2
      linarith

end PM.Props
