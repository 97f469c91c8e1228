import Mathlib.MeasureTheory.Integral.Pi
import Verif.Props.MonteCarloCircuit

/-!
# C74: what `l1_metric_but_with_uniform_measure` estimates

The expected value for an arbitrary model in place of the uniform one, and the negation of C74 for circuits.
-/

namespace PM.Props

open Spec Graph MeasureTheory MonteCarlo
open scoped ENNReal

section
variable {X : Type*} [MeasurableSpace X] {μ : Measure X} {p q u : X → ℝ}

/-- The expected value of a product of functions of two different samples. -/
theorem integral_two (hu : IsDensity μ u) {n : ℕ} {i j : Fin n} (hij : i ≠ j) {f h : X → ℝ} (hf : Integrable f (lawOf μ u))
    (hh : Integrable h (lawOf μ u)) :
    Integrable (fun s : Fin n → X => f (s i) * h (s j)) (Measure.pi fun _ => lawOf μ u) ∧
      ∫ s : Fin n → X, f (s i) * h (s j) ∂(Measure.pi fun _ => lawOf μ u) = (∫ x, f x ∂lawOf μ u) * ∫ x, h x ∂lawOf μ u := by
  have := lawOf_prob hu
  set F : Fin n → X → ℝ := fun k => if k = i then f else if k = j then h else fun _ => 1 with hF
  have hprod : ∀ G : Fin n → ℝ, (∀ k, k ≠ i → k ≠ j → G k = 1) → ∏ k, G k = G i * G j := by
    intro G hG
    rw [← Finset.prod_subset (Finset.subset_univ {i, j}) (by
      intro k _ hk
      simp only [Finset.mem_insert, Finset.mem_singleton, not_or] at hk
      exact hG k hk.1 hk.2), Finset.prod_pair hij]
  have hpoint : ∀ s : Fin n → X, ∏ k, F k (s k) = f (s i) * h (s j) := by
    intro s
    rw [hprod _ fun k h1 h2 => by simp [hF, h1, h2]]
    simp [hF, hij.symm]
  constructor
  · have := Integrable.fintype_prod (f := F) (μ := fun _ : Fin n => lawOf μ u) (by
      intro k
      simp only [hF]
      split
      · exact hf
      · split
        · exact hh
        · exact integrable_const _)
    simpa only [hpoint] using this
  · have := integral_fintype_prod_eq_prod (𝕜 := ℝ) F (μ := fun _ : Fin n => lawOf μ u)
    simp only [hpoint] at this
    rw [this, hprod _ fun k h1 h2 => by simp [hF, h1, h2]]
    simp [hF, hij.symm]

theorem integrable_lawOf (hu : IsDensity μ u) {f : X → ℝ} : Integrable f (lawOf μ u) ↔ Integrable (fun x => u x * f x) μ := by
  rw [lawOf, integrable_withDensity_iff hu.measurable.ennreal_ofReal (Filter.Eventually.of_forall fun x => by simp)]
  refine iff_of_eq (congrArg (fun h => Integrable h μ) ?_)
  funext x
  rw [ENNReal.toReal_ofReal (hu.nonneg x), mul_comm]

/-- **C74**: the expected value of `l1_metric_but_with_uniform_measure` with `n` samples, whatever the density `u` of the model that is
sampled: one `n`-th of it is the L1 distance, the rest is the volume of the support of `u` times the mean distance at its samples. -/
theorem C74_expected (hp : IsDensity μ p) (hq : IsDensity μ q) (hu : IsDensity μ u) (hps : ∀ x, u x = 0 → p x = 0)
    (hqs : ∀ x, u x = 0 → q x = 0) (hfin : μ {x | u x ≠ 0} ≠ ⊤) (hint : Integrable (fun x => u x * |p x - q x|) μ) {n : ℕ} (hn : n ≠ 0) :
    expected μ u n (fun l => match l1Uniform p q u l with | .ok r => r | .error _ => 0) =
      (l1Distance μ p q + (n - 1) * ((μ {x | u x ≠ 0}).toReal * ∫ x, u x * |p x - q x| ∂μ)) / n := by
  have hU := lawOf_prob hu
  obtain ⟨m, rfl⟩ := Nat.exists_eq_succ_of_ne_zero hn
  have hS : MeasurableSet {x | u x ≠ 0} := (measurableSet_singleton (0 : ℝ)).compl.preimage hu.measurable
  set f : X → ℝ := fun x => |p x - q x| with hf
  have hmul : ∀ x, u x * (f x * (1 / u x)) = f x := by
    intro x
    by_cases h : u x = 0
    · simp [hf, h, hps x h, hqs x h]
    · field_simp
  have hinv : ∀ x, u x * (1 / u x) = {x | u x ≠ 0}.indicator (fun _ => (1 : ℝ)) x := by
    intro x
    by_cases h : u x = 0
    · rw [Set.indicator_of_notMem (by simpa using h), h, zero_mul]
    · rw [Set.indicator_of_mem (by simpa using h), mul_one_div_cancel h]
  have hi0 : Integrable (fun x => f x * (1 / u x)) (lawOf μ u) := by
    rw [integrable_lawOf hu]
    simp only [hmul]
    exact ((density_integrable hp).sub (density_integrable hq)).abs
  have hif : Integrable f (lawOf μ u) := (integrable_lawOf hu).2 hint
  have hi1 : Integrable (fun x => 1 / u x) (lawOf μ u) := by
    rw [integrable_lawOf hu]
    simp only [hinv]
    rw [integrable_indicator_iff hS]
    exact integrableOn_const hfin
  have he1 : ∫ x, 1 / u x ∂lawOf μ u = (μ {x | u x ≠ 0}).toReal := by
    rw [integral_lawOf hu]
    simp only [hinv]
    rw [integral_indicator hS]
    simp [measureReal_def]
  have hterm : ∀ i : Fin (m + 1), Integrable (fun s : Fin (m + 1) → X => f (s i) * (1 / u (s 0))) (Measure.pi fun _ => lawOf μ u) ∧
      ∫ s : Fin (m + 1) → X, f (s i) * (1 / u (s 0)) ∂(Measure.pi fun _ => lawOf μ u) =
        if i = 0 then l1Distance μ p q else (μ {x | u x ≠ 0}).toReal * ∫ x, u x * f x ∂μ := by
    intro i
    by_cases h : i = 0
    · subst h
      have hmp := measurePreserving_eval (fun _ : Fin (m + 1) => lawOf μ u) 0
      refine ⟨hmp.integrable_comp_of_integrable hi0, ?_⟩
      have := integral_map (f := fun x => f x * (1 / u x)) hmp.measurable.aemeasurable (by rw [hmp.map_eq]; exact hi0.aestronglyMeasurable)
      rw [hmp.map_eq] at this
      rw [if_pos rfl]
      refine this.symm.trans ?_
      rw [integral_lawOf hu]
      simp only [hmul]
      rfl
    · obtain ⟨h1, h2⟩ := integral_two hu h hif hi1
      exact ⟨h1, by rw [if_neg h, h2, he1, integral_lawOf hu, mul_comm]⟩
  have hval : ∀ s : Fin (m + 1) → X, (match l1Uniform p q u (List.ofFn s) with | .ok r => r | .error _ => 0) =
      (∑ i, f (s i) * (1 / u (s 0))) / ((m + 1 : ℕ) : ℝ) := by
    intro s
    rw [List.ofFn_succ]
    simp only [l1Uniform]
    rw [← List.ofFn_succ, List.map_ofFn, List.sum_ofFn, List.length_ofFn, ← Finset.sum_mul, div_right_comm, ← mul_one_div (∑ i, _) (u (s 0))]
    rfl
  unfold expected
  simp only [hval]
  rw [integral_div, integral_finsetSum _ fun i _ => (hterm i).1]
  congr 1
  simp only [(hterm _).2]
  rw [Fin.sum_univ_succ]
  simp only [Fin.succ_ne_zero, if_true, if_false, Finset.sum_const, Finset.card_univ, Fintype.card_fin, nsmul_eq_mul, Nat.cast_succ,
    add_sub_cancel_right]
  rfl

end

/-- **C74 as claimed**, for circuits: the expected value of `l1_metric_but_with_uniform_measure` on independent draws from the model that
`uniform_measure_of_event` makes of the union of the (bounded) supports is the L1 distance. -/
def C74_full : Prop :=
  ∀ (ty : Var → VarType) (dom : Var → VSet) (s : Finset Var) (p q : Circuit) (Sp Sq : Event) (union : Event → Event → Event)
    (box : Event → SimpleEvent) (n : ℕ) (u : Circuit) (est : List (s → ℝ) → ℝ),
    DensityCircuit ty dom s p → DensityCircuit ty dom s q → (p.support freshMem).2 = .ok Sp → (q.support freshMem).2 = .ok Sq →
    (∀ x, (union Sq Sp).Mem x ↔ Sq.Mem x ∨ Sp.Mem x) → (∀ E ∈ union Sq Sp, BoundedBox ty s E) → DisjointFamily (union Sq Sp) →
    BoundedBox ty s (box (union Sq Sp)) → (∀ E, box [E] = E) → TypedDomain ty dom (box (union Sq Sp)) → n ≠ 0 →
    uniformOfEvent ty dom box (union Sq Sp) = .ok (some u) →
    (∀ l, l ≠ [] → l1UniformOfCircuits ty dom box union p q (l.map (assign s)) = .ok (est l)) →
    expected (baseOn ty s) (densityOf s u) n est = l1Distance (baseOn ty s) (densityOf s p) (densityOf s q)

/-- The density that `uniform_measure_of_event` makes of `[0,1] ∪ [2,4]`. -/
theorem gap_density : ∃ u, uniformOfEvent allContinuous (fun _ => realLine) (fun Es => Es.headD []) [[(0, gap)]] = .ok (some u) ∧
    (∀ x m, ∃ p, u.likelihood m x = .ok p) ∧
    densityOf {0} u = fun y => (slab 0 1).indicator (fun _ => Real.exp 1 / (Real.exp 1 + Real.exp 2)) y +
      (slab 2 4).indicator (fun _ => Real.exp 2 / (Real.exp 1 + Real.exp 2) / 2) y := by
  obtain ⟨g, u, hgo, hu, hlik⟩ := uniformOfEvent_single_values gap_box (line_domain _) (box := fun Es => Es.headD []) rfl
  refine ⟨u, hu, fun x m => ?_, ?_⟩
  · obtain ⟨p, _, h⟩ := hlik x m
    exact ⟨_, h⟩
  funext y
  obtain ⟨p, h1, h2⟩ := hlik (assign {0} y) freshMem
  have hmem : SimpleEvent.Mem [(0, gap)] (assign {0} y) ↔ y ∈ slab 0 1 ∨ y ∈ slab 2 4 := by
    simp only [slab, Set.mem_ofPred_eq, ← cc_toSet]
    simp [SimpleEvent.Mem, VSet.toSet, VSet.Mem, gap]
  have hno : ¬ (y ∈ slab 0 1 ∧ y ∈ slab 2 4) := by
    rintro ⟨a, b⟩
    linarith [a.2, b.1]
  have hw : ∀ {i : SimpleInterval}, i ∈ [cc 0 1, cc 2 4] → i.Mem (assign {0} y 0) →
      p = Real.exp (i.upper.toReal - i.lower.toReal) / (Real.exp 1 + Real.exp 2) / (i.upper.toReal - i.lower.toReal) := by
    intro i hi hx
    obtain ⟨g₂, hgo₂, h3⟩ := C50_weights (ty := allContinuous) rfl gap_box hi hx
    rw [show uniformOfSimple allContinuous [(0, VSet.interval [cc 0 1, cc 2 4])] = _ from hgo] at hgo₂
    injection hgo₂ with hgo₂
    subst hgo₂
    have h3 := h3 freshMem
    rw [h1] at h3
    injection h3 with h3
    rw [h3]
    simp only [cc, List.map_cons, List.map_nil, List.sum_cons, List.sum_nil, add_zero, EReal.toReal_coe]
    norm_num
  rw [densityOf, h2]
  by_cases ha : y ∈ slab 0 1
  · have hb : y ∉ slab 2 4 := fun hb => hno ⟨ha, hb⟩
    rw [Set.indicator_of_mem ha, Set.indicator_of_notMem hb]
    simp only [if_pos (hmem.2 (Or.inl ha)), add_zero]
    rw [hw (i := cc 0 1) (by simp) (by
      rw [slab, Set.mem_ofPred_eq, ← cc_toSet] at ha
      simpa [VSet.toSet, VSet.Mem] using ha)]
    simp [cc]
  · by_cases hb : y ∈ slab 2 4
    · rw [Set.indicator_of_mem hb, Set.indicator_of_notMem ha]
      simp only [if_pos (hmem.2 (Or.inr hb)), zero_add]
      rw [hw (i := cc 2 4) (by simp) (by
        rw [slab, Set.mem_ofPred_eq, ← cc_toSet] at hb
        simpa [VSet.toSet, VSet.Mem] using hb)]
      simp only [cc, EReal.toReal_coe]
      norm_num
    · rw [Set.indicator_of_notMem ha, Set.indicator_of_notMem hb]
      simp only [if_neg fun h => (hmem.1 h).elim ha hb, add_zero]

/-- **C74 does not hold**: for `U[0,1]` and `U[2,4]`, whose L1 distance is two, the expected value with two samples is
`1 + 3/2 · (1 + e/2) / (1 + e)`, since `uniform_measure_of_event` is not uniform on `[0,1] ∪ [2,4]`. -/
theorem C74_full_false : ¬ C74_full := by
  intro hfull
  have h01 : (0 : ℝ) < 1 := by norm_num
  have h24 : (2 : ℝ) < 4 := by norm_num
  obtain ⟨u, hu, hlik, hdu⟩ := gap_density
  obtain ⟨Sp, hSp, hp⟩ := (flat_values h01).2
  obtain ⟨Sq, hSq, hq⟩ := (flat_values h24).2
  have hunion : ∀ x, Event.Mem [[((0 : Var), gap)]] x ↔ Sq.Mem x ∨ Sp.Mem x := by
    intro x
    rw [hp, hq, ← cc_toSet, ← cc_toSet, or_comm]
    simp [Event.Mem, SimpleEvent.Mem, VSet.toSet, VSet.Mem, gap]
  have key := hfull allContinuous (fun _ => realLine) {0} (flat 0 1) (flat 2 4) Sp Sq (fun _ _ => [[(0, gap)]]) (fun Es => Es.headD []) 2 u
    _ (flat_density_circuit h01) (flat_density_circuit h24) hSp hSq hunion (by simpa using gap_box) (List.pairwise_singleton _ _) gap_box
    (fun _ => rfl) (line_domain _) two_ne_zero hu
    (fun l hl => l1UniformOfCircuits_eq (flat_density_circuit h01) (flat_density_circuit h24) hSp hSq hu hlik hl)
  set a : ℝ := Real.exp 1 / (Real.exp 1 + Real.exp 2) with ha
  set b : ℝ := Real.exp 2 / (Real.exp 1 + Real.exp 2) / 2 with hb
  have ha0 : 0 < a := by positivity
  have hb0 : 0 < b := by positivity
  have hno : ∀ y, ¬ (y ∈ slab 0 1 ∧ y ∈ slab 2 4) := by
    rintro y ⟨h1, h2⟩
    linarith [h1.2, h2.1]
  have hpd := isDensity_circuit (flat_density_circuit h01)
  have hqd := isDensity_circuit (flat_density_circuit h24)
  have hab : a + 2 * b = 1 := by
    rw [ha, hb]
    have := Real.exp_pos 1
    have := Real.exp_pos 2
    field_simp
  have hud : IsDensity (baseOn allContinuous {0}) (densityOf {0} u) := by
    rw [hdu]
    refine ⟨(measurable_const.indicator (measurableSet_slab _ _)).add (measurable_const.indicator (measurableSet_slab _ _)),
      fun y => add_nonneg (Set.indicator_nonneg (fun _ _ => ha0.le) y) (Set.indicator_nonneg (fun _ _ => hb0.le) y), ?_⟩
    refine (ofReal_integral_eq_lintegral_ofReal ((slab_integral 0 1 a h01).1.add (slab_integral 2 4 b h24).1)
      (Filter.Eventually.of_forall fun y => add_nonneg (Set.indicator_nonneg (fun _ _ => ha0.le) y)
        (Set.indicator_nonneg (fun _ _ => hb0.le) y))).symm.trans ?_
    rw [integral_add' (slab_integral 0 1 a h01).1 (slab_integral 2 4 b h24).1, (slab_integral 0 1 a h01).2, (slab_integral 2 4 b h24).2]
    rw [show (1 - 0) * a + (4 - 2) * b = 1 by linarith, ENNReal.ofReal_one]
  have hsupp : {y | densityOf {0} u y ≠ 0} = slab 0 1 ∪ slab 2 4 := by
    ext y
    rw [Set.mem_ofPred_eq, hdu, Set.mem_union]
    by_cases h1 : y ∈ slab 0 1
    · have h2 : y ∉ slab 2 4 := fun h2 => hno y ⟨h1, h2⟩
      simp [h1, h2, ha0.ne']
    · by_cases h2 : y ∈ slab 2 4
      · simp [h1, h2, hb0.ne']
      · simp [h1, h2]
  have hsuppv : baseOn allContinuous {0} {y | densityOf {0} u y ≠ 0} = 3 := by
    rw [hsupp, measure_union (Set.disjoint_left.2 fun y h1 h2 => hno y ⟨h1, h2⟩) (measurableSet_slab _ _), slab_volume, slab_volume,
      ← ENNReal.ofReal_add (by norm_num) (by norm_num)]
    norm_num
  have hdist := apart_difference
  have hprod : ∀ y, densityOf {0} u y * |densityOf {0} (flat 0 1) y - densityOf {0} (flat 2 4) y| =
      (slab 0 1).indicator (fun _ => a) y + (slab 2 4).indicator (fun _ => b / 2) y := by
    intro y
    rw [hdist, hdu]
    by_cases h1 : y ∈ slab 0 1
    · have h2 : y ∉ slab 2 4 := fun h2 => hno y ⟨h1, h2⟩
      simp [h1, h2]
    · by_cases h2 : y ∈ slab 2 4
      · simp [h1, h2]
        ring
      · simp [h1, h2]
  have hzero : ∀ y, densityOf {0} u y = 0 → y ∉ slab 0 1 ∧ y ∉ slab 2 4 := by
    intro y hy
    have : y ∉ slab 0 1 ∪ slab 2 4 := by
      rw [← hsupp]
      exact fun h => h hy
    exact ⟨fun h => this (Or.inl h), fun h => this (Or.inr h)⟩
  have key := (C74_expected hpd hqd hud (fun y hy => by rw [flat_density h01, Set.indicator_of_notMem (hzero y hy).1])
    (fun y hy => by rw [flat_density h24, Set.indicator_of_notMem (hzero y hy).2]) (by rw [hsuppv]; simp)
    (by simp only [hprod]; exact (slab_integral 0 1 a h01).1.add (slab_integral 2 4 (b / 2) h24).1) two_ne_zero).symm.trans key
  rw [hsuppv] at key
  simp only [hprod] at key
  rw [integral_add (slab_integral 0 1 a h01).1 (slab_integral 2 4 (b / 2) h24).1, (slab_integral 0 1 a h01).2,
    (slab_integral 2 4 (b / 2) h24).2, apart_distance] at key
  have h3 : a + b = 2 / 3 := by
    norm_num at key
    linarith
  have h4 : a = 1 / 3 := by linarith
  rw [ha, div_eq_div_iff (by positivity) (by norm_num)] at h4
  have h5 : Real.exp 2 = Real.exp 1 * Real.exp 1 := by
    rw [← Real.exp_add]
    norm_num
  have h6 := Real.add_one_lt_exp (one_ne_zero (α := ℝ))
  rw [h5] at h4
  nlinarith

end PM.Props
