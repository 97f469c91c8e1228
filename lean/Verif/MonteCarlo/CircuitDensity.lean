import Verif.Spec.MonteCarloCircuit
import Verif.Props.MonteCarlo
import Verif.Props.Support
import Verif.Props.UniformDensity

/-!
# The densities of circuits
-/

namespace PM.Props

open Spec Graph MeasureTheory MonteCarlo
open scoped ENNReal

variable {ty : Var → VarType} {dom : Var → VSet} {s : Finset Var} {p q g : Circuit}

theorem integralOver_eq {ψ : (Var → ℝ) → ℝ≥0∞} :
    integralOver (baseMeasure fun v => ty v == .continuous) s ψ = ∫⁻ y, ψ (assign s y) ∂baseOn ty s := rfl

theorem measurable_assign (s : Finset Var) : Measurable (assign s) := measurable_updateFinset

theorem densityOf_spec (h : DensityCircuit ty dom s g) (y : s → ℝ) : g.likelihood freshMem (assign s y) = .ok (densityOf s g y) := by
  obtain ⟨r, sc, hL, hs, hdec, hr⟩ := h.shape
  obtain ⟨f, hf⟩ := exists_circuitValue hL.graded.acyclic fun d : Leaf => leafDensity d (assign s y d.var)
  obtain ⟨_, _, _, _, h1⟩ := C01_loglikelihood hL hs h.valid _ hf freshMem
  rw [densityOf, h1]

/-- The likelihood of a normalized circuit is a probability density. -/
theorem isDensity_circuit (h : DensityCircuit ty dom s g) : IsDensity (baseOn ty s) (densityOf s g) := by
  obtain ⟨r, sc, hL, hs, hdec, hr⟩ := h.shape
  choose f hf using fun x : Var → ℝ => exists_circuitValue hL.graded.acyclic fun d : Leaf => leafDensity d (x d.var)
  have hri := (root_mem hL.root).1
  have hlik : ∀ x, g.likelihood freshMem x = .ok (f x r) := fun x => by
    obtain ⟨_, _, _, _, h1⟩ := C01_loglikelihood hL hs h.valid x (hf x) freshMem
    exact h1
  have hd : densityOf s g = fun y => f (assign s y) r := by
    funext y
    rw [densityOf, hlik]
  have hnn : ∀ x, 0 ≤ f x r := fun x =>
    circuitValue_nonneg hL.wf hL.graded.acyclic (hf x) (fun n d hk => leafDensity_nonneg (h.valid n d hk) _) r hri
  have hF : ∀ x, ECircuitValue g (fun d => ENNReal.ofReal (leafDensity d (x d.var))) (fun n => ENNReal.ofReal (f x n)) :=
    fun x => ecv_ofReal hL.wf hL.graded.acyclic (hf x) (fun n d hk => leafDensity_nonneg (h.valid n d hk) _)
  have hm := ecv_measurable hL.wf hL.graded.acyclic (ψ := fun d t => ENNReal.ofReal (leafDensity d t))
    (fun d => (measurable_leafDensity d).ennreal_ofReal) hF r hri
  have hm' : Measurable fun x => f x r := by
    have : (fun x => f x r) = fun x => (ENNReal.ofReal (f x r)).toReal := by
      funext x
      rw [ENNReal.toReal_ofReal (hnn x)]
    rw [this]
    exact hm.ennreal_toReal
  refine ⟨?_, ?_, ?_⟩
  · rw [hd]
    exact hm'.comp (measurable_assign s)
  · rw [hd]
    exact fun y => hnn _
  · rw [hd]
    have h0E : EventFor g (sc r) ([] : SimpleEvent) := ⟨by simp [SimpleEvent.keys], by simp [SimpleEvent.keys], by simp, by simp⟩
    obtain ⟨a, ha0, ha, hai⟩ := C04_probability_is_integral hL hs hdec h.valid h.base h.domain (Es := [[]]) (by simpa using h0E)
      (List.pairwise_singleton _ _) hlik freshMem
    have h1 : CircuitValue g (fun d => (leafLaw d).real (allowed [] d.var)) (fun _ => 1) := by
      refine one_circuitValue h.sums fun n d hk => ?_
      rw [allowed_of_not_mem (by simp [SimpleEvent.keys]), measureReal_def, leafLaw_univ (h.valid n d hk) (h.leaves n d hk)]
      rfl
    rw [probability_eq hL hs h.valid h.domain (Es := [[]]) (by simpa using h0E) (p := fun _ _ => 1) (by simpa using h1) freshMem] at ha
    injection ha with ha
    rw [← integralOver_eq (ψ := fun x => ENNReal.ofReal (f x r)), ← hr]
    have hmem : ∀ x, ∃ E ∈ [([] : SimpleEvent)], SimpleEvent.Mem E x := fun x => ⟨[], by simp, fun q hq => absurd hq (by simp)⟩
    simp only [if_pos (hmem _)] at hai
    rw [← hai, ← ha]
    simp

theorem likelihoods_eq (h : DensityCircuit ty dom s g) (l : List (s → ℝ)) :
    likelihoods g (l.map (assign s)) = .ok (l.map (densityOf s g)) := by
  unfold likelihoods
  induction l with
  | nil => rfl
  | cons y l ih =>
    rw [List.map_cons, List.mapM_cons, densityOf_spec h, ih]
    rfl

theorem zipWith_map_same {α β : Type*} (f : ℝ → ℝ → β) (a b : α → ℝ) (l : List α) :
    List.zipWith f (l.map a) (l.map b) = l.map fun x => f (a x) (b x) := by
  induction l with
  | nil => rfl
  | cons x l ih => simp [ih]

/-- The support of a normalized circuit contains every point with a positive density. -/
theorem densityOf_support (h : DensityCircuit ty dom s g) {S : Event} (hS : (g.support freshMem).2 = .ok S) {y : s → ℝ}
    (hy : ¬ S.Mem (assign s y)) : densityOf s g y = 0 := by
  obtain ⟨r, sc, hL, hs, hdec, hr⟩ := h.shape
  obtain ⟨S', h1, h2, _⟩ := C13_support hL hs h.products h.typed h.valid freshMem
  rw [hS] at h1
  injection h1 with h1
  subst h1
  obtain ⟨f, hf⟩ := exists_circuitValue hL.graded.acyclic fun d : Leaf => leafDensity d (assign s y d.var)
  obtain ⟨_, _, _, _, h3⟩ := C01_loglikelihood hL hs h.valid _ hf freshMem
  have hnn := circuitValue_nonneg hL.wf hL.graded.acyclic hf (fun n d hk => leafDensity_nonneg (h.valid n d hk) _) r (root_mem hL.root).1
  rw [densityOf, h3]
  by_contra hne
  exact hy (h2 _ f hf (lt_of_le_of_ne hnn (Ne.symm hne)))

theorem measurableSet_simple (E : SimpleEvent) : MeasurableSet {x | E.Mem x} := by
  classical
  have : {x | E.Mem x} = ⋂ q ∈ E.toFinset, (fun x : Var → ℝ => x q.1) ⁻¹' q.2.toSet := by
    ext x
    simp [SimpleEvent.Mem, VSet.toSet]
  rw [this]
  exact Finset.measurableSet_biInter _ fun q _ => measurable_pi_apply _ (VSet.measurableSet_toSet q.2)

theorem measurableSet_event (Es : Event) : MeasurableSet {x | ∃ E ∈ Es, SimpleEvent.Mem E x} := by
  classical
  have : {x | ∃ E ∈ Es, SimpleEvent.Mem E x} = ⋃ E ∈ Es.toFinset, {x | SimpleEvent.Mem E x} := by
    ext x
    simp
  rw [this]
  exact Finset.measurableSet_biUnion _ fun E _ => measurableSet_simple E

theorem baseOn_event (Es : Event) :
    baseOn ty s {y : s → ℝ | ∃ E ∈ Es, SimpleEvent.Mem E (assign s y)} = eventVolume ty s Es := by
  have hms : MeasurableSet {y : s → ℝ | ∃ E ∈ Es, SimpleEvent.Mem E (assign s y)} := measurable_assign s (measurableSet_event Es)
  rw [eventVolume, integralOver_eq, ← lintegral_indicator_one hms]
  refine lintegral_congr fun y => ?_
  by_cases h : ∃ E ∈ Es, SimpleEvent.Mem E (assign s y)
  · rw [Set.indicator_of_mem (show y ∈ {y | ∃ E ∈ Es, SimpleEvent.Mem E (assign s y)} from h), if_pos h]
    rfl
  · rw [Set.indicator_of_notMem (show y ∉ {y | ∃ E ∈ Es, SimpleEvent.Mem E (assign s y)} from h), if_neg h]

theorem mix_density_circuit : DensityCircuit allContinuous (fun _ => realLine) {0} mix where
  shape := ⟨0, fun _ => {0}, mix_layered, mix_scoped, mix_decomposable, rfl⟩
  valid := mix_valid
  leaves := mix_leaf trivial trivial
  sums := mix_normalized
  products := fun n hk => absurd rfl (Ex.forall_kind (P := fun _ k => k = .prod → (0 : ℕ) ≠ 0) (by simp [mix]) n _ hk rfl)
  base := mix_leaf rfl rfl
  typed := mix_leaf (Q := fun d => (allContinuous d.var == .symbolic) = true ↔ ∃ v probs, d = .symbolic v probs) (by simp [allContinuous])
    (by simp [allContinuous])
  domain := mix_domain

/-- `U[a,b]` as a circuit. -/
noncomputable def flat (a b : ℝ) : Circuit := newUnit 0 (.leaf (.uniform 0 a b .closed .closed))

theorem flat_leaf {a b : ℝ} {Q : Leaf → Prop} (h1 : Q (.uniform 0 a b .closed .closed)) :
    ∀ n d, (flat a b).kind? n = some (.leaf d) → Q d := fun n d h =>
  Ex.forall_kind (P := fun _ k => ∀ d, k = .leaf d → Q d) (by simpa [flat, newUnit] using h1) n _ h d rfl

theorem flat_scoped (a b : ℝ) : Scoped (flat a b) (fun _ => {0}) :=
  Ex.scoped_of (by simp [flat, newUnit, Leaf.var]) (by simp [flat, newUnit]) (by simp [flat, newUnit])

theorem flat_density_circuit {a b : ℝ} (h : a < b) : DensityCircuit allContinuous (fun _ => realLine) {0} (flat a b) where
  shape := ⟨0, fun _ => {0}, layered_newUnit 0 _, flat_scoped a b, Ex.decomposable_of (by simp [flat, newUnit]), rfl⟩
  valid := flat_leaf (by simpa [Leaf.Valid] using h)
  leaves := flat_leaf trivial
  sums := Ex.normalized_of (by simp [flat, newUnit])
  products := fun n hk => absurd rfl (Ex.forall_kind (P := fun _ k => k = .prod → (0 : ℕ) ≠ 0) (by simp [flat, newUnit]) n _ hk rfl)
  base := flat_leaf rfl
  typed := flat_leaf (Q := fun d => (allContinuous d.var == .symbolic) = true ↔ ∃ v probs, d = .symbolic v probs) (by simp [allContinuous])
  domain := ⟨fun _ => realLine_disjoint, flat_leaf (by simp [Fits, realLine]), fun _ _ _ => by simp [realLine_toSet]⟩

/-- The likelihood and the support of `U[a,b]`. -/
theorem flat_values {a b : ℝ} (h : a < b) : (∀ x m, (flat a b).likelihood m x = .ok (if x 0 ∈ Set.Icc a b then 1 / (b - a) else 0)) ∧
    ∃ S, ((flat a b).support freshMem).2 = .ok S ∧ ∀ x, S.Mem x ↔ x 0 ∈ Set.Icc a b := by
  have hd := flat_density_circuit h
  have hL : Layered (flat a b) 0 := layered_newUnit 0 _
  obtain ⟨S, hS, h1, h2⟩ := C13_support hL (flat_scoped a b) hd.products hd.typed hd.valid freshMem
  have hmem : ∀ t : ℝ, (SimpleInterval.mk (a : EReal) (b : EReal) .closed .closed).Mem t ↔ t ∈ Set.Icc a b := by
    intro t
    have : t ∈ (VSet.interval [cc a b]).toSet ↔ t ∈ Set.Icc a b := by rw [cc_toSet]
    rwa [single_toSet] at this
  have hleaf : ∀ t : ℝ, leafDensity (.uniform 0 a b .closed .closed) t = if t ∈ Set.Icc a b then 1 / (b - a) else 0 := by
    intro t
    simp only [leafDensity]
    by_cases ht : t ∈ Set.Icc a b
    · rw [if_pos ((hmem t).2 ht), if_pos ht]
    · rw [if_neg fun hm => ht ((hmem t).1 hm), if_neg ht]
  have hval : ∀ x : Var → ℝ, ∃ f, CircuitValue (flat a b) (fun d => leafDensity d (x d.var)) f ∧
      f 0 = if x 0 ∈ Set.Icc a b then 1 / (b - a) else 0 := by
    intro x
    obtain ⟨f, hf⟩ := exists_circuitValue hL.graded.acyclic fun d : Leaf => leafDensity d (x d.var)
    exact ⟨f, hf, (hf.leaf 0 _ rfl).trans (hleaf _)⟩
  refine ⟨fun x m => ?_, S, hS, fun x => ?_⟩
  · obtain ⟨f, hf, hf0⟩ := hval x
    obtain ⟨_, _, _, _, h3⟩ := C01_loglikelihood hL (flat_scoped a b) hd.valid x hf m
    rw [h3, hf0]
  · obtain ⟨f, hf, hf0⟩ := hval x
    constructor
    · intro hx
      have := h2 (Ex.positive_of (by simp [flat, newUnit])) x f hf hx
      by_contra hn
      rw [hf0, if_neg hn] at this
      exact lt_irrefl _ this
    · intro hx
      refine h1 x f hf ?_
      rw [hf0, if_pos hx]
      exact one_div_pos.2 (by linarith)

/-- The points of `{0} → ℝ` with the value in `[a, b]`. -/
def slab (a b : ℝ) : Set (({0} : Finset Var) → ℝ) := {y | assign {0} y 0 ∈ Set.Icc a b}

theorem measurableSet_slab (a b : ℝ) : MeasurableSet (slab a b) :=
  (measurable_pi_apply (0 : Var)).comp (measurable_assign {0}) measurableSet_Icc

theorem slab_volume (a b : ℝ) : baseOn allContinuous {0} (slab a b) = ENNReal.ofReal (b - a) := by
  have := baseOn_event (ty := allContinuous) (s := {0}) [[(0, .interval [cc a b])]]
  rw [volume_line, cc_toSet, Real.volume_Icc] at this
  rw [← this]
  congr 1
  ext y
  rw [slab, Set.mem_ofPred_eq, ← cc_toSet]
  simp [SimpleEvent.Mem, VSet.toSet]

theorem flat_density {a b : ℝ} (h : a < b) : densityOf {0} (flat a b) = (slab a b).indicator fun _ => 1 / (b - a) := by
  funext y
  rw [densityOf, (flat_values h).1]
  by_cases hy : y ∈ slab a b
  · rw [Set.indicator_of_mem hy]
    simp only [if_pos (show assign {0} y 0 ∈ Set.Icc a b from hy)]
  · rw [Set.indicator_of_notMem hy]
    simp only [if_neg (show ¬ assign {0} y 0 ∈ Set.Icc a b from hy)]

theorem slab_integral (a b c : ℝ) (h : a < b) : Integrable ((slab a b).indicator fun _ => c) (baseOn allContinuous {0}) ∧
    ∫ y, (slab a b).indicator (fun _ => c) y ∂baseOn allContinuous {0} = (b - a) * c := by
  constructor
  · rw [integrable_indicator_iff (measurableSet_slab a b)]
    exact integrableOn_const (by rw [slab_volume]; exact ENNReal.ofReal_ne_top)
  · rw [integral_indicator (measurableSet_slab a b), setIntegral_const, measureReal_def, slab_volume,
      ENNReal.toReal_ofReal (by linarith), smul_eq_mul]

theorem slab_apart (y : ({0} : Finset Var) → ℝ) : ¬ (y ∈ slab 0 1 ∧ y ∈ slab 2 4) := by
  rintro ⟨h1, h2⟩
  linarith [h1.2, h2.1]

theorem apart_difference (y : ({0} : Finset Var) → ℝ) : |densityOf {0} (flat 0 1) y - densityOf {0} (flat 2 4) y| =
    (slab 0 1).indicator (fun _ => 1) y + (slab 2 4).indicator (fun _ => 1 / 2) y := by
  rw [flat_density (show (0 : ℝ) < 1 by norm_num), flat_density (show (2 : ℝ) < 4 by norm_num)]
  by_cases h1 : y ∈ slab 0 1
  · have h2 : y ∉ slab 2 4 := fun h2 => slab_apart y ⟨h1, h2⟩
    simp [h1, h2]
  · by_cases h2 : y ∈ slab 2 4
    · simp only [h1, h2, not_false_eq_true, Set.indicator_of_mem, Set.indicator_of_notMem]
      rw [show (0 : ℝ) - 1 / (4 - 2) = -(1 / 2) by norm_num, abs_neg, abs_of_pos (by norm_num)]
      norm_num
    · simp [h1, h2]

/-- The L1 distance of `U[0,1]` and `U[2,4]` is two. -/
theorem apart_distance : l1Distance (baseOn allContinuous {0}) (densityOf {0} (flat 0 1)) (densityOf {0} (flat 2 4)) = 2 := by
  unfold l1Distance
  simp only [apart_difference]
  rw [integral_add (slab_integral 0 1 1 (by norm_num)).1 (slab_integral 2 4 (1 / 2) (by norm_num)).1,
    (slab_integral 0 1 1 (by norm_num)).2, (slab_integral 2 4 (1 / 2) (by norm_num)).2]
  norm_num

theorem nested_difference (y : ({0} : Finset Var) → ℝ) : |densityOf {0} (flat 0 1) y - densityOf {0} (flat 0 4) y| =
    (slab 0 1).indicator (fun _ => 1 / 2) y + (slab 0 4).indicator (fun _ => 1 / 4) y := by
  rw [flat_density (show (0 : ℝ) < 1 by norm_num), flat_density (show (0 : ℝ) < 4 by norm_num)]
  by_cases h1 : y ∈ slab 0 1
  · have h2 : y ∈ slab 0 4 := ⟨h1.1, h1.2.trans (by norm_num)⟩
    simp only [h1, h2, Set.indicator_of_mem]
    rw [abs_of_pos (by norm_num)]
    norm_num
  · by_cases h2 : y ∈ slab 0 4
    · simp only [h1, h2, not_false_eq_true, Set.indicator_of_mem, Set.indicator_of_notMem]
      rw [show (0 : ℝ) - 1 / (4 - 0) = -(1 / 4) by norm_num, abs_neg, abs_of_pos (by norm_num)]
      norm_num
    · simp [h1, h2]

/-- The L1 distance of `U[0,1]` and `U[0,4]` is three halves. -/
theorem nested_distance : l1Distance (baseOn allContinuous {0}) (densityOf {0} (flat 0 1)) (densityOf {0} (flat 0 4)) = 3 / 2 := by
  unfold l1Distance
  simp only [nested_difference]
  rw [integral_add (slab_integral 0 1 (1 / 2) (by norm_num)).1 (slab_integral 0 4 (1 / 4) (by norm_num)).1,
    (slab_integral 0 1 (1 / 2) (by norm_num)).2, (slab_integral 0 4 (1 / 4) (by norm_num)).2]
  norm_num

end PM.Props
