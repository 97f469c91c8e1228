import Verif.MonteCarlo.CircuitDensity

/-!
# C73, C74 for circuits
-/

namespace PM.Props

open Spec Graph MeasureTheory MonteCarlo
open scoped ENNReal

variable {ty : Var → VarType} {dom : Var → VSet} {s : Finset Var} {p q g : Circuit}

/-- What `l1_metric` computes, in terms of the densities. -/
theorem l1MetricOfCircuits_eq (hp : DensityCircuit ty dom s p) (hq : DensityCircuit ty dom s q) (t : ℝ) (l l' : List (s → ℝ)) :
    l1MetricOfCircuits p q t (l.map (assign s)) (l'.map (assign s)) = .ok (l1Metric (densityOf s p) (densityOf s q) t l l') := by
  have key : ∀ l : List (s → ℝ), higherFractionOf p q t (l.map (assign s)) = .ok (higherFraction (densityOf s p) (densityOf s q) t l) := by
    intro l
    unfold higherFractionOf higherFraction
    rw [likelihoods_eq hp, likelihoods_eq hq]
    simp only [bind, Except.bind, zipWith_map_same, List.length_map]
  unfold l1MetricOfCircuits l1Metric
  rw [key, key]
  rfl

/-- **C73 for circuits** without a tolerance: if the samples are independent draws from the two normalized circuits, the expected value of
`l1_metric` is the L1 distance of the circuits. -/
theorem C73_circuits_partial (hp : DensityCircuit ty dom s p) (hq : DensityCircuit ty dom s q) {n : ℕ} (hn : n ≠ 0) :
    ∃ est : List (s → ℝ) → List (s → ℝ) → ℝ, (∀ l l', l1MetricOfCircuits p q 0 (l.map (assign s)) (l'.map (assign s)) = .ok (est l l')) ∧
      expected (baseOn ty s) (densityOf s p) n (fun l => expected (baseOn ty s) (densityOf s q) n (fun l' => est l l')) =
        l1Distance (baseOn ty s) (densityOf s p) (densityOf s q) :=
  ⟨_, fun l l' => l1MetricOfCircuits_eq hp hq 0 l l', C73_unbiased_partial (isDensity_circuit hp) (isDensity_circuit hq) hn⟩

/-- With more and more independent samples, the estimate without a tolerance converges to the L1 distance of the circuits. -/
theorem C73_circuits_consistent {Ω : Type*} [MeasurableSpace Ω] {ρ : Measure Ω} (hp : DensityCircuit ty dom s p)
    (hq : DensityCircuit ty dom s q) {S T : ℕ → Ω → s → ℝ} (hS : Samples ρ (baseOn ty s) (densityOf s p) S)
    (hT : Samples ρ (baseOn ty s) (densityOf s q) T) :
    ∃ est : ℕ → Ω → ℝ, (∀ n ω, l1MetricOfCircuits p q 0 ((List.range n).map fun i => assign s (S i ω))
        ((List.range n).map fun i => assign s (T i ω)) = .ok (est n ω)) ∧
      ∀ᵐ ω ∂ρ, Filter.Tendsto (fun n => est n ω) Filter.atTop (nhds (l1Distance (baseOn ty s) (densityOf s p) (densityOf s q))) := by
  refine ⟨_, fun n ω => ?_, C73_consistent (isDensity_circuit hp) (isDensity_circuit hq) hS hT⟩
  rw [← l1MetricOfCircuits_eq hp hq, List.map_map, List.map_map]
  rfl

/-- What `l1_metric_but_with_uniform_measure` computes, in terms of the densities. -/
theorem l1UniformOfCircuits_eq (hp : DensityCircuit ty dom s p) (hq : DensityCircuit ty dom s q) {Sp Sq : Event}
    (hSp : (p.support freshMem).2 = .ok Sp) (hSq : (q.support freshMem).2 = .ok Sq)
    {union : Event → Event → Event} {box : Event → SimpleEvent} {u : Circuit} (hu : uniformOfEvent ty dom box (union Sq Sp) = .ok (some u))
    (hlik : ∀ x m, ∃ r, u.likelihood m x = .ok r) {l : List (s → ℝ)} (hl : l ≠ []) :
    l1UniformOfCircuits ty dom box union p q (l.map (assign s)) =
      .ok (match l1Uniform (densityOf s p) (densityOf s q) (densityOf s u) l with | .ok r => r | .error _ => 0) := by
  cases l with
  | nil => exact absurd rfl hl
  | cons y l =>
    have hux : u.likelihood freshMem (assign s y) = .ok (densityOf s u y) := by
      obtain ⟨r, hr⟩ := hlik (assign s y) freshMem
      rw [densityOf, hr]
    unfold l1UniformOfCircuits
    rw [hSp, hSq]
    simp only [bind, Except.bind, hu]
    rw [List.map_cons]
    unfold l1FromUniform
    simp only
    rw [← List.map_cons, likelihoods_eq hp, likelihoods_eq hq, hux]
    simp only [bind, Except.bind, zipWith_map_same, l1Uniform, List.length_map]

/-- **C74 for circuits**, as far as it holds: let `S` be the union of the supports of two normalized circuits, written as disjoint boxes inside
their bounding box in which the intervals of every continuous variable have the same length and are cut cleanly by the boxes.  Then
`l1_metric_but_with_uniform_measure` returns a number for all samples, and for `n` independent draws from the uniform model the expected value
of this number is the L1 distance of the circuits.  Missing: `uniform_measure_of_event` is not uniform for other events (`C50_full_false`). -/
theorem C74_circuits_partial (hp : DensityCircuit ty dom s p) (hq : DensityCircuit ty dom s q) {Sp Sq : Event}
    (hSp : (p.support freshMem).2 = .ok Sp) (hSq : (q.support freshMem).2 = .ok Sq)
    {union : Event → Event → Event} {box : Event → SimpleEvent} (hunion : ∀ x, (union Sq Sp).Mem x ↔ Sq.Mem x ∨ Sp.Mem x)
    (hB : BoundedBox ty s (box (union Sq Sp))) (heq : EqualLengths ty (box (union Sq Sp))) (hdom : TypedDomain ty dom (box (union Sq Sp)))
    (hne : union Sq Sp ≠ []) (hE : ∀ E ∈ union Sq Sp, BoundedBox ty s E) (hdis : DisjointFamily (union Sq Sp))
    (hsub : ∀ E ∈ union Sq Sp, ∀ x, E.Mem x → (box (union Sq Sp)).Mem x) (hfit : ∀ E ∈ union Sq Sp, CutsCleanly ty (box (union Sq Sp)) E)
    {n : ℕ} (hn : n ≠ 0) :
    ∃ u, uniformOfEvent ty dom box (union Sq Sp) = .ok (some u) ∧ IsDensity (baseOn ty s) (densityOf s u) ∧
      ∃ est : List (s → ℝ) → ℝ, (∀ l, l ≠ [] → l1UniformOfCircuits ty dom box union p q (l.map (assign s)) = .ok (est l)) ∧
        expected (baseOn ty s) (densityOf s u) n est = l1Distance (baseOn ty s) (densityOf s p) (densityOf s q) := by
  obtain ⟨hV0, hV1, u, hu, hlik⟩ := C50_union_density_partial hB heq hdom hne hE hdis hsub hfit
  have hV := ENNReal.toReal_pos hV0.ne' hV1.ne
  have hdu : ∀ y, densityOf s u y = Set.indicator {y | ∃ E ∈ union Sq Sp, SimpleEvent.Mem E (assign s y)}
      (fun _ => 1 / (eventVolume ty s (union Sq Sp)).toReal) y := by
    intro y
    rw [densityOf, hlik]
    by_cases h : ∃ E ∈ union Sq Sp, SimpleEvent.Mem E (assign s y)
    · rw [Set.indicator_of_mem (show y ∈ {y | ∃ E ∈ union Sq Sp, SimpleEvent.Mem E (assign s y)} from h)]
      simp only [if_pos h]
    · rw [Set.indicator_of_notMem (show y ∉ {y | ∃ E ∈ union Sq Sp, SimpleEvent.Mem E (assign s y)} from h)]
      simp only [if_neg h]
  have hms : MeasurableSet {y : s → ℝ | ∃ E ∈ union Sq Sp, SimpleEvent.Mem E (assign s y)} :=
    measurable_assign s (measurableSet_event (union Sq Sp))
  have hvol := baseOn_event (ty := ty) (s := s) (union Sq Sp)
  have hdens : IsDensity (baseOn ty s) (densityOf s u) := by
    have hfun : densityOf s u = _ := funext hdu
    rw [hfun]
    refine ⟨measurable_const.indicator hms, fun y => Set.indicator_nonneg (fun _ _ => by positivity) y, ?_⟩
    have : ∀ y, ENNReal.ofReal (Set.indicator {y | ∃ E ∈ union Sq Sp, SimpleEvent.Mem E (assign s y)}
        (fun _ => 1 / (eventVolume ty s (union Sq Sp)).toReal) y) =
        Set.indicator {y | ∃ E ∈ union Sq Sp, SimpleEvent.Mem E (assign s y)}
          (fun _ => ENNReal.ofReal (1 / (eventVolume ty s (union Sq Sp)).toReal)) y := by
      intro y
      by_cases h : y ∈ {y | ∃ E ∈ union Sq Sp, SimpleEvent.Mem E (assign s y)}
      · rw [Set.indicator_of_mem h, Set.indicator_of_mem h]
      · rw [Set.indicator_of_notMem h, Set.indicator_of_notMem h, ENNReal.ofReal_zero]
    simp only [this]
    rw [lintegral_indicator hms, setLIntegral_const, hvol, one_div, ENNReal.ofReal_inv_of_pos hV, ENNReal.ofReal_toReal hV1.ne,
      ENNReal.inv_mul_cancel hV0.ne' hV1.ne]
  refine ⟨u, hu, hdens, fun l => match l1Uniform (densityOf s p) (densityOf s q) (densityOf s u) l with | .ok r => r | .error _ => 0, ?_, ?_⟩
  · exact fun l hl => l1UniformOfCircuits_eq hp hq hSp hSq hu (fun x m => ⟨_, hlik x m⟩) hl
  · refine (C74_uniform_partial (c := 1 / (eventVolume ty s (union Sq Sp)).toReal) (by positivity) (isDensity_circuit hp)
      (isDensity_circuit hq) hdens (S := {y : s → ℝ | ∃ E ∈ union Sq Sp, SimpleEvent.Mem E (assign s y)}) ?_ ?_ ?_ ?_ hn).2
    · intro y hy
      rw [hdu, Set.indicator_of_mem hy]
    · intro y hy
      rw [hdu, Set.indicator_of_notMem hy]
    · intro y hy
      exact densityOf_support hp hSp fun h => hy ((hunion _).2 (Or.inr h))
    · intro y hy
      exact densityOf_support hq hSq fun h => hy ((hunion _).2 (Or.inl h))

/-! ### Concrete cases -/

/-- `C73_circuits_partial` applies to `½ U[0,1] + ½ U[0,4]` and `U[0,4]`. -/
example : ∃ est : List (({0} : Finset Var) → ℝ) → List (({0} : Finset Var) → ℝ) → ℝ,
    (∀ l l', l1MetricOfCircuits mix (flat 0 4) 0 (l.map (assign {0})) (l'.map (assign {0})) = .ok (est l l')) ∧
      expected (baseOn allContinuous {0}) (densityOf {0} mix) 100 (fun l => expected (baseOn allContinuous {0}) (densityOf {0} (flat 0 4)) 100
        (fun l' => est l l')) = l1Distance (baseOn allContinuous {0}) (densityOf {0} mix) (densityOf {0} (flat 0 4)) :=
  C73_circuits_partial mix_density_circuit (flat_density_circuit (by norm_num)) (by norm_num)

theorem toFour_density {x hi : ℝ} (h : hi ≤ 4) (hx : leafDensity (.uniform 0 0 hi .closed .closed) x ≠ 0) : x ∈ Set.Icc (0 : ℝ) 4 := by
  simp only [leafDensity] at hx
  split at hx
  · rename_i hm
    have : x ∈ (VSet.interval [cc 0 hi]).toSet := by
      rw [single_toSet]
      exact hm
    rw [cc_toSet] at this
    exact ⟨this.1, this.2.trans h⟩
  · exact absurd rfl hx

/-- `C74_circuits_partial` applies to them: the union of the supports is `[0, 4]`. -/
example : ∃ u, uniformOfEvent allContinuous (fun _ => realLine) (fun Es => Es.headD []) [[(0, .interval [cc 0 4])]] = .ok (some u) ∧
    ∃ est : List (({0} : Finset Var) → ℝ) → ℝ, (∀ l, l ≠ [] → l1UniformOfCircuits allContinuous (fun _ => realLine) (fun Es => Es.headD [])
        (fun _ _ => [[(0, .interval [cc 0 4])]]) mix (flat 0 4) (l.map (assign {0})) = .ok (est l)) ∧
      expected (baseOn allContinuous {0}) (densityOf {0} u) 100 est =
        l1Distance (baseOn allContinuous {0}) (densityOf {0} mix) (densityOf {0} (flat 0 4)) := by
  obtain ⟨Sp, hSp, hp1, hp2⟩ := C13_support mix_layered mix_scoped mix_density_circuit.products mix_density_circuit.typed mix_valid freshMem
  obtain ⟨Sq, hSq, hq⟩ := (flat_values (show (0 : ℝ) < 4 by norm_num)).2
  have hbox : BoundedBox allContinuous {0} [(0, .interval [cc 0 4])] := by
    refine ⟨by simp [SimpleEvent.keys], by simp [SimpleEvent.keys], ?_⟩
    simp only [List.mem_singleton, forall_eq]
    refine ⟨by simp, cc_disjoint (by norm_num), ?_⟩
    simp only [List.mem_singleton, forall_eq]
    exact ⟨0, 4, rfl, rfl, by norm_num⟩
  have hmem : ∀ x : Var → ℝ, SimpleEvent.Mem [(0, .interval [cc 0 4])] x ↔ x 0 ∈ Set.Icc (0 : ℝ) 4 := by
    intro x
    rw [← cc_toSet]
    simp [SimpleEvent.Mem, VSet.toSet]
  have hunion : ∀ x, Event.Mem [[(0, .interval [cc 0 4])]] x ↔ Sq.Mem x ∨ Sp.Mem x := by
    intro x
    have h0 : Event.Mem [[(0, .interval [cc 0 4])]] x ↔ x 0 ∈ Set.Icc (0 : ℝ) 4 := by
      rw [← hmem]
      simp [Event.Mem]
    rw [h0]
    obtain ⟨f', hf'⟩ := exists_circuitValue mix_layered.graded.acyclic fun d : Leaf => leafDensity d (x d.var)
    constructor
    · intro hx
      exact Or.inl ((hq x).2 hx)
    · rintro (h | h)
      · exact (hq x).1 h
      · have := hp2 (Ex.positive_of (by simp [mix, outEdges, Ex.lw])) x f' hf' h
        have h1 : f' 1 = leafDensity (.uniform 0 0 1 .closed .closed) (x 0) := hf'.leaf 1 _ rfl
        have h2 : f' 2 = leafDensity (.uniform 0 0 4 .closed .closed) (x 0) := hf'.leaf 2 _ rfl
        rw [hf'.sum 0 rfl, show mix.outEdges 0 = [⟨0, 1, Ex.lw (1 / 2)⟩, ⟨0, 2, Ex.lw (1 / 2)⟩] from rfl] at this
        by_contra hx
        have e1 : f' 1 = 0 := by
          rw [h1]
          by_contra hne
          exact hx (toFour_density (by norm_num) hne)
        have e2 : f' 2 = 0 := by
          rw [h2]
          by_contra hne
          exact hx (toFour_density le_rfl hne)
        simp [e1, e2] at this
  have heq : EqualLengths allContinuous [(0, .interval [cc 0 4])] := by
    intro p hp _ I hI i hi j hj
    rw [List.mem_singleton.1 hp] at hI
    injection hI with hI
    subst hI
    rw [List.mem_singleton.1 hi, List.mem_singleton.1 hj]
  obtain ⟨u, h1, _, h2⟩ := C74_circuits_partial (n := 100) mix_density_circuit (flat_density_circuit (by norm_num)) hSp hSq (box := fun Es => Es.headD [])
    (union := fun _ _ => [[(0, .interval [cc 0 4])]]) hunion hbox heq (line_domain _) (by simp) (by simpa using hbox)
    (List.pairwise_singleton _ _) (by simp) (by simpa using cutsCleanly_self hbox) (by norm_num)
  exact ⟨u, h1, h2⟩

end PM.Props
