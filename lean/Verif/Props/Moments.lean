import Verif.Circuit.MomentLemmas
import Verif.Props.Probability

/-!
# C16, C17, C29, C37, C52: moments, expectations and variances
-/

namespace PM.Props

open Spec Graph MeasureTheory Classical ProbabilityTheory
open scoped ENNReal

variable {g : Circuit} {r : Node} {sc : Node → Finset Var}

/-! ### Leaves -/

/-- **C29.** `UniformDistribution.moment` is the integral of `(x - c)^k / (hi - lo)` over the interval, for every order
and center. -/
theorem C29_uniform_moment (v : Var) {lo hi : ℝ} (h : lo < hi) (l r : Bound) (k : ℕ) (c : ℝ) :
    (Leaf.uniform v lo hi l r).moment k c = .ok (∫ x in lo..hi, (x - c) ^ k / (hi - lo)) := by
  rw [← uniformMoment_eq h]
  rfl

example : (Leaf.uniform 0 0 1 .closed .closed).moment 2 0 = .ok (1 / 3) := by
  rw [C29_uniform_moment 0 (by norm_num)]
  simp
  norm_num

/-- **C37.** `GaussianDistribution.moment` is the expectation of `(X - c)^k` for `X ~ N(μ, σ²)`, for every order and
center. -/
theorem C37_gaussian_moment (v : Var) (μ : ℝ) {σ : ℝ} (hσ : 0 < σ) (k : ℕ) (c : ℝ) :
    Integrable (fun x : ℝ => (x - c) ^ k) (gaussianReal μ (Real.toNNReal (σ ^ 2))) ∧
    (Leaf.gaussian v μ σ).moment k c = .ok (∫ x, (x - c) ^ k ∂gaussianReal μ (Real.toNNReal (σ ^ 2))) := by
  refine ⟨integrable_sub_pow_gauss _ _ _ _, ?_⟩
  rw [← gaussMoment_eq μ hσ]
  rfl

example : (Leaf.gaussian 0 1 2).moment 2 1 = .ok 4 := by
  simp [Leaf.moment, Leaf.gaussMoment, Leaf.rawMoment, List.range_succ]
  norm_num

/-- **C52.** `TruncatedGaussianDistribution.moment` is the expectation of `(X - c)^k` given that `X ~ N(μ, σ²)` lies in
the interval, for every order, center and interval (with finite or infinite borders). -/
theorem C52_truncated_moment (v : Var) (I : SimpleInterval) (hI : I.lower < I.upper) (μ : ℝ) {σ : ℝ} (hσ : 0 < σ)
    (k : ℕ) (c : ℝ) :
    0 < (gaussianReal μ (Real.toNNReal (σ ^ 2))).real I.toSet ∧
    (Leaf.truncGaussian v I μ σ).moment k c
      = .ok ((∫ x in I.toSet, (x - c) ^ k ∂gaussianReal μ (Real.toNNReal (σ ^ 2)))
          / (gaussianReal μ (Real.toNNReal (σ ^ 2))).real I.toSet) := by
  refine ⟨gauss_toSet_pos hI μ hσ, ?_⟩
  rw [← truncMoment_eq hI μ hσ]
  rfl

example : (SimpleInterval.mk ⊥ (1 : ℝ) .opn .closed).lower < (SimpleInterval.mk ⊥ (1 : ℝ) .opn .closed).upper :=
  EReal.bot_lt_coe 1

/-! ### C16 -/

theorem lintegral_leaf {cont : Var → Bool} {d : Leaf} (hv : d.Valid) (hb : HasBase cont d) {q : ℝ → ℝ}
    (hq : Measurable q) :
    ∫⁻ t, ENNReal.ofReal (leafDensity d t) * ENNReal.ofReal (q t) ∂baseMeasure cont d.var
      = ∫⁻ t, ENNReal.ofReal (q t) ∂leafLaw d := by
  rw [leafLaw_base hv hb, lintegral_withDensity_eq_lintegral_mul _ (measurable_leafDensity d).ennreal_ofReal
    hq.ennreal_ofReal]
  rfl

theorem momentMap_eq {d : Leaf} (hsym : ∀ v p, d ≠ .symbolic v p) {order : Var → Option ℕ} {center : Var → Option ℝ}
    {k : ℕ} {c : ℝ} (hk : order d.var = some k) (hc : center d.var = some c) :
    d.momentMap order center = d.moment k c := by
  cases d with
  | symbolic v p => exact absurd rfl (hsym v p)
  | _ => simp only [Leaf.momentMap, hk, hc]

/-- **C16.** On every layered, smooth, decomposable, normalized circuit with uniform, Gaussian, truncated Gaussian and
integer leaves, `moment(order, center)` returns a map with exactly the variables of the circuit as keys, in which the
entry of `v` is the integral of `(x_v - center_v) ^ order_v` against the density that `likelihood` returns; the integral
exists.  Any orders and centers; any state `m` left by earlier queries. -/
theorem C16_moment (hL : Layered g r) (hs : Scoped g sc) (hdec : Decomposable g sc) (hsn : NormalizedSums g)
    (hv : ∀ n d, g.kind? n = some (.leaf d) → d.Valid) (hln : ∀ n d, g.kind? n = some (.leaf d) → d.Normalized)
    {cont : Var → Bool} (hb : ∀ n d, g.kind? n = some (.leaf d) → HasBase cont d)
    (hnum : ∀ n d, g.kind? n = some (.leaf d) → ∀ v p, d ≠ .symbolic v p)
    {order : Var → Option ℕ} {center : Var → Option ℝ} {k : Var → ℕ} {c : Var → ℝ}
    (hord : ∀ v ∈ sc r, order v = some (k v)) (hcen : ∀ v ∈ sc r, center v = some (c v))
    {lik : (Var → ℝ) → ℝ} (hlik : ∀ x, g.likelihood freshMem x = .ok (lik x)) (m : Mem (Var → ℝ)) :
    ∃ res, (g.moment m order center).2 = .ok res ∧ (∀ v, v ∉ sc r → res v = none) ∧
      ∀ v ∈ sc r, HasExpectOver (baseMeasure cont) (sc r) (fun x => lik x * (x v - c v) ^ k v) ∧
        res v = some (expectOver (baseMeasure cont) (sc r) fun x => lik x * (x v - c v) ^ k v) := by
  have hac := hL.graded.acyclic
  have hri := (root_mem hL.root).1
  choose f hf using fun x : Var → ℝ => exists_circuitValue hac (fun d : Leaf => leafDensity d (x d.var))
  have hl : ∀ x, lik x = f x r := by
    intro x
    obtain ⟨L, _, _, _, h4⟩ := C01_loglikelihood hL hs hv x (hf x) freshMem
    rw [hlik x] at h4
    injection h4
  -- leaf values
  let ℓ : (ℝ → ℝ) → Var → Leaf → ℝ≥0∞ := fun q v d =>
    ∫⁻ t, (if d.var = v then ENNReal.ofReal (leafDensity d t) * ENNReal.ofReal (q t)
      else ENNReal.ofReal (leafDensity d t)) ∂baseMeasure cont d.var
  choose Ep hEp using fun v => exists_ecv hac (ℓ (fun t => (t - c v) ^ k v) v)
  choose En hEn using fun v => exists_ecv hac (ℓ (fun t => -(t - c v) ^ k v) v)
  have hmeasq : ∀ v, Measurable fun t : ℝ => (t - c v) ^ k v := fun v => by fun_prop
  have hmeasqn : ∀ v, Measurable fun t : ℝ => -(t - c v) ^ k v := fun v => by fun_prop
  have hval : ∀ (q : ℝ → ℝ), Measurable q → ∀ n d, g.kind? n = some (.leaf d) →
      ℓ q d.var d = ∫⁻ t, ENNReal.ofReal (q t) ∂leafLaw d := by
    intro q hq n d hk
    simp only [ℓ, if_true]
    exact lintegral_leaf (hv n d hk) (hb n d hk) hq
  have hone : ∀ (q : ℝ → ℝ) v n d, g.kind? n = some (.leaf d) → d.var ≠ v → ℓ q v d = 1 := by
    intro q v n d hk hne
    simp only [ℓ, hne, if_false]
    rw [← setLIntegral_univ, ← withDensity_apply _ MeasurableSet.univ, ← leafLaw_base (hv n d hk) (hb n d hk),
      leafLaw_univ (hv n d hk) (hln n d hk)]
  have hmom : ∀ n d, g.kind? n = some (.leaf d) → ∀ (k : ℕ) (c : ℝ),
      Integrable (fun t : ℝ => (t - c) ^ k) (leafLaw d) ∧ d.moment k c = .ok (∫ t, (t - c) ^ k ∂leafLaw d) := by
    intro n d hk k c
    refine leaf_moment (hv n d hk) (hnum n d hk) k c (fun v loc cap h => ?_)
    have := hb n d hk
    rw [h] at this
    exact absurd this id
  have hfin : ∀ v n d, g.kind? n = some (.leaf d) → ℓ (fun t => (t - c v) ^ k v) v d ≠ ⊤ ∧
      ℓ (fun t => -(t - c v) ^ k v) v d ≠ ⊤ := by
    intro v n d hk
    by_cases h : d.var = v
    · subst h
      obtain ⟨hi, -⟩ := hmom n d hk (k d.var) (c d.var)
      rw [hval _ (hmeasq _) n d hk, hval _ (hmeasqn _) n d hk]
      exact ⟨hi.lintegral_lt_top.ne, hi.neg.lintegral_lt_top.ne⟩
    · rw [hone _ v n d hk h, hone _ v n d hk h]
      simp
  -- leaves outside of the circuit's scope are not reachable, so the maps may be completed there
  let order' : Var → Option ℕ := fun v => some (k v)
  let center' : Var → Option ℝ := fun v => some (c v)
  have hmm' : ∀ n d, g.kind? n = some (.leaf d) → d.momentMap order' center'
      = .ok ((ℓ (fun t => (t - c d.var) ^ k d.var) d.var d).toReal
          - (ℓ (fun t => -(t - c d.var) ^ k d.var) d.var d).toReal) := by
    intro n d hk
    obtain ⟨hi, hm⟩ := hmom n d hk (k d.var) (c d.var)
    rw [momentMap_eq (hnum n d hk) (rfl : order' d.var = _) (rfl : center' d.var = _), hm, hval _ (hmeasq _) n d hk,
      hval _ (hmeasqn _) n d hk, integral_eq_lintegral_pos_part_sub_lintegral_neg_part hi]
  have hmean' := moment_meaning hL hs hdec hsn (order := order') (center := center') hEp hEn
    (fun v n d hk => (hfin v n d hk).1) (fun v n d hk => (hfin v n d hk).2) (fun v => hone _ v) (fun v => hone _ v) hmm'
  have hmean : g.Meaning (momentAlg (sc r) order center) r
      (fun n v => if v ∈ sc n then (Ep v n).toReal - (En v n).toReal else 0) := by
    intro n hreach
    rw [← hmean' n hreach]
    have hmem := reachable_mem_ids hL.wf hri hreach
    obtain ⟨kd, hk⟩ := exists_kind? hmem
    cases kd with
    | leaf d =>
      have hdv : d.var ∈ sc r := scope_mono hL.wf hL.leaves hs hri hreach (by rw [hs.leaf n d hk]; simp)
      simp only [evalUnit, hk, momentAlg]
      rw [momentMap_eq (hnum n d hk) (hord _ hdv) (hcen _ hdv),
        momentMap_eq (hnum n d hk) (rfl : order' d.var = _) (rfl : center' d.var = _)]
    | sum => simp only [evalUnit, hk]; rfl
    | prod => simp only [evalUnit, hk]; rfl
  obtain ⟨hq, -⟩ := query_eq_meaning hL.wf hL.graded hL.root hmean m
  have hvars := circuitVars_eq hL.wf hac hs hL.root
  refine ⟨fun v => if v ∈ sc r then some (if v ∈ sc r then (Ep v r).toReal - (En v r).toReal else 0) else none,
    by simp only [Graph.moment, hvars, hq]; rfl, fun v hv => by simp [hv], fun v hv' => ?_⟩
  have := integral_ecv_mul (μ := baseMeasure cont) hL.wf hac hs hdec (φ := leafDensity) measurable_leafDensity
    (fun n d hk t => leafDensity_nonneg (hv n d hk) t) hf (v := v) (hmeasq v) (hEp v) (hEn v) hri hv'
    (ecv_ne_top hL.wf hac (hEp v) (fun n d hk => (hfin v n d hk).1) r hri)
    (ecv_ne_top hL.wf hac (hEn v) (fun n d hk => (hfin v n d hk).2) r hri)
  simp only [hl]
  refine ⟨this.1, ?_⟩
  rw [if_pos hv', if_pos hv', this.2]

theorem moment_error_of_leaf (hL : Layered g r) {n : Node} (hn : g.Reachable r n) {d : Leaf}
    (hk : g.kind? n = some (.leaf d)) {order : Var → Option ℕ} {center : Var → Option ℝ} {e : PyErr}
    (he : d.momentMap order center = .error e) (m : Mem (Var → ℝ)) : ∃ e, (g.moment m order center).2 = .error e := by
  unfold Graph.moment
  cases hcv : g.circuitVars with
  | error e => exact ⟨e, rfl⟩
  | ok vs =>
    cases hq : (g.query (momentAlg vs order center) m).2 with
    | error e => exact ⟨e, by simp only [hq]; rfl⟩
    | ok res =>
      exfalso
      have h1 := (query_iff_eval hL.wf hL.graded hL.leaves hL.root m res).1 hq
      have h2 : ∃ v, Eval g (momentAlg vs order center) n v := by
        clear hk
        induction hn with
        | refl => exact ⟨_, h1⟩
        | tail _ hc ih =>
          obtain ⟨v, hv⟩ := ih
          exact Eval.succ hL.leaves hv _ hc
      obtain ⟨v, hv⟩ := h2
      cases hv with
      | leaf hk' hv' =>
        rw [hk] at hk'
        injection hk' with hk'
        injection hk' with hk'
        subst hk'
        simp only [momentAlg, he] at hv'
        cases hv'
      | sum _ hk' => rw [hk] at hk'; cases hk'
      | prod _ hk' => rw [hk] at hk'; cases hk'

/-- A circuit with a symbolic leaf below its root has no moments: the query raises an exception. -/
theorem C16_symbolic_raises (hL : Layered g r) {n : Node} (hn : g.Reachable r n) {v : Var} {p : List (ℤ × ℝ)}
    (hk : g.kind? n = some (.leaf (.symbolic v p))) (order : Var → Option ℕ) (center : Var → Option ℝ)
    (m : Mem (Var → ℝ)) : ∃ e, (g.moment m order center).2 = .error e := by
  refine moment_error_of_leaf hL hn hk (e := .notImplementedError) rfl m

/-- A variable of the circuit that is missing in `order` or `center` is an exception: moments cannot be asked for a part
of the variables. -/
theorem C16_missing_variable_raises (hL : Layered g r) {n : Node} (hn : g.Reachable r n) {d : Leaf}
    (hk : g.kind? n = some (.leaf d)) {order : Var → Option ℕ} {center : Var → Option ℝ}
    (hmiss : order d.var = none ∨ center d.var = none) (m : Mem (Var → ℝ)) :
    ∃ e, (g.moment m order center).2 = .error e := by
  have : ∃ e, d.momentMap order center = .error e := by
    cases d with
    | symbolic v p => exact ⟨_, rfl⟩
    | _ =>
      refine ⟨.keyError, ?_⟩
      simp only [Leaf.momentMap]
      rcases hmiss with h | h
      · rw [h]
      · rw [h]
        split
        · simp_all
        · rfl
  obtain ⟨e, he⟩ := this
  exact moment_error_of_leaf hL hn hk he m

theorem dag_numeric : ∀ n d, Ex.dag.kind? n = some (.leaf d) → ∀ v p, d ≠ .symbolic v p := fun n d h => by
  have := Ex.forall_kind (g := Ex.dag) (P := fun n k => ∀ d, k = .leaf d → ∀ v p, d ≠ .symbolic v p)
    (by simp [Ex.dag]) n _ h
  exact this d rfl

/-- The hypotheses are met by the example circuit. -/
example {lik : (Var → ℝ) → ℝ} (hlik : ∀ x, Ex.dag.likelihood freshMem x = .ok (lik x)) (m : Mem (Var → ℝ)) :
    ∃ res, (Ex.dag.moment m (fun _ => some 3) (fun _ => some 1)).2 = .ok res :=
  (C16_moment (cont := fun _ => true) (k := fun _ => 3) (c := fun _ => 1) Ex.dag_layered Ex.dag_scoped
    Ex.dag_decomposable dag_normalized.1 Ex.dag_valid dag_normalized.2 dag_base dag_numeric (fun _ _ => rfl)
    (fun _ _ => rfl) hlik m).imp fun _ h => h.1

/-- `0: ⊗ → 1: U₀[0,1], 2: {a: 1/2, b: 1/2}`. -/
noncomputable def mixedTypes : Circuit where
  nodes := [(0, .prod), (1, .leaf (.uniform 0 0 1 .closed .closed)), (2, .leaf (.symbolic 1 [(0, 1 / 2), (1, 1 / 2)]))]
  edges := [⟨0, 1, none⟩, ⟨0, 2, none⟩]

theorem mixedTypes_layered : Layered mixedTypes 0 where
  wf := ⟨by decide, by decide, by simp [mixedTypes, ids], by simp [mixedTypes, ids]⟩
  graded := ⟨fun n => if n = 0 then 0 else 1, by simp [mixedTypes]⟩
  leaves := fun n d h => by
    have := Ex.forall_kind (g := mixedTypes) (P := fun n k => ∀ d, k = .leaf d → mixedTypes.succ n = [])
      (by simp [mixedTypes, succ, outEdges]) n _ h
    exact this d rfl
  weighted := fun n h => by
    have := Ex.forall_kind (g := mixedTypes) (P := fun n k => k = .sum → ∀ e ∈ mixedTypes.outEdges n, e.weight.isSome)
      (by simp [mixedTypes]) n _ h
    exact this rfl
  root := by simp [root, mixedTypes, ids, inDegree, inEdges]

/-- The expectation of the uniform variable of this circuit raises, with the default argument (`[0]`, the numeric
variables). -/
example (m : Mem (Var → ℝ)) : ∃ e, (mixedTypes.expectation m [0]).2 = .error e :=
  C16_symbolic_raises (n := 2) mixedTypes_layered (.tail .refl (by decide)) rfl _ _ m

/-! ### C17 -/

theorem likelihood_nonneg (hL : Layered g r) (hs : Scoped g sc) (hv : ∀ n d, g.kind? n = some (.leaf d) → d.Valid)
    {lik : (Var → ℝ) → ℝ} (hlik : ∀ x, g.likelihood freshMem x = .ok (lik x)) (x : Var → ℝ) : 0 ≤ lik x := by
  obtain ⟨f, hf⟩ := exists_circuitValue hL.graded.acyclic (fun d : Leaf => leafDensity d (x d.var))
  obtain ⟨L, _, _, _, h4⟩ := C01_loglikelihood hL hs hv x hf freshMem
  rw [hlik x] at h4
  injection h4 with h4
  rw [h4]
  exact circuitValue_nonneg hL.wf hL.graded.acyclic hf (fun n d hk => leafDensity_nonneg (hv n d hk) _) r
    (root_mem hL.root).1

theorem integral_lin3 {α : Type} [MeasurableSpace α] {ν : Measure α} {a b c : α → ℝ} (ha : Integrable a ν)
    (hb : Integrable b ν) (hc : Integrable c ν) (k l : ℝ) :
    ∫ y, (a y - k * b y + l * c y) ∂ν = ∫ y, a y ∂ν - k * ∫ y, b y ∂ν + l * ∫ y, c y ∂ν := by
  rw [← integral_const_mul, ← integral_const_mul, ← integral_sub ha (hb.const_mul k)]
  exact integral_add (ha.sub (hb.const_mul k)) (hc.const_mul l)

/-- The likelihood of a normalized circuit integrates to one. -/
theorem mass_one (hL : Layered g r) (hs : Scoped g sc) (hdec : Decomposable g sc) (hsn : NormalizedSums g)
    (hv : ∀ n d, g.kind? n = some (.leaf d) → d.Valid) (hln : ∀ n d, g.kind? n = some (.leaf d) → d.Normalized)
    {cont : Var → Bool} (hb : ∀ n d, g.kind? n = some (.leaf d) → HasBase cont d)
    {lik : (Var → ℝ) → ℝ} (hlik : ∀ x, g.likelihood freshMem x = .ok (lik x)) :
    HasExpectOver (baseMeasure cont) (sc r) lik ∧ expectOver (baseMeasure cont) (sc r) lik = 1 := by
  have hac := hL.graded.acyclic
  have hri := (root_mem hL.root).1
  choose f hf using fun x : Var → ℝ => exists_circuitValue hac (fun d : Leaf => leafDensity d (x d.var))
  have hl : lik = fun x => f x r := by
    funext x
    obtain ⟨L, _, _, _, h4⟩ := C01_loglikelihood hL hs hv x (hf x) freshMem
    rw [hlik x] at h4
    injection h4
  have hF : ∀ x, ECircuitValue g (fun d => ENNReal.ofReal (leafDensity d (x d.var))) (fun n => ENNReal.ofReal (f x n)) :=
    fun x => ecv_ofReal hL.wf hac (hf x) (fun n d hk => leafDensity_nonneg (hv n d hk) _)
  have h0 : ∀ x, 0 ≤ lik x := likelihood_nonneg hL hs hv hlik
  have hG : ECircuitValue g (fun d => ∫⁻ t, ENNReal.ofReal (leafDensity d t) ∂baseMeasure cont d.var) (fun _ => 1) := by
    refine ⟨fun n d hk => ?_, fun n hk => ?_, fun n hk => by simp⟩
    · rw [← setLIntegral_univ, ← withDensity_apply _ MeasurableSet.univ, ← leafLaw_base (hv n d hk) (hb n d hk),
        leafLaw_univ (hv n d hk) (hln n d hk)]
    · simp only [mul_one]
      exact (sum_ofReal_linWeight hsn hk).symm
  have h3 := lmarginal_ecv (μ := baseMeasure cont) hL.wf hac hs hdec (ψ := fun d t => ENNReal.ofReal (leafDensity d t))
    (fun d => (measurable_leafDensity d).ennreal_ofReal) hF hG r hri
  have h4 := congrFun h3 0
  rw [lmarginal] at h4
  have hfm : Measurable lik := by
    have := ecv_measurable hL.wf hac (ψ := fun d t => ENNReal.ofReal (leafDensity d t))
      (fun d => (measurable_leafDensity d).ennreal_ofReal) hF r hri
    have h2 : lik = fun x => (ENNReal.ofReal (f x r)).toReal := by
      funext x
      rw [ENNReal.toReal_ofReal (by have := h0 x; rw [hl] at this; exact this), hl]
    rw [h2]
    exact this.ennreal_toReal
  have hu : Measurable fun y : (∀ _ : sc r, ℝ) => lik (Function.updateFinset (0 : Var → ℝ) (sc r) y) :=
    hfm.comp measurable_updateFinset
  have h5 : ∫⁻ y : (∀ _ : sc r, ℝ), ENNReal.ofReal (lik (Function.updateFinset 0 (sc r) y))
      ∂(Measure.pi fun u : sc r => baseMeasure cont u) = 1 := by
    rw [hl]
    exact h4
  constructor
  · refine ⟨hu.aestronglyMeasurable, ?_⟩
    rw [hasFiniteIntegral_iff_ofReal (.of_forall fun y => h0 _), h5]
    simp
  · rw [expectOver, integral_eq_lintegral_of_nonneg_ae (.of_forall fun y => h0 _) hu.aestronglyMeasurable, h5]
    rfl

/-- The property: on every normalized circuit over numeric variables, the variance of every variable is non-negative and
equals the second raw moment minus the squared expectation. -/
def C17_full : Prop :=
  ∀ (g : Circuit) (r : Node) (sc : Node → Finset Var), Layered g r → Scoped g sc → Decomposable g sc → NormalizedSums g →
    (∀ n d, g.kind? n = some (.leaf d) → d.Valid ∧ d.Normalized ∧ ∀ v p, d ≠ .symbolic v p) →
    ∀ m₁ m₂ m₃, ∃ e s var, (g.expectation m₁ ((sc r).sort (· ≤ ·))).2 = .ok e ∧
      (g.moment m₂ (fun _ => some 2) (fun _ => some 0)).2 = .ok s ∧
      (g.variance m₃ ((sc r).sort (· ≤ ·))).2 = .ok var ∧
      ∀ v ∈ sc r, ∃ ev sv vv, e v = some ev ∧ s v = some sv ∧ var v = some vv ∧ 0 ≤ vv ∧ vv = sv - ev ^ 2

/-- **C17**, proved for all circuits without Dirac leaves.  (`hb` says that the leaves have densities, which excludes
exactly the Dirac distribution.)  In addition the variance is the integral of `(x_v - E x_v)²`. -/
theorem C17_variance_partial (hL : Layered g r) (hs : Scoped g sc) (hdec : Decomposable g sc) (hsn : NormalizedSums g)
    (hv : ∀ n d, g.kind? n = some (.leaf d) → d.Valid) (hln : ∀ n d, g.kind? n = some (.leaf d) → d.Normalized)
    {cont : Var → Bool} (hb : ∀ n d, g.kind? n = some (.leaf d) → HasBase cont d)
    (hnum : ∀ n d, g.kind? n = some (.leaf d) → ∀ v p, d ≠ .symbolic v p)
    {lik : (Var → ℝ) → ℝ} (hlik : ∀ x, g.likelihood freshMem x = .ok (lik x)) {vars : List Var}
    (hvars : ∀ v ∈ sc r, v ∈ vars) (m₁ m₂ m₃ : Mem (Var → ℝ)) :
    ∃ e s var, (g.expectation m₁ vars).2 = .ok e ∧ (g.moment m₂ (fun _ => some 2) (fun _ => some 0)).2 = .ok s ∧
      (g.variance m₃ vars).2 = .ok var ∧
      ∀ v ∈ sc r, ∃ ev sv vv, e v = some ev ∧ s v = some sv ∧ var v = some vv ∧ 0 ≤ vv ∧ vv = sv - ev ^ 2 ∧
        ev = expectOver (baseMeasure cont) (sc r) (fun x => lik x * x v) ∧
        vv = expectOver (baseMeasure cont) (sc r) (fun x => lik x * (x v - ev) ^ 2) := by
  have base := fun (order : Var → Option ℕ) (center : Var → Option ℝ) (k : Var → ℕ) (c : Var → ℝ)
    (h1 : ∀ v ∈ sc r, order v = some (k v)) (h2 : ∀ v ∈ sc r, center v = some (c v)) (m : Mem (Var → ℝ)) =>
    C16_moment hL hs hdec hsn hv hln hb hnum h1 h2 hlik m
  obtain ⟨e, he, -, he'⟩ := base (fun v => if v ∈ vars then some 1 else none) (fun v => if v ∈ vars then some 0 else none)
    (fun _ => 1) (fun _ => 0) (fun v hv => if_pos (hvars v hv)) (fun v hv => if_pos (hvars v hv)) m₁
  obtain ⟨e₃, he₃, hoff, he₃'⟩ := base (fun v => if v ∈ vars then some 1 else none)
    (fun v => if v ∈ vars then some 0 else none)
    (fun _ => 1) (fun _ => 0) (fun v hv => if_pos (hvars v hv)) (fun v hv => if_pos (hvars v hv)) m₃
  obtain ⟨s, hs2, -, hs2'⟩ := base (fun _ => some 2) (fun _ => some 0) (fun _ => 2) (fun _ => 0) (fun _ _ => rfl)
    (fun _ _ => rfl) m₂
  let E : Var → ℝ := fun v => expectOver (baseMeasure cont) (sc r) fun x => lik x * (x v - 0) ^ 1
  obtain ⟨var, hvar, -, hvar'⟩ := base (fun v => if v ∈ vars then some 2 else none) e₃ (fun _ => 2) E
    (fun v hv => if_pos (hvars v hv)) (fun v hv => (he₃' v hv).2) (g.expectation m₃ vars).1
  refine ⟨e, s, var, he, hs2, ?_, fun v hvr => ⟨E v, _, _, (he' v hvr).2, (hs2' v hvr).2, (hvar' v hvr).2, ?_, ?_, ?_,
    rfl⟩⟩
  · have : g.expectation m₃ vars = ((g.expectation m₃ vars).1, .ok e₃) := by rw [← he₃]; rfl
    rw [Graph.variance, this]
    exact hvar
  · have h0 := likelihood_nonneg hL hs hv hlik
    exact integral_nonneg fun y => mul_nonneg (h0 _) (sq_nonneg _)
  · have h1 := (he' v hvr).1
    have h2 := (hs2' v hvr).1
    obtain ⟨hm, hmass⟩ := mass_one hL hs hdec hsn hv hln hb hlik
    have e1 : ∀ x : Var → ℝ, lik x * (x v - E v) ^ 2
        = lik x * (x v - 0) ^ 2 - (2 * E v) * (lik x * (x v - 0) ^ 1) + E v ^ 2 * lik x := by
      intro x
      ring
    simp only [e1]
    have h3 : expectOver (baseMeasure cont) (sc r) (fun x => lik x * (x v - 0) ^ 2
        - (2 * E v) * (lik x * (x v - 0) ^ 1) + E v ^ 2 * lik x)
        = expectOver (baseMeasure cont) (sc r) (fun x => lik x * (x v - 0) ^ 2)
          - (2 * E v) * expectOver (baseMeasure cont) (sc r) (fun x => lik x * (x v - 0) ^ 1)
          + E v ^ 2 * expectOver (baseMeasure cont) (sc r) lik := by
      exact integral_lin3 h2 h1 hm _ _
    rw [h3, hmass]
    show _ - 2 * E v * E v + _ = _
    ring
  · show expectOver _ _ _ = _
    simp

example {lik : (Var → ℝ) → ℝ} (hlik : ∀ x, Ex.dag.likelihood freshMem x = .ok (lik x)) (m : Mem (Var → ℝ)) :
    ∃ e, (Ex.dag.expectation m [0, 1]).2 = .ok e :=
  (C17_variance_partial (cont := fun _ => true) Ex.dag_layered Ex.dag_scoped
    Ex.dag_decomposable dag_normalized.1 Ex.dag_valid dag_normalized.2 dag_base dag_numeric hlik (vars := [0, 1])
    (by simp [Ex.dagScope]) m m m).imp fun _ h => by obtain ⟨_, _, h, _⟩ := h; exact h

/-- `0: ⊕ → 1: δ₀, 2: δ₂` with weights one half. -/
noncomputable def diracMix : Circuit where
  nodes := [(0, .sum), (1, .leaf (.dirac 0 0 1)), (2, .leaf (.dirac 0 2 1))]
  edges := [⟨0, 1, some (.fin (Real.log (1 / 2)))⟩, ⟨0, 2, some (.fin (Real.log (1 / 2)))⟩]

theorem diracMix_layered : Layered diracMix 0 where
  wf := ⟨by decide, by decide, by simp [diracMix, ids], by simp [diracMix, ids]⟩
  graded := ⟨fun n => if n = 0 then 0 else 1, by simp [diracMix]⟩
  leaves := fun n d h => by
    have := Ex.forall_kind (g := diracMix) (P := fun n k => ∀ d, k = .leaf d → diracMix.succ n = [])
      (by simp [diracMix, succ, outEdges]) n _ h
    exact this d rfl
  weighted := fun n h => by
    have := Ex.forall_kind (g := diracMix) (P := fun n k => k = .sum → ∀ e ∈ diracMix.outEdges n, e.weight.isSome)
      (by simp [diracMix, outEdges]) n _ h
    exact this rfl
  root := by simp [root, diracMix, ids, inDegree, inEdges]

theorem diracMix_scoped : Scoped diracMix (fun _ => {0}) where
  leaf := fun n d h => by
    have := Ex.forall_kind (g := diracMix) (P := fun n k => ∀ d, k = .leaf d → ({0} : Finset Var) = {d.var})
      (by simp [diracMix, Leaf.var]) n _ h
    exact this d rfl
  sumNe := fun n h => by
    have := Ex.forall_kind (g := diracMix) (P := fun n k => k = .sum → diracMix.succ n ≠ [])
      (by simp [diracMix, succ, outEdges]) n _ h
    exact this rfl
  sum := fun _ _ _ _ => rfl
  prod := fun n h => by
    have := Ex.forall_kind (g := diracMix) (P := fun n k => k ≠ .prod) (by simp [diracMix]) n _ h
    exact absurd rfl this

theorem diracMix_moment (k : ℕ) (c : ℝ) {order : Var → Option ℕ} {center : Var → Option ℝ} (ho : order 0 = some k)
    (hc : center 0 = some c) (m : Mem (Var → ℝ)) : (diracMix.moment m order center).2
      = .ok (fun v => if v = 0 then some (1 / 2 * Leaf.diracMoment 0 k c + 1 / 2 * Leaf.diracMoment 2 k c) else none) := by
  have h12 : Real.exp (-Real.log 2) = 1 / 2 := by rw [Real.exp_neg, Real.exp_log (by norm_num)]; norm_num
  have hmean : diracMix.Meaning (momentAlg {0} order center) 0 (fun n v => if v = 0 then
      (if n = 0 then 1 / 2 * Leaf.diracMoment 0 k c + 1 / 2 * Leaf.diracMoment 2 k c else
        if n = 1 then Leaf.diracMoment 0 k c else Leaf.diracMoment 2 k c) else 0) := by
    intro n hn
    have hmem := reachable_mem_ids diracMix_layered.wf (root_mem diracMix_layered.root).1 hn
    simp only [diracMix, ids, List.map_cons, List.map_nil, List.mem_cons, List.not_mem_nil, or_false] at hmem
    rcases hmem with rfl | rfl | rfl
    · show Except.ok _ = _
      congr 1
      funext v
      by_cases hv : v = 0
      · simp [hv, h12]
      · simp [hv]
    · have : diracMix.kind? 1 = some (.leaf (.dirac 0 0 1)) := rfl
      simp only [evalUnit, this, momentAlg, Leaf.momentMap, Leaf.var, ho, hc]
      rfl
    · have : diracMix.kind? 2 = some (.leaf (.dirac 0 2 1)) := rfl
      simp only [evalUnit, this, momentAlg, Leaf.momentMap, Leaf.var, ho, hc]
      rfl
  obtain ⟨hq, -⟩ := query_eq_meaning diracMix_layered.wf diracMix_layered.graded diracMix_layered.root hmean m
  have hvars := circuitVars_eq diracMix_layered.wf diracMix_layered.graded.acyclic diracMix_scoped diracMix_layered.root
  simp only [Graph.moment, hvars, hq]
  show Except.ok _ = _
  congr 1
  funext v
  by_cases hv : v = 0 <;> simp [hv]

/-- **Violation.** The variance of an equal mixture of point masses at `0` and `2` is `1`; the code returns `0`, and its
second raw moment is `0` although its expectation is `1`. -/
theorem C17_full_false : ¬ C17_full := by
  intro h
  have h12 : Real.exp (-Real.log 2) = 1 / 2 := by rw [Real.exp_neg, Real.exp_log (by norm_num)]; norm_num
  obtain ⟨e, s, var, he, hs, hvar, hall⟩ := h diracMix 0 (fun _ => {0}) diracMix_layered diracMix_scoped
    (fun n hk => by
      have := Ex.forall_kind (g := diracMix) (P := fun n k => k ≠ .prod) (by simp [diracMix]) n _ hk
      exact absurd rfl this)
    (fun n hk => by
      have := Ex.forall_kind (g := diracMix) (P := fun n k => k = .sum → ((diracMix.outEdges n).map linWeight).sum = 1)
        (by simp [diracMix, outEdges, linWeight, h12]; norm_num) n _ hk
      exact this rfl)
    (fun n d hk => by
      have := Ex.forall_kind (g := diracMix)
        (P := fun n k => ∀ d, k = .leaf d → d.Valid ∧ d.Normalized ∧ ∀ v p, d ≠ .symbolic v p)
        (by simp [diracMix, Leaf.Valid, Leaf.Normalized]) n _ hk
      exact this d rfl)
    freshMem freshMem freshMem
  rw [Graph.expectation, diracMix_moment 1 0 (by simp) (by simp)] at he
  rw [diracMix_moment 2 0 rfl rfl] at hs
  injection he with he
  injection hs with hs
  have hv1 : (diracMix.expectation freshMem (({0} : Finset Var).sort (· ≤ ·))).2 = .ok e := by
    rw [Graph.expectation, diracMix_moment 1 0 (by simp) (by simp), he]
  have hv2 : diracMix.expectation freshMem (({0} : Finset Var).sort (· ≤ ·))
      = ((diracMix.expectation freshMem (({0} : Finset Var).sort (· ≤ ·))).1, .ok e) := by
    rw [← hv1]
  have he0 : e 0 = some 1 := by
    rw [← he]
    simp [Leaf.diracMoment]
  rw [Graph.variance, hv2] at hvar
  simp only at hvar
  rw [diracMix_moment 2 1 (by simp) he0] at hvar
  injection hvar with hvar
  obtain ⟨ev, sv, vv, h1, h2, h3, -, h5⟩ := hall 0 (by simp)
  rw [he0] at h1
  injection h1 with h1
  rw [← hs] at h2
  rw [← hvar] at h3
  simp [Leaf.diracMoment] at h2 h3
  subst h1 h2 h3
  norm_num at h5

/-- **Violation at the leaf.** The second raw moment of the point mass at `1` is `1`; the code returns `0`. -/
theorem C16_dirac_false : (Leaf.dirac 0 1 1).moment 2 0 = .ok 0 ∧
    ∫ t, (t - 0) ^ 2 ∂leafLaw (Leaf.dirac 0 1 1) = (1 : ℝ) := by
  refine ⟨by simp [Leaf.moment, Leaf.diracMoment], ?_⟩
  show ∫ t, (t - 0) ^ 2 ∂Measure.dirac (1 : ℝ) = 1
  rw [integral_dirac]
  norm_num

/-- Orders `0` and `1` are right for Dirac leaves too. -/
theorem C16_dirac_low (v : Var) (loc cap : ℝ) {k : ℕ} (hk : k ≤ 1) (c : ℝ) :
    (Leaf.dirac v loc cap).moment k c = .ok (∫ t, (t - c) ^ k ∂leafLaw (Leaf.dirac v loc cap)) := by
  show _ = Except.ok (∫ t, (t - c) ^ k ∂Measure.dirac loc)
  rw [integral_dirac]
  interval_cases k <;> simp [Leaf.moment, Leaf.diracMoment]

end PM.Props
