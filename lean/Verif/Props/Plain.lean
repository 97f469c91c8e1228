import Verif.Props.Histories
import Verif.Props.Moments
import Verif.Props.SampleLaw
import Verif.Circuit.MomentValue

/-!
# C109: what does not enter evidence changes no answer about the variables that are left
-/

namespace PM.Props

open Spec Graph MeasureTheory Classical
open scoped ENNReal

variable {g g' : Circuit} {r : Node} {sc : Node → Finset Var} {dom : Var → VSet} {ops : List Op}

theorem plain_history : ∀ {ops : List Op} {g : Circuit} {r : Node} {sc : Node → Finset Var}, EvidenceModel g r sc dom → (sc r).Nonempty →
    observations ops = [] → ∀ {g' : Circuit}, history dom g ops = .ok (some g') →
      ∃ r' sc', sc' r' = variablesAfter (sc r) ops ∧ SameLaw g g' r r' sc sc' dom
  | [], g, r, sc, hM, _, _, g', h => by
    cases Option.some.inj (Except.ok.inj h)
    exact ⟨r, sc, rfl, sameLaw_refl hM⟩
  | op :: ops, g, r, sc, hM, hne, hobs, g', h => by
    rw [observations_cons, List.append_eq_nil_iff] at hobs
    rcases plain_step hM hne op hobs.1 with ⟨h1, _⟩ | ⟨g₁, r₁, sc₁, h1, h2, h3, h4, h5⟩
    · rw [history, h1] at h
      cases h
    · rw [history, h1] at h
      obtain ⟨r', sc', j1, j2⟩ := plain_history h5.model h3 hobs.2 h
      rw [variablesAfter_cons, ← h2]
      exact ⟨r', sc', j1, h5.trans j2 (j1 ▸ variablesAfter_subset _ _)⟩

theorem exists_lik (hM : EvidenceModel g r sc dom) : ∃ f : (Var → ℝ) → Node → ℝ,
    (∀ x, CircuitValue g (fun d => leafDensity d (x d.var)) (f x)) ∧ ∀ x m, g.likelihood m x = .ok (f x r) := by
  choose f hf using fun x : Var → ℝ => exists_circuitValue hM.layered.graded.acyclic (fun d : Leaf => leafDensity d (x d.var))
  refine ⟨f, hf, fun x m => ?_⟩
  obtain ⟨L, _, _, _, h4⟩ := C01_loglikelihood hM.layered hM.smooth hM.valid x (hf x) m
  exact h4

/-- If no variable is dropped, the likelihood of every point is the same after any sequence of `marginal`, `simplify`, `normalize`, `copy`
and JSON round trips. -/
theorem C109_likelihood (hM : EvidenceModel g r sc dom) (hne : (sc r).Nonempty) (hobs : observations ops = [])
    (hall : variablesAfter (sc r) ops = sc r) (h : history dom g ops = .ok (some g')) (x : Var → ℝ) (m m' : Mem LogP) :
    ∃ l, g'.likelihood m x = .ok l ∧ g.likelihood m' x = .ok l := by
  obtain ⟨r', sc', h1, h2⟩ := plain_history hM hne hobs h
  obtain ⟨f, hf, hl⟩ := exists_lik hM
  obtain ⟨f', hf', hl'⟩ := exists_lik h2.model
  refine ⟨f x r, ?_, hl x m'⟩
  obtain ⟨q, hq, hqr⟩ := h2.value _ (fun n d hk hd => absurd (by rw [h1, hall]; exact leaf_var_mem hM.layered hM.smooth hk) hd) _ (hf x)
  rw [hl' x m, ← hqr,
    circuitValue_unique h2.model.layered.wf h2.model.layered.graded.acyclic (hf' x) hq r' (root_mem h2.model.layered.root).1]

/-- **C109**: densities.  After any sequence of `marginal`, `simplify`, `normalize`, `copy` and JSON round trips that leaves a model, the
likelihood that this model returns is the integral of the likelihood of the original model over the variables that were dropped (Lebesgue
measure for continuous, counting measure for discrete variables). -/
theorem C109_density (hM : EvidenceModel g r sc dom) (hne : (sc r).Nonempty) (hobs : observations ops = [])
    (h : history dom g ops = .ok (some g')) {cont : Var → Bool} (hb : ∀ n d, g.kind? n = some (.leaf d) → HasBase cont d)
    {lik : (Var → ℝ) → ℝ} (hlik : ∀ x, g.likelihood freshMem x = .ok (lik x)) (x : Var → ℝ) (m : Mem LogP) :
    ∃ l, g'.likelihood m x = .ok l ∧ 0 ≤ l ∧
      ENNReal.ofReal l = (∫⋯∫⁻_(sc r \ variablesAfter (sc r) ops), (fun y => ENNReal.ofReal (lik y)) ∂baseMeasure cont) x := by
  obtain ⟨r', sc', h1, h2⟩ := plain_history hM hne hobs h
  obtain ⟨f, hf, hl⟩ := exists_lik hM
  obtain ⟨f', hf', hl'⟩ := exists_lik h2.model
  have hM' := h2.model
  have hac := hM.layered.graded.acyclic
  have hl0 : ∀ y, lik y = f y r := fun y => Except.ok.inj ((hlik y).symm.trans (hl y freshMem))
  have hF : ∀ y, ECircuitValue g (fun d => ENNReal.ofReal (leafDensity d (y d.var))) (fun n => ENNReal.ofReal (f y n)) :=
    fun y => ecv_ofReal hM.layered.wf hac (hf y) (fun n d hk => leafDensity_nonneg (hM.valid n d hk) _)
  obtain ⟨q, hq⟩ := exists_circuitValue hac
    (fun d : Leaf => if d.var ∈ variablesAfter (sc r) ops then leafDensity d (x d.var) else 1)
  have hone : ∀ n d, g.kind? n = some (.leaf d) → ∫⁻ t, ENNReal.ofReal (leafDensity d t) ∂baseMeasure cont d.var = 1 := by
    intro n d hk
    rw [← setLIntegral_univ, ← withDensity_apply _ MeasurableSet.univ, ← leafLaw_base (hM.valid n d hk) (hb n d hk),
      leafLaw_univ (hM.valid n d hk) (hM.leaves n d hk)]
  have hG := ecv_congr (ℓ' := fun d => if d.var ∈ variablesAfter (sc r) ops then ENNReal.ofReal (leafDensity d (x d.var))
    else ∫⁻ t, ENNReal.ofReal (leafDensity d t) ∂baseMeasure cont d.var) (ecv_ofReal hM.layered.wf hac hq fun n d hk => by
      split
      · exact leafDensity_nonneg (hM.valid n d hk) _
      · exact zero_le_one) fun n d hk => by
      by_cases hd : d.var ∈ variablesAfter (sc r) ops
      · simp only [hd, if_true]
      · simp only [hd, if_false, hone n d hk, ENNReal.ofReal_one]
  have hoff := lmarginal_off (μ := baseMeasure cont) hM.layered.wf hac hM.smooth hM.decomposable
    (ψ := fun d t => ENNReal.ofReal (leafDensity d t)) (fun d => (measurable_leafDensity d).ennreal_ofReal) hF
    (variablesAfter (sc r) ops) x hG (root_mem hM.layered.root).1
  obtain ⟨q', hq', hqr⟩ := h2.value _ (fun n d hk hd => if_neg (h1 ▸ hd)) _ hq
  have hri := (root_mem hM'.layered.root).1
  have hsame : f' x r' = q r := by
    rw [← hqr]
    refine circuitValue_unique hM'.layered.wf hM'.layered.graded.acyclic (hf' x) ⟨fun n d hk => ?_, hq'.sum, hq'.prod⟩ r' hri
    rw [hq'.leaf n d hk, if_pos (h1 ▸ leaf_var_mem hM'.layered hM'.smooth hk)]
  refine ⟨f' x r', hl' x m, circuitValue_nonneg hM'.layered.wf hM'.layered.graded.acyclic (hf' x)
    (fun n d hk => leafDensity_nonneg (hM'.valid n d hk) _) r' hri, ?_⟩
  simp only [hl0]
  rw [hsame, ← hoff]

/-- Moments.  For models with continuous and integer leaves, every moment of every variable that is left is the moment in the original
model; the orders and centers need only agree on the variables that are left. -/
theorem C109_moment (hM : EvidenceModel g r sc dom) (hne : (sc r).Nonempty) (hobs : observations ops = [])
    (h : history dom g ops = .ok (some g')) (hnum : ∀ n d, g.kind? n = some (.leaf d) → ∀ v p, d ≠ .symbolic v p)
    {order order' : Var → Option ℕ} {center center' : Var → Option ℝ} (hord : ∀ v ∈ sc r, (order v).isSome)
    (hcen : ∀ v ∈ sc r, (center v).isSome) (hord' : ∀ v ∈ variablesAfter (sc r) ops, order' v = order v)
    (hcen' : ∀ v ∈ variablesAfter (sc r) ops, center' v = center v) (m m' : Mem (Var → ℝ)) :
    ∃ res res', (g.moment m order center).2 = .ok res ∧ (g'.moment m' order' center').2 = .ok res' ∧
      (∀ v ∈ variablesAfter (sc r) ops, ∃ q, res v = some q ∧ res' v = some q) ∧
      ∀ v, v ∉ variablesAfter (sc r) ops → res' v = none := by
  obtain ⟨r', sc', h1, h2⟩ := plain_history hM hne hobs h
  have hM' := h2.model
  have hmom : ∀ n d, g.kind? n = some (.leaf d) → ∃ y, d.momentMap order center = .ok y := by
    intro n d hk
    have hv := leaf_var_mem hM.layered hM.smooth hk
    obtain ⟨k, hk'⟩ := Option.isSome_iff_exists.1 (hord _ hv)
    obtain ⟨c, hc⟩ := Option.isSome_iff_exists.1 (hcen _ hv)
    rw [momentMap_eq (hnum n d hk) hk' hc]
    exact ⟨_, (leaf_moment (hM.valid n d hk) (hnum n d hk) k c fun v loc cap hd => absurd hd (hM.noDirac n d hk v loc cap)).2⟩
  choose! y hy using fun d (hd : ∃ n, g.kind? n = some (.leaf d)) => hmom hd.choose d hd.choose_spec
  have hy1 : ∀ n d, g.kind? n = some (.leaf d) → d.momentMap order center = .ok (y d) := fun n d hk => hy d ⟨n, hk⟩
  have hy2 : ∀ n d, g'.kind? n = some (.leaf d) → d.momentMap order' center' = .ok (y d) := by
    intro n d hk
    obtain ⟨k, hk'⟩ := h2.from' n d hk
    have hv := h1 ▸ leaf_var_mem hM'.layered hM'.smooth hk
    rw [← hy1 k d hk']
    cases d <;> simp only [Leaf.momentMap, hord' _ hv, hcen' _ hv]
  choose f hf using fun v => exists_circuitValue hM.layered.graded.acyclic (fun d : Leaf => if d.var = v then y d else 1)
  choose f' hf' using fun v => exists_circuitValue hM'.layered.graded.acyclic (fun d : Leaf => if d.var = v then y d else 1)
  refine ⟨_, _, moment_value hM.layered hM.smooth hM.decomposable hM.normalized hy1 hf m,
    moment_value hM'.layered hM'.smooth hM'.decomposable hM'.normalized hy2 hf' m', fun v hv => ⟨f v r, ?_, ?_⟩, fun v hv => ?_⟩
  · exact if_pos (variablesAfter_subset _ _ hv)
  · rw [if_pos (h1.symm ▸ hv)]
    obtain ⟨q, hq, hqr⟩ := h2.value _ (fun n d hk hd => if_neg fun hdv => hd (by rw [h1, hdv]; exact hv)) _ (hf v)
    rw [← hqr, circuitValue_unique hM'.layered.wf hM'.layered.graded.acyclic (hf' v) hq r' (root_mem hM'.layered.root).1]
  · rw [if_neg (h1.symm ▸ hv)]

/-- Variances: the same for the variance of the variables that are left. -/
theorem C109_variance (hM : EvidenceModel g r sc dom) (hne : (sc r).Nonempty) (hobs : observations ops = [])
    (h : history dom g ops = .ok (some g')) (hnum : ∀ n d, g.kind? n = some (.leaf d) → ∀ v p, d ≠ .symbolic v p)
    {vars vars' : List Var} (hvars : ∀ v ∈ sc r, v ∈ vars) (hvars' : ∀ v ∈ variablesAfter (sc r) ops, v ∈ vars')
    (m m' : Mem (Var → ℝ)) :
    ∃ res res', (g.variance m vars).2 = .ok res ∧ (g'.variance m' vars').2 = .ok res' ∧
      (∀ v ∈ variablesAfter (sc r) ops, ∃ q, res v = some q ∧ res' v = some q) ∧
      ∀ v, v ∉ variablesAfter (sc r) ops → res' v = none := by
  have hsub := variablesAfter_subset (sc r) ops
  have hex : ∀ (order : Var → Option ℕ) (center : Var → Option ℝ), (∀ v ∈ sc r, (order v).isSome) → (∀ v ∈ sc r, (center v).isSome) →
      ∀ m, ∃ res, (g.moment m order center).2 = .ok res ∧ ∀ v ∈ sc r, (res v).isSome := by
    intro order center ho hc m
    obtain ⟨res, res', j1, _, j3, _⟩ := C109_moment (ops := []) hM hne rfl rfl hnum ho hc (fun _ _ => rfl) (fun _ _ => rfl) m m
    exact ⟨res, j1, fun v hv => by
      obtain ⟨q, hq, _⟩ := j3 v hv
      simp [hq]⟩
  have hin : ∀ v ∈ sc r, (if v ∈ vars then some 1 else none : Option ℕ).isSome := fun v hv => by simp [hvars v hv]
  have hin0 : ∀ v ∈ sc r, (if v ∈ vars then some 0 else none : Option ℝ).isSome := fun v hv => by simp [hvars v hv]
  obtain ⟨e, e', j1, j2, j3, j4⟩ := C109_moment (order' := fun v => if v ∈ vars' then some 1 else none)
    (center' := fun v => if v ∈ vars' then some 0 else none) hM hne hobs h hnum hin hin0
    (fun v hv => by simp [hvars v (hsub hv), hvars' v hv]) (fun v hv => by simp [hvars v (hsub hv), hvars' v hv]) m m'
  obtain ⟨e₂, k1, k2⟩ := hex _ _ hin hin0 m
  rw [j1] at k1
  obtain rfl := Except.ok.inj k1
  obtain ⟨s, s', l1, l2, l3, l4⟩ := C109_moment (order := fun v => if v ∈ vars then some 2 else none)
    (order' := fun v => if v ∈ vars' then some 2 else none) (center' := e') hM hne hobs h hnum
    (fun v hv => by simp [hvars v hv]) k2
    (fun v hv => by simp [hvars v (hsub hv), hvars' v hv]) (fun v hv => by
      obtain ⟨q, hq, hq'⟩ := j3 v hv
      rw [hq, hq']) (g.expectation m vars).1 (g'.expectation m' vars').1
  refine ⟨s, s', ?_, ?_, l3, l4⟩
  · have : g.expectation m vars = ((g.expectation m vars).1, .ok e) := Prod.ext rfl j1
    unfold Graph.variance
    rw [this]
    exact l1
  · have : g'.expectation m' vars' = ((g'.expectation m' vars').1, .ok e') := Prod.ext rfl j2
    unfold Graph.variance
    rw [this]
    exact l2

/-- Samples: rows drawn from the model that is left lie in an event about its variables with the same chance as rows drawn from the
original model. -/
theorem C109_samples (hM : EvidenceModel g r sc dom) (hne : (sc r).Nonempty) (hobs : observations ops = [])
    (h : history dom g ops = .ok (some g')) {E : SimpleEvent} (hE : EventFor g (variablesAfter (sc r) ops) E) (amount : ℕ) :
    chance (g'.sampleR amount) (fun log => ∀ ρ < amount, RowIn (variablesAfter (sc r) ops) E log ρ)
      = chance (g.sampleR amount) (fun log => ∀ ρ < amount, RowIn (sc r) E log ρ) := by
  obtain ⟨r', sc', h1, h2⟩ := plain_history hM hne hobs h
  have hM' := h2.model
  have hsub := variablesAfter_subset (sc r) ops
  obtain ⟨p, j1, j2⟩ := C63_all_rows_partial hM.layered hM.smooth hM.decomposable hM.normalized hM.valid hM.leaves hM.domain
    (circuitVars_eq hM.layered.wf hM.layered.graded.acyclic hM.smooth hM.layered.root) (EventFor.widen hsub hE) amount freshMem
  obtain ⟨p', k1, k2⟩ := C63_all_rows_partial hM'.layered hM'.smooth hM'.decomposable hM'.normalized hM'.valid hM'.leaves hM'.domain
    (circuitVars_eq hM'.layered.wf hM'.layered.graded.acyclic hM'.smooth hM'.layered.root) (h2.from'.event (h1 ▸ hE)) amount freshMem
  rw [h1] at k2
  have := h2.prob [E] (by simpa [h1] using hE) freshMem freshMem
  rw [j1, k1] at this
  rw [j2, k2, Except.ok.inj this]

/-! ### The mean of one of two variables -/

theorem uniform_mean (v : Var) {lo hi : ℝ} (h : lo < hi) (l r : Bound) : (Leaf.uniform v lo hi l r).moment 1 0 = .ok ((lo + hi) / 2) := by
  rw [C29_uniform_moment v h]
  congr 1
  simp only [sub_zero, pow_one, intervalIntegral.integral_div, integral_id]
  have : hi - lo ≠ 0 := (sub_pos.2 h).ne'
  field_simp
  ring

/-- Asked for the marginal of `x₁`, stored, loaded, simplified. -/
noncomputable def tree2Plain : List Op := [.onto {1}, .reload 7, .simplify]

theorem tree2Plain_variables : variablesAfter (tree2Scope 0) tree2Plain = {1} := by
  show tree2Scope 0 ∩ {1} = {1}
  simp [tree2Scope]

theorem tree2_numeric : ∀ n d, tree2.kind? n = some (.leaf d) → ∀ v p, d ≠ .symbolic v p :=
  tree2_leaf (by simp) (by simp) (by simp) (by simp)

/-- The model at the end has a mean of `x₁` alone, `¼ · 1 + ¾ · 2`. -/
example : ∃ g', history (fun _ => realLine) tree2 tree2Plain = .ok (some g') ∧
    ∀ m, ∃ res, (g'.expectation m [1]).2 = .ok res ∧ res 1 = some (7 / 4) ∧ res 0 = none := by
  have hM := tree2_evidenceModel
  have hne : (tree2Scope 0).Nonempty := by simp [tree2Scope]
  obtain ⟨res, h1, h2, _⟩ := C106_history (ops := tree2Plain) hM hne trivial
  have hobs : observations tree2Plain = [] := rfl
  cases res with
  | none =>
    have hone := probability_one hM (eventFor_nil _) leavesIn_nil freshMem
    have := (h2 freshMem 1 hone).1 rfl
    rw [tree2Plain_variables] at this
    simp at this
  | some g' =>
    refine ⟨g', h1, fun m => ?_⟩
    obtain ⟨e, e', j1, j2, j3, j4⟩ := C109_moment (order := fun _ => some 1) (order' := fun v => if v ∈ [1] then some 1 else none)
      (center := fun _ => some 0) (center' := fun v => if v ∈ [1] then some 0 else none) hM hne hobs h1 tree2_numeric
      (by simp) (by simp) (by simp [tree2Plain_variables]) (by simp [tree2Plain_variables]) freshMem m
    rw [tree2Plain_variables] at j3 j4
    refine ⟨e', j2, ?_, j4 0 (by simp)⟩
    obtain ⟨q, hq, hq'⟩ := j3 1 (by simp)
    rw [hq', ← hq]
    choose f hf using fun v => exists_circuitValue tree2_layered.graded.acyclic
      (fun d : Leaf => if d.var = v then (match d with | .uniform _ lo hi _ _ => (lo + hi) / 2 | _ => 0) else 1)
    have hval := moment_value tree2_layered tree2_scoped tree2_decomposable tree2_normalized
      (order := fun _ => some 1) (center := fun _ => some 0)
      (x := fun d => match d with | .uniform _ lo hi _ _ => (lo + hi) / 2 | _ => 0)
      (tree2_leaf (uniform_mean 0 (by norm_num) .closed .closed) (uniform_mean 1 (by norm_num) .closed .closed) (uniform_mean 0 (by norm_num) .closed .closed)
        (uniform_mean 1 (by norm_num) .closed .closed)) hf freshMem
    rw [j1] at hval
    rw [Except.ok.inj hval]
    refine (if_pos (by simp [tree2Scope])).trans ?_
    have o0 : tree2.outEdges 0 = [⟨0, 1, Ex.lw (1 / 4)⟩, ⟨0, 2, Ex.lw (3 / 4)⟩] := rfl
    have o1 : tree2.outEdges 1 = [⟨1, 3, none⟩, ⟨1, 4, none⟩] := rfl
    have o2 : tree2.outEdges 2 = [⟨2, 5, none⟩, ⟨2, 6, none⟩] := rfl
    have hf1 := hf 1
    congr 1
    rw [hf1.sum 0 rfl, o0]
    simp only [List.map_cons, List.map_nil, List.sum_cons, List.sum_nil]
    rw [hf1.prod 1 rfl, hf1.prod 2 rfl, o1, o2]
    simp only [List.map_cons, List.map_nil, List.prod_cons, List.prod_nil]
    rw [hf1.leaf 3 _ rfl, hf1.leaf 4 _ rfl, hf1.leaf 5 _ rfl, hf1.leaf 6 _ rfl]
    simp (disch := norm_num) only [Leaf.var, Ex.linWeight_lw]
    norm_num

end PM.Props
