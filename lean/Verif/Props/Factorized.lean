import Verif.Circuit.Factorized
import Verif.Circuit.UniformLemmas
import Verif.Props.Queries

/-!
# C65: fully factorized circuits
-/

namespace PM.Props
open Graph Spec ProbabilityTheory

variable {ty : Var → VarType} {symbols : Var → List ℤ} {means variances : Var → Option ℝ}

open Classical in
/-- The density of a normal distribution with mean and variance from the dictionaries, or of the uniform distribution over the domain. -/
noncomputable def factor (ty : Var → VarType) (symbols : Var → List ℤ) (mean variance : Var → ℝ) (v : Var) (t : ℝ) : ℝ :=
  match ty v with
  | .continuous => gaussianPDFReal (mean v) (Real.toNNReal (variance v)) t
  | _ => if ∃ k ∈ symbols v, (k : ℝ) = t then 1 / ((symbols v).length : ℝ) else 0

/-- The arguments are complete: different variables, means and positive variances for the continuous ones, a domain without repetition for
the symbolic ones, no integer variables. -/
structure FactorArgs (ty : Var → VarType) (symbols : Var → List ℤ) (mean variance : Var → ℝ) (vars : List Var) : Prop where
  nodup : vars.Nodup
  continuous : ∀ v ∈ vars, ty v = .continuous → 0 < variance v
  symbolic : ∀ v ∈ vars, ty v = .symbolic → symbols v ≠ [] ∧ (symbols v).Nodup
  supported : ∀ v ∈ vars, ty v ≠ .integer

/-- **C65, full statement.** `fully_factorized` is the product of the normal distributions with the given means and variances and the
uniform distributions of the symbolic variables. -/
def C65_full : Prop := ∀ (ty : Var → VarType) (symbols : Var → List ℤ) (mean variance : Var → ℝ) (vars : List Var),
  FactorArgs ty symbols mean variance vars →
  ∃ g, fullyFactorized ty symbols (fun v => some (mean v)) (fun v => some (variance v)) vars = .ok g ∧
    ∀ x m, g.likelihood m x = .ok (vars.map fun v => factor ty symbols mean variance v (x v)).prod

/-- The leaf of a variable. -/
noncomputable def leafFor (ty : Var → VarType) (symbols : Var → List ℤ) (mean variance : Var → ℝ) (v : Var) : Leaf :=
  match ty v with
  | .continuous => .gaussian v (mean v) (variance v)
  | _ => .symbolic v ((symbols v).map fun k => (k, 1 / ((symbols v).length : ℝ)))

open Classical in
theorem density_equal {c : ℝ} (v : Var) (t : ℝ) : ∀ S : List ℤ, S.Nodup →
    leafDensity (.symbolic v (S.map fun k => (k, c))) t = if ∃ k ∈ S, (k : ℝ) = t then c else 0
  | [], _ => by simp [leafDensity]
  | k :: S, h => by
    have ih := density_equal (c := c) v t S (List.nodup_cons.1 h).2
    simp only [leafDensity] at ih ⊢
    by_cases hk : (k : ℝ) = t
    · have hn : ¬ ∃ j ∈ S, (j : ℝ) = t := by
        rintro ⟨j, hj, hjt⟩
        have : j = k := by exact_mod_cast hjt.trans hk.symm
        exact (List.nodup_cons.1 h).1 (this ▸ hj)
      rw [if_neg hn] at ih
      rw [if_pos ⟨k, by simp, hk⟩, List.map_cons, List.filter_cons_of_pos (by simpa using hk), List.map_cons, List.sum_cons, ih, add_zero]
    · rw [List.map_cons, List.filter_cons_of_neg (by simpa using hk), ih]
      simp [hk]

theorem leafFor_spec {mean variance : Var → ℝ} {vars : List Var} (h : FactorArgs ty symbols mean variance vars) {v : Var} (hv : v ∈ vars) :
    factorLeaf ty symbols (fun v => some (mean v)) (fun v => some (variance v)) v = .ok (leafFor ty symbols mean variance v) ∧
    (leafFor ty symbols mean variance v).Valid ∧ (leafFor ty symbols mean variance v).var = v ∧
    ∀ t, leafDensity (leafFor ty symbols mean variance v) t = factor ty symbols mean (fun v => variance v ^ 2) v t := by
  unfold factorLeaf leafFor factor
  cases hty : ty v with
  | continuous => exact ⟨rfl, h.continuous v hv hty, rfl, fun t => rfl⟩
  | integer => exact absurd hty (h.supported v hv)
  | symbolic =>
    obtain ⟨hne, hnd⟩ := h.symbolic v hv hty
    refine ⟨?_, ⟨?_, ?_⟩, rfl, fun t => density_equal v t _ hnd⟩
    · simp only
      rw [foldl_set_eq _ _ (by simpa using hnd)]
      simp
    · intro kp hkp
      obtain ⟨k, _, rfl⟩ := List.mem_map.1 hkp
      positivity
    · simpa [List.map_map, Function.comp_def] using hnd

/-- **C65, what the code does.** The variances are used as standard deviations: the circuit is the product of normal distributions with
the given means and the *squares* of the given variances.  Missing from `C65_full`: the variances. -/
theorem C65_factorized_partial {mean variance : Var → ℝ} {vars : List Var} (h : FactorArgs ty symbols mean variance vars) :
    ∃ g, fullyFactorized ty symbols (fun v => some (mean v)) (fun v => some (variance v)) vars = .ok g ∧
      ∀ x m, g.likelihood m x = .ok (vars.map fun v => factor ty symbols mean (fun v => variance v ^ 2) v (x v)).prod := by
  classical
  let d := leafFor ty symbols mean variance
  have hd : ∀ v ∈ vars, Denotes (newUnit 0 (.leaf (d v))) 0 {v} (fun ℓ => ℓ (d v)) := by
    intro v hv
    obtain ⟨_, h2, h3, _⟩ := leafFor_spec h hv
    have := denotes_leaf 0 h2
    rwa [h3] at this
  have hD := (denotes_attach_prod (u := 0) (U := vars.toFinset) hd (by intro v; simp) (by
    refine h.nodup.imp fun hne => ?_
    simpa using hne)).1
  refine ⟨(newUnit 0 .prod).attachAll 0 (partsOf (fun v => newUnit 0 (.leaf (d v))) (fun _ => 0) (fun _ => none) vars), ?_, fun x m => ?_⟩
  · unfold fullyFactorized
    rw [mapM_eq_map fun v hv => (leafFor_spec h hv).1]
    simp only [bind, Except.bind, List.map_map]
    rfl
  · obtain ⟨sc, hs, _, _⟩ := hD.scope
    obtain ⟨f, hf⟩ := exists_circuitValue hD.layered.graded.acyclic (fun d : Leaf => leafDensity d (x d.var))
    obtain ⟨L, _, _, _, h4⟩ := C01_loglikelihood hD.layered hs hD.valid x hf m
    have hv := hD.value _ _ hf
    refine h4.trans (congrArg _ (hv.trans (congrArg _ (List.map_congr_left fun v hv => ?_))))
    obtain ⟨_, _, h3, h5⟩ := leafFor_spec h hv
    show leafDensity (d v) (x (d v).var) = _
    rw [h3, h5]

/-- The statement of C65 holds if the variance of every continuous variable is one. -/
theorem C65_unit_variances {mean variance : Var → ℝ} {vars : List Var} (h : FactorArgs ty symbols mean variance vars)
    (h1 : ∀ v ∈ vars, ty v = .continuous → variance v = 1) :
    ∃ g, fullyFactorized ty symbols (fun v => some (mean v)) (fun v => some (variance v)) vars = .ok g ∧
      ∀ x m, g.likelihood m x = .ok (vars.map fun v => factor ty symbols mean variance v (x v)).prod := by
  obtain ⟨g, hg, hl⟩ := C65_factorized_partial h
  refine ⟨g, hg, fun x m => (hl x m).trans (congrArg _ (congrArg _ (List.map_congr_left fun v hv => ?_)))⟩
  unfold factor
  cases hty : ty v <;> simp only
  rw [h1 v hv hty, one_pow]

/-- Integer variables are refused. -/
theorem C65_integer {vars : List Var} {v : Var} (hv : v ∈ vars) (hty : ty v = .integer) (g : Circuit) :
    fullyFactorized ty symbols means variances vars ≠ .ok g := by
  have key : ∀ l : List Var, v ∈ l → ∀ ds, l.mapM (factorLeaf ty symbols means variances) ≠ .ok ds := by
    intro l
    induction l with
    | nil => simp
    | cons a l ih =>
      intro hl ds hds
      rw [List.mapM_cons] at hds
      simp only [bind, Except.bind] at hds
      rcases List.mem_cons.1 hl with rfl | hl
      · simp [factorLeaf, hty] at hds
      · cases ha : factorLeaf ty symbols means variances a with
        | error e => simp [ha] at hds
        | ok b =>
          cases hm : l.mapM (factorLeaf ty symbols means variances) with
          | error e => simp [ha, hm] at hds
          | ok bs => exact ih hl bs hm
  intro hg
  unfold fullyFactorized at hg
  cases hm : vars.mapM (factorLeaf ty symbols means variances) with
  | error e => simp [hm, bind, Except.bind] at hg
  | ok bs => exact key vars hv bs hm

/-- Two continuous variables and a symbolic one. -/
example : ∃ g, fullyFactorized (fun v => if v = 2 then .symbolic else .continuous) (fun _ => [3, 5]) (fun v => some v)
    (fun v => some (v + 1)) [0, 1, 2] = .ok g ∧ ∀ x m, x 2 = 5 → g.likelihood m x =
      .ok (gaussianPDFReal 0 1 (x 0) * (gaussianPDFReal 1 4 (x 1) * (1 / 2))) := by
  obtain ⟨g, hg, hl⟩ := C65_factorized_partial (ty := fun v => if v = 2 then .symbolic else .continuous) (symbols := fun _ => [3, 5])
    (mean := fun v => v) (variance := fun v => v + 1) (vars := [0, 1, 2])
    ⟨by decide, fun v _ _ => by positivity, fun v _ _ => by simp, fun v _ => by split <;> simp⟩
  refine ⟨g, hg, fun x m hx => ?_⟩
  rw [hl]
  have h1 : Real.toNNReal 1 = 1 := by simp
  have h4 : Real.toNNReal ((1 + 1) ^ 2) = 4 := by
    rw [show ((1 : ℝ) + 1) ^ 2 = (4 : ℕ) by norm_num, Real.toNNReal_natCast]; rfl
  simp [factor, hx, h4]

/-- A variance of four becomes a variance of sixteen. -/
theorem C65_full_false : ¬ C65_full := by
  intro hf
  have hA : FactorArgs (fun _ => .continuous) (fun _ => []) (fun _ => 0) (fun _ => 4) [0] :=
    ⟨by decide, fun _ _ _ => by norm_num, fun _ _ h => (by cases h), fun _ _ => (by intro h; cases h)⟩
  obtain ⟨g, hg, hl⟩ := hf _ _ _ _ _ hA
  obtain ⟨g', hg', hl'⟩ := C65_factorized_partial hA
  rw [hg] at hg'
  injection hg' with hg'
  subst hg'
  have := (hl (fun _ => 0) freshMem).symm.trans (hl' (fun _ => 0) freshMem)
  injection this with this
  simp only [factor, List.map_cons, List.map_nil, List.prod_cons, List.prod_nil, mul_one, gaussianPDFReal] at this
  have e1 : ((Real.toNNReal 4 : NNReal) : ℝ) = 4 := Real.coe_toNNReal _ (by norm_num)
  have e2 : ((Real.toNNReal (4 ^ 2) : NNReal) : ℝ) = 4 ^ 2 := Real.coe_toNNReal _ (by norm_num)
  rw [e1, e2] at this
  simp only [sub_self, ne_eq, OfNat.ofNat_ne_zero, not_false_eq_true, zero_pow, neg_zero, zero_div, Real.exp_zero, mul_one] at this
  have h2 := inv_injective this
  rw [Real.sqrt_inj (by positivity) (by positivity)] at h2
  have := Real.pi_pos
  nlinarith

end PM.Props
