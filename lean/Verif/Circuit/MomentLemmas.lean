import Verif.Circuit.Moment
import Verif.Circuit.ProbLemmas
import Verif.Dist.MomentLemmas
import Verif.Spec.Expectation

/-! Helper lemmas for the moments of circuits. -/

set_option linter.unusedSectionVars false

namespace PM

open Spec Graph MeasureTheory Classical
open scoped ENNReal

variable {g : Circuit} {r : Node} {sc : Node → Finset Var}

/-- In a list of subcircuits with disjoint scopes, changing the factor of the one with `v` in its scope. -/
theorem prod_one_changed (es : List Edge) (hdis : (es.map Edge.dst).Pairwise fun a b => Disjoint (sc a) (sc b))
    {v : Var} (F : Node → ℝ≥0∞) (q : ℝ≥0∞) (hv : ∃ e ∈ es, v ∈ sc e.dst) :
    (es.map fun e => if v ∈ sc e.dst then F e.dst * q else F e.dst).prod = (es.map fun e => F e.dst).prod * q := by
  induction es with
  | nil => simp at hv
  | cons e es ih =>
    rw [List.map_cons, List.pairwise_cons] at hdis
    simp only [List.map_cons, List.prod_cons]
    by_cases he : v ∈ sc e.dst
    · rw [if_pos he]
      have : (es.map fun e => if v ∈ sc e.dst then F e.dst * q else F e.dst) = es.map fun e => F e.dst := by
        apply List.map_congr_left
        intro e' he'
        rw [if_neg (fun h => Finset.disjoint_left.1 (hdis.1 _ (List.mem_map.2 ⟨e', he', rfl⟩)) he h)]
      rw [this]
      ring
    · rw [if_neg he]
      obtain ⟨e', he', hve'⟩ := hv
      rcases List.mem_cons.1 he' with rfl | he'
      · exact absurd hve' he
      · rw [ih hdis.2 ⟨e', he', hve'⟩]
        ring

/-- Multiplying the density of every leaf over `v` by `q (x v)` multiplies the density of every unit with `v` in its
scope. -/
theorem ecv_mul (hs : Scoped g sc) (hdec : Decomposable g sc) {ψ : Leaf → ℝ → ℝ≥0∞} (v : Var) (q : ℝ → ℝ≥0∞)
    (x : Var → ℝ) {F : Node → ℝ≥0∞} (hF : ECircuitValue g (fun d => ψ d (x d.var)) F) :
    ECircuitValue g (fun d => (fun t => if d.var = v then ψ d t * q t else ψ d t) (x d.var))
      (fun n => if v ∈ sc n then F n * q (x v) else F n) := by
  refine ⟨fun n d hk => ?_, fun n hk => ?_, fun n hk => ?_⟩
  · simp only [hs.leaf n d hk, Finset.mem_singleton, hF.leaf n d hk]
    by_cases h : d.var = v
    · subst h
      simp
    · rw [if_neg (fun h' => h h'.symm), if_neg h]
  · by_cases h : v ∈ sc n
    · rw [if_pos h, hF.sum n hk, ← List.sum_map_mul_right]
      congr 1
      apply List.map_congr_left
      intro e he
      rw [if_pos (by rw [hs.sum n hk _ (dst_mem_succ he)]; exact h), mul_assoc]
    · rw [if_neg h, hF.sum n hk]
      congr 1
      apply List.map_congr_left
      intro e he
      rw [if_neg (by rw [hs.sum n hk _ (dst_mem_succ he)]; exact h)]
  · by_cases h : v ∈ sc n
    · rw [if_pos h, hF.prod n hk]
      obtain ⟨c, hc, hvc⟩ := (hs.prod n hk v).1 h
      obtain ⟨e, he, rfl⟩ := List.mem_map.1 hc
      exact (prod_one_changed (sc := sc) (g.outEdges n) (hdec n hk) F (q (x v)) ⟨e, he, hvc⟩).symm
    · rw [if_neg h, hF.prod n hk]
      congr 1
      apply List.map_congr_left
      intro e he
      rw [if_neg (fun h' => h ((hs.prod n hk v).2 ⟨_, dst_mem_succ he, h'⟩))]

/-- A circuit value with finite leaf values is finite. -/
theorem ecv_ne_top (hw : g.WF) (ha : g.Acyclic) {ℓ : Leaf → ℝ≥0∞} {F : Node → ℝ≥0∞} (hF : ECircuitValue g ℓ F)
    (hℓ : ∀ n d, g.kind? n = some (.leaf d) → ℓ d ≠ ⊤) : ∀ n, n ∈ g.ids → F n ≠ ⊤ := by
  refine ha.induct ?_
  intro n ih hn
  obtain ⟨k, hk⟩ := exists_kind? hn
  have hch : ∀ e ∈ g.outEdges n, F e.dst ≠ ⊤ := fun e he =>
    ih _ (dst_mem_succ he) (succ_mem_ids hw (dst_mem_succ he))
  cases k with
  | leaf d => rw [hF.leaf n d hk]; exact hℓ n d hk
  | sum =>
    rw [hF.sum n hk]
    generalize g.outEdges n = l at hch
    induction l with
    | nil => simp
    | cons e l ihl =>
      rw [List.map_cons, List.sum_cons]
      exact ENNReal.add_ne_top.2 ⟨ENNReal.mul_ne_top (by simp) (hch e (by simp)),
        ihl (fun e' he' => hch e' (by simp [he']))⟩
  | prod =>
    rw [hF.prod n hk]
    generalize g.outEdges n = l at hch
    induction l with
    | nil => simp
    | cons e l ihl =>
      rw [List.map_cons, List.prod_cons]
      exact ENNReal.mul_ne_top (hch e (by simp)) (ihl (fun e' he' => hch e' (by simp [he'])))

theorem sum_ofReal_linWeight (hsn : NormalizedSums g) {n : Node} (hk : g.kind? n = some .sum) :
    ((g.outEdges n).map fun e => ENNReal.ofReal (linWeight e)).sum = 1 := by
  rw [← ofReal_list_sum _ linWeight (fun e _ => linWeight_nonneg e), hsn n hk, ENNReal.ofReal_one]

/-- A unit without `v` in its scope has value one if the leaves over other variables have. -/
theorem ecv_one_off (hw : g.WF) (ha : g.Acyclic) (hs : Scoped g sc) (hsn : NormalizedSums g) {v : Var}
    {ℓ : Leaf → ℝ≥0∞} {F : Node → ℝ≥0∞} (hF : ECircuitValue g ℓ F)
    (hℓ : ∀ n d, g.kind? n = some (.leaf d) → d.var ≠ v → ℓ d = 1) : ∀ n, n ∈ g.ids → v ∉ sc n → F n = 1 := by
  refine ha.induct ?_
  intro n ih hn hv
  obtain ⟨k, hk⟩ := exists_kind? hn
  have hch : ∀ e ∈ g.outEdges n, v ∉ sc e.dst → F e.dst = 1 := fun e he =>
    ih _ (dst_mem_succ he) (succ_mem_ids hw (dst_mem_succ he))
  cases k with
  | leaf d =>
    rw [hF.leaf n d hk]
    refine hℓ n d hk (fun h => hv ?_)
    rw [hs.leaf n d hk, h]
    simp
  | sum =>
    rw [hF.sum n hk, ← sum_ofReal_linWeight hsn hk]
    congr 1
    apply List.map_congr_left
    intro e he
    rw [hch e he (by rw [hs.sum n hk _ (dst_mem_succ he)]; exact hv), mul_one]
  | prod =>
    rw [hF.prod n hk]
    apply List.prod_eq_one
    intro y hy
    obtain ⟨e, he, rfl⟩ := List.mem_map.1 hy
    exact hch e he (fun h => hv ((hs.prod n hk v).2 ⟨_, dst_mem_succ he, h⟩))

theorem toReal_list_sum (es : List Edge) (F : Node → ℝ≥0∞) (hF : ∀ e ∈ es, F e.dst ≠ ⊤) :
    ((es.map fun e => ENNReal.ofReal (linWeight e) * F e.dst).sum).toReal
      = (es.map fun e => linWeight e * (F e.dst).toReal).sum := by
  induction es with
  | nil => simp
  | cons e l ih =>
    have h2 : (l.map fun e => ENNReal.ofReal (linWeight e) * F e.dst).sum ≠ ⊤ := by
      clear ih
      induction l with
      | nil => simp
      | cons e' l ihl =>
        rw [List.map_cons, List.sum_cons]
        exact ENNReal.add_ne_top.2 ⟨ENNReal.mul_ne_top (by simp) (hF e' (by simp)),
          ihl (fun e'' he'' => hF e'' (by
            rcases List.mem_cons.1 he'' with h | h
            · simp [h]
            · simp [h]))⟩
    rw [List.map_cons, List.sum_cons, List.map_cons, List.sum_cons,
      ENNReal.toReal_add (ENNReal.mul_ne_top (by simp) (hF e (by simp))) h2, ENNReal.toReal_mul,
      ENNReal.toReal_ofReal (linWeight_nonneg e), ih (fun e' he' => hF e' (by simp [he']))]

theorem list_sum_map_sub {α : Type} (l : List α) (a b : α → ℝ) :
    (l.map fun e => a e - b e).sum = (l.map a).sum - (l.map b).sum := by
  induction l with
  | nil => simp
  | cons e l ih =>
    simp only [List.map_cons, List.sum_cons, ih]
    ring

/-- The single factor with `v` in its scope. -/
theorem prod_single (es : List Edge) (hdis : (es.map Edge.dst).Pairwise fun a b => Disjoint (sc a) (sc b))
    {v : Var} (F : Node → ℝ≥0∞) (h1 : ∀ e ∈ es, v ∉ sc e.dst → F e.dst = 1) :
    (∀ e ∈ es, v ∈ sc e.dst → (es.map fun e => F e.dst).prod = F e.dst) := by
  induction es with
  | nil => simp
  | cons a es ih =>
    rw [List.map_cons, List.pairwise_cons] at hdis
    intro e he hv
    rw [List.map_cons, List.prod_cons]
    rcases List.mem_cons.1 he with rfl | he
    · have : (es.map fun e => F e.dst).prod = 1 := by
        apply List.prod_eq_one
        intro y hy
        obtain ⟨e', he', rfl⟩ := List.mem_map.1 hy
        exact h1 e' (by simp [he'])
          (fun h => Finset.disjoint_left.1 (hdis.1 _ (List.mem_map.2 ⟨e', he', rfl⟩)) hv h)
      rw [this, mul_one]
    · rw [ih hdis.2 (fun e' he' => h1 e' (by simp [he'])) e he hv,
        h1 a (by simp) (fun h => Finset.disjoint_left.1 (hdis.1 _ (List.mem_map.2 ⟨e, he, rfl⟩)) h hv), one_mul]

/-- The single summand with `v` in its scope. -/
theorem sum_single (es : List Edge) (hdis : (es.map Edge.dst).Pairwise fun a b => Disjoint (sc a) (sc b))
    {v : Var} (x : Node → ℝ) :
    (∀ e ∈ es, v ∈ sc e.dst → (es.map fun e => if v ∈ sc e.dst then x e.dst else 0).sum = x e.dst) := by
  induction es with
  | nil => simp
  | cons a es ih =>
    rw [List.map_cons, List.pairwise_cons] at hdis
    intro e he hv
    rw [List.map_cons, List.sum_cons]
    rcases List.mem_cons.1 he with rfl | he
    · have : (es.map fun e => if v ∈ sc e.dst then x e.dst else 0).sum = 0 := by
        apply List.sum_eq_zero
        intro y hy
        obtain ⟨e', he', rfl⟩ := List.mem_map.1 hy
        rw [if_neg (fun h => Finset.disjoint_left.1 (hdis.1 _ (List.mem_map.2 ⟨e', he', rfl⟩)) hv h)]
      rw [this, if_pos hv, add_zero]
    · rw [ih hdis.2 e he hv,
        if_neg (fun h => Finset.disjoint_left.1 (hdis.1 _ (List.mem_map.2 ⟨e, he, rfl⟩)) h hv), zero_add]

/-- The moment pass computes the difference of two non-negative circuit values. -/
theorem moment_meaning (hL : Layered g r) (hs : Scoped g sc) (hdec : Decomposable g sc) (hsn : NormalizedSums g)
    {order : Var → Option ℕ} {center : Var → Option ℝ} {ℓp ℓn : Var → Leaf → ℝ≥0∞} {Ep En : Var → Node → ℝ≥0∞}
    (hEp : ∀ v, ECircuitValue g (ℓp v) (Ep v)) (hEn : ∀ v, ECircuitValue g (ℓn v) (En v))
    (hp : ∀ v n d, g.kind? n = some (.leaf d) → ℓp v d ≠ ⊤) (hn : ∀ v n d, g.kind? n = some (.leaf d) → ℓn v d ≠ ⊤)
    (hp1 : ∀ v n d, g.kind? n = some (.leaf d) → d.var ≠ v → ℓp v d = 1)
    (hn1 : ∀ v n d, g.kind? n = some (.leaf d) → d.var ≠ v → ℓn v d = 1)
    (hm : ∀ n d, g.kind? n = some (.leaf d) →
      d.momentMap order center = .ok ((ℓp d.var d).toReal - (ℓn d.var d).toReal)) :
    g.Meaning (momentAlg (sc r) order center) r
      (fun n v => if v ∈ sc n then (Ep v n).toReal - (En v n).toReal else 0) := by
  intro n hreach
  have hmem := reachable_mem_ids hL.wf (root_mem hL.root).1 hreach
  have hdsts : ∀ e ∈ g.outEdges n, e.dst ∈ g.ids := fun e he => succ_mem_ids hL.wf (dst_mem_succ he)
  have hac := hL.graded.acyclic
  obtain ⟨k, hk⟩ := exists_kind? hmem
  cases k with
  | leaf d =>
    have hsub := scope_mono hL.wf hL.leaves hs (root_mem hL.root).1 hreach
    have hdv : d.var ∈ sc r := hsub (by rw [hs.leaf n d hk]; simp)
    simp only [evalUnit, hk, momentAlg, hm n d hk]
    change (if d.var ∈ sc r then Except.ok _ else _) = _
    rw [if_pos hdv]
    congr 1
    funext v
    rw [hs.leaf n d hk, (hEp v).leaf n d hk, (hEn v).leaf n d hk]
    by_cases h : v = d.var
    · subst h
      simp
    · simp [h]
  | sum =>
    simp only [evalUnit, hk]
    rw [mapM_readWeight_ok (hL.weighted n hk), mapM_readResult_ok
      (val := fun n v => if v ∈ sc n then (Ep v n).toReal - (En v n).toReal else 0) (fun c _ => rfl)]
    change Except.ok _ = _
    congr 1
    funext v
    rw [zip_map_out g n (fun n v => if v ∈ sc n then (Ep v n).toReal - (En v n).toReal else 0), List.map_map]
    have hch : ∀ e ∈ g.outEdges n, sc e.dst = sc n := fun e he => hs.sum n hk _ (dst_mem_succ he)
    by_cases h : v ∈ sc n
    · rw [if_pos h, (hEp v).sum n hk, (hEn v).sum n hk,
        toReal_list_sum _ _ (fun e he => ecv_ne_top hL.wf hac (hEp v) (hp v) _ (hdsts e he)),
        toReal_list_sum _ _ (fun e he => ecv_ne_top hL.wf hac (hEn v) (hn v) _ (hdsts e he)),
        ← list_sum_map_sub]
      congr 1
      apply List.map_congr_left
      intro e he
      simp [log_exp_getD (hL.weighted n hk e he), hch e he, h, mul_sub]
    · rw [if_neg h]
      apply List.sum_eq_zero
      intro y hy
      obtain ⟨e, he, rfl⟩ := List.mem_map.1 hy
      simp [hch e he, h]
  | prod =>
    simp only [evalUnit, hk]
    rw [mapM_readResult_ok
      (val := fun n v => if v ∈ sc n then (Ep v n).toReal - (En v n).toReal else 0) (fun c _ => rfl)]
    change Except.ok _ = _
    congr 1
    funext v
    have hshape : (((g.succ n).map fun n v => if v ∈ sc n then (Ep v n).toReal - (En v n).toReal else 0).map
        fun f => f v) = (g.outEdges n).map fun e => if v ∈ sc e.dst then (Ep v e.dst).toReal - (En v e.dst).toReal
          else 0 := by
      simp [succ, Function.comp_def]
    rw [hshape]
    by_cases h : v ∈ sc n
    · rw [if_pos h]
      obtain ⟨c, hc, hvc⟩ := (hs.prod n hk v).1 h
      obtain ⟨e, he, rfl⟩ := List.mem_map.1 hc
      rw [sum_single (sc := sc) _ (hdec n hk) (fun n => (Ep v n).toReal - (En v n).toReal) e he hvc,
        (hEp v).prod n hk, (hEn v).prod n hk,
        prod_single (sc := sc) _ (hdec n hk) (Ep v)
          (fun e he => ecv_one_off hL.wf hac hs hsn (hEp v) (hp1 v) _ (hdsts e he)) e he hvc,
        prod_single (sc := sc) _ (hdec n hk) (En v)
          (fun e he => ecv_one_off hL.wf hac hs hsn (hEn v) (hn1 v) _ (hdsts e he)) e he hvc]
    · rw [if_neg h]
      apply List.sum_eq_zero
      intro y hy
      obtain ⟨e, he, rfl⟩ := List.mem_map.1 hy
      rw [if_neg (fun h' => h ((hs.prod n hk v).2 ⟨_, dst_mem_succ he, h'⟩))]

/-- Integral of a product with a power as the difference of two marginal integrals. -/
theorem integral_ecv_mul {μ : Var → Measure ℝ} [∀ v, SigmaFinite (μ v)] (hw : g.WF) (ha : g.Acyclic)
    (hs : Scoped g sc) (hdec : Decomposable g sc)
    {φ : Leaf → ℝ → ℝ} (hφ : ∀ d, Measurable (φ d)) (hφ0 : ∀ n d, g.kind? n = some (.leaf d) → ∀ t, 0 ≤ φ d t)
    {f : (Var → ℝ) → Node → ℝ} (hf : ∀ x, CircuitValue g (fun d => φ d (x d.var)) (f x))
    {v : Var} {q : ℝ → ℝ} (hq : Measurable q) {Ep En : Node → ℝ≥0∞}
    (hEp : ECircuitValue g (fun d => ∫⁻ t, (if d.var = v then ENNReal.ofReal (φ d t) * ENNReal.ofReal (q t)
      else ENNReal.ofReal (φ d t)) ∂μ d.var) Ep)
    (hEn : ECircuitValue g (fun d => ∫⁻ t, (if d.var = v then ENNReal.ofReal (φ d t) * ENNReal.ofReal (-q t)
      else ENNReal.ofReal (φ d t)) ∂μ d.var) En)
    {n : Node} (hn : n ∈ g.ids) (hv : v ∈ sc n) (hp : Ep n ≠ ⊤) (hnn : En n ≠ ⊤) :
    HasExpectOver μ (sc n) (fun x => f x n * q (x v)) ∧
      expectOver μ (sc n) (fun x => f x n * q (x v)) = (Ep n).toReal - (En n).toReal := by
  have hF : ∀ x, ECircuitValue g (fun d => ENNReal.ofReal (φ d (x d.var))) (fun n => ENNReal.ofReal (f x n)) :=
    fun x => ecv_ofReal hw ha (hf x) (fun n d hk => hφ0 n d hk _)
  have hf0 : ∀ x m, m ∈ g.ids → 0 ≤ f x m := fun x m hm => circuitValue_nonneg hw ha (hf x)
    (fun n d hk => hφ0 n d hk _) m hm
  have hψ : ∀ (q' : ℝ → ℝ), Measurable q' → ∀ d : Leaf, Measurable fun t =>
      if d.var = v then ENNReal.ofReal (φ d t) * ENNReal.ofReal (q' t) else ENNReal.ofReal (φ d t) := by
    intro q' hq' d
    by_cases h : d.var = v
    · simp only [h, if_true]
      exact ((hφ d).ennreal_ofReal).mul hq'.ennreal_ofReal
    · simp only [h, if_false]
      exact (hφ d).ennreal_ofReal
  have hfm : Measurable fun x => f x n := by
    have := ecv_measurable hw ha (ψ := fun d t => ENNReal.ofReal (φ d t)) (fun d => (hφ d).ennreal_ofReal) hF n hn
    have h2 : (fun x => f x n) = fun x => (ENNReal.ofReal (f x n)).toReal := by
      funext x
      rw [ENNReal.toReal_ofReal (hf0 x n hn)]
    rw [h2]
    exact this.ennreal_toReal
  have key : ∀ (q' : ℝ → ℝ), Measurable q' → ∀ {E : Node → ℝ≥0∞},
      ECircuitValue g (fun d => ∫⁻ t, (if d.var = v then ENNReal.ofReal (φ d t) * ENNReal.ofReal (q' t)
        else ENNReal.ofReal (φ d t)) ∂μ d.var) E →
      ∫⁻ y : (∀ _ : sc n, ℝ), ENNReal.ofReal (f (Function.updateFinset 0 (sc n) y) n
        * q' (Function.updateFinset (0 : Var → ℝ) (sc n) y v)) ∂(Measure.pi fun u : sc n => μ u) = E n := by
    intro q' hq' E hE
    have h3 := lmarginal_ecv (μ := μ) hw ha hs hdec (hψ q' hq')
      (fun x => ecv_mul (ψ := fun d t => ENNReal.ofReal (φ d t)) hs hdec v (fun t => ENNReal.ofReal (q' t)) x (hF x))
      hE n hn
    have h4 := congrFun h3 0
    rw [lmarginal] at h4
    rw [← h4]
    refine lintegral_congr fun y => ?_
    rw [if_pos hv, ENNReal.ofReal_mul (hf0 _ n hn)]
  have hmeas : Measurable fun y : (∀ _ : sc n, ℝ) => f (Function.updateFinset 0 (sc n) y) n
      * q (Function.updateFinset (0 : Var → ℝ) (sc n) y v) := by
    have hu : Measurable fun y : (∀ _ : sc n, ℝ) => Function.updateFinset (0 : Var → ℝ) (sc n) y :=
      measurable_updateFinset
    exact (hfm.comp hu).mul (hq.comp ((measurable_pi_apply v).comp hu))
  have kp := key q hq hEp
  have kn := key (fun t => -q t) hq.neg hEn
  simp only [mul_neg] at kn
  have hint : HasExpectOver μ (sc n) (fun x => f x n * q (x v)) := by
    refine ⟨hmeas.aestronglyMeasurable, ?_⟩
    have e : ∀ y : (∀ _ : sc n, ℝ), ‖f (Function.updateFinset 0 (sc n) y) n
        * q (Function.updateFinset (0 : Var → ℝ) (sc n) y v)‖ₑ
        = ENNReal.ofReal (f (Function.updateFinset 0 (sc n) y) n * q (Function.updateFinset (0 : Var → ℝ) (sc n) y v))
          + ENNReal.ofReal (-(f (Function.updateFinset 0 (sc n) y) n
            * q (Function.updateFinset (0 : Var → ℝ) (sc n) y v))) := by
      intro y
      rw [Real.enorm_eq_ofReal_abs]
      generalize f (Function.updateFinset 0 (sc n) y) n * q (Function.updateFinset (0 : Var → ℝ) (sc n) y v) = z
      rcases le_total 0 z with hz | hz
      · rw [abs_of_nonneg hz, ENNReal.ofReal_of_nonpos (by linarith : -z ≤ 0), add_zero]
      · rw [abs_of_nonpos hz, ENNReal.ofReal_of_nonpos hz, zero_add]
    rw [HasFiniteIntegral]
    simp only [e]
    rw [lintegral_add_left hmeas.ennreal_ofReal, kp, kn]
    exact ENNReal.add_lt_top.2 ⟨lt_top_iff_ne_top.2 hp, lt_top_iff_ne_top.2 hnn⟩
  refine ⟨hint, ?_⟩
  rw [expectOver, integral_eq_lintegral_pos_part_sub_lintegral_neg_part hint, kp, kn]

end PM
