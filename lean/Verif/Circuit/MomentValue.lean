import Verif.Circuit.MomentLemmas
import Verif.Circuit.ValueLemmas

/-! Moments as circuit values, integrals over some of the variables; helper lemmas for C109. -/

namespace PM

open Spec Graph MeasureTheory Classical
open scoped ENNReal

variable {g : Circuit} {r : Node} {sc : Node → Finset Var}

theorem value_one_off (hw : g.WF) (ha : g.Acyclic) (hs : Scoped g sc) (hsn : NormalizedSums g) {v : Var}
    {ℓ : Leaf → ℝ} {f : Node → ℝ} (hf : CircuitValue g ℓ f)
    (hℓ : ∀ n d, g.kind? n = some (.leaf d) → d.var ≠ v → ℓ d = 1) : ∀ n, n ∈ g.ids → v ∉ sc n → f n = 1 := by
  refine ha.induct ?_
  intro n ih hn hv
  obtain ⟨k, hk⟩ := exists_kind? hn
  have hch : ∀ e ∈ g.outEdges n, v ∉ sc e.dst → f e.dst = 1 := fun e he =>
    ih _ (dst_mem_succ he) (succ_mem_ids hw (dst_mem_succ he))
  cases k with
  | leaf d =>
    rw [hf.leaf n d hk]
    refine hℓ n d hk fun h => hv ?_
    rw [hs.leaf n d hk, h]
    simp
  | sum =>
    rw [hf.sum n hk, ← hsn n hk]
    congr 1
    apply List.map_congr_left
    intro e he
    rw [hch e he (by rwa [hs.sum n hk _ (dst_mem_succ he)]), mul_one]
  | prod =>
    rw [hf.prod n hk]
    apply List.prod_eq_one
    intro y hy
    obtain ⟨e, he, rfl⟩ := List.mem_map.1 hy
    exact hch e he fun h => hv ((hs.prod n hk v).2 ⟨_, dst_mem_succ he, h⟩)

theorem prod_single_real (es : List Edge) (hdis : (es.map Edge.dst).Pairwise fun a b => Disjoint (sc a) (sc b))
    {v : Var} (f : Node → ℝ) (h1 : ∀ e ∈ es, v ∉ sc e.dst → f e.dst = 1) :
    (∀ e ∈ es, v ∈ sc e.dst → (es.map fun e => f e.dst).prod = f e.dst) := by
  induction es with
  | nil => simp
  | cons a es ih =>
    rw [List.map_cons, List.pairwise_cons] at hdis
    intro e he hv
    rw [List.map_cons, List.prod_cons]
    rcases List.mem_cons.1 he with rfl | he
    · rw [List.prod_eq_one, mul_one]
      intro y hy
      obtain ⟨b, hb, rfl⟩ := List.mem_map.1 hy
      exact h1 b (by simp [hb]) fun h => Finset.disjoint_left.1 (hdis.1 _ (List.mem_map.2 ⟨b, hb, rfl⟩)) hv h
    · rw [ih hdis.2 (fun b hb => h1 b (by simp [hb])) e he hv,
        h1 a (by simp) (fun h => Finset.disjoint_left.1 (hdis.1 _ (List.mem_map.2 ⟨e, he, rfl⟩)) h hv), one_mul]

/-- The moment of `v` is the value of the circuit with the moments of the leaves over `v` and one at the other leaves. -/
theorem moment_value (hL : Layered g r) (hs : Scoped g sc) (hdec : Decomposable g sc) (hsn : NormalizedSums g)
    {order : Var → Option ℕ} {center : Var → Option ℝ} {x : Leaf → ℝ}
    (hx : ∀ n d, g.kind? n = some (.leaf d) → d.momentMap order center = .ok (x d)) {f : Var → Node → ℝ}
    (hf : ∀ v, CircuitValue g (fun d => if d.var = v then x d else 1) (f v)) (m : Mem (Var → ℝ)) :
    (g.moment m order center).2 = .ok fun v => if v ∈ sc r then some (f v r) else none := by
  have hac := hL.graded.acyclic
  have hmean : g.Meaning (momentAlg (sc r) order center) r (fun n v => if v ∈ sc n then f v n else 0) := by
    intro n hreach
    have hmem := reachable_mem_ids hL.wf (root_mem hL.root).1 hreach
    have hdsts : ∀ e ∈ g.outEdges n, e.dst ∈ g.ids := fun e he => succ_mem_ids hL.wf (dst_mem_succ he)
    obtain ⟨k, hk⟩ := exists_kind? hmem
    cases k with
    | leaf d =>
      have hsub := scope_mono hL.wf hL.leaves hs (root_mem hL.root).1 hreach
      have hdv : d.var ∈ sc r := hsub (by rw [hs.leaf n d hk]; simp)
      simp only [evalUnit, hk, momentAlg, hx n d hk]
      change (if d.var ∈ sc r then Except.ok _ else _) = _
      rw [if_pos hdv]
      congr 1
      funext v
      rw [hs.leaf n d hk, (hf v).leaf n d hk]
      by_cases h : v = d.var
      · subst h
        simp
      · simp [h]
    | sum =>
      simp only [evalUnit, hk]
      rw [mapM_readWeight_ok (hL.weighted n hk), mapM_readResult_ok
        (val := fun n v => if v ∈ sc n then f v n else 0) (fun c _ => rfl)]
      change Except.ok _ = _
      congr 1
      funext v
      rw [zip_map_out g n (fun n v => if v ∈ sc n then f v n else 0), List.map_map]
      have hch : ∀ e ∈ g.outEdges n, sc e.dst = sc n := fun e he => hs.sum n hk _ (dst_mem_succ he)
      by_cases h : v ∈ sc n
      · rw [if_pos h, (hf v).sum n hk]
        congr 1
        apply List.map_congr_left
        intro e he
        simp [log_exp_getD (hL.weighted n hk e he), hch e he, h]
      · rw [if_neg h]
        apply List.sum_eq_zero
        intro y hy
        obtain ⟨e, he, rfl⟩ := List.mem_map.1 hy
        simp [hch e he, h]
    | prod =>
      simp only [evalUnit, hk]
      rw [mapM_readResult_ok (val := fun n v => if v ∈ sc n then f v n else 0) (fun c _ => rfl)]
      change Except.ok _ = _
      congr 1
      funext v
      have hshape : (((g.succ n).map fun n v => if v ∈ sc n then f v n else 0).map fun f => f v)
          = (g.outEdges n).map fun e => if v ∈ sc e.dst then f v e.dst else 0 := by
        simp [succ, Function.comp_def]
      rw [hshape]
      by_cases h : v ∈ sc n
      · rw [if_pos h]
        obtain ⟨c, hc, hvc⟩ := (hs.prod n hk v).1 h
        obtain ⟨e, he, rfl⟩ := List.mem_map.1 hc
        rw [sum_single (sc := sc) _ (hdec n hk) (f v) e he hvc, (hf v).prod n hk,
          prod_single_real (sc := sc) _ (hdec n hk) (f v)
            (fun e he => value_one_off hL.wf hac hs hsn (hf v) (fun n d _ h => if_neg h) _ (hdsts e he)) e he hvc]
      · rw [if_neg h]
        apply List.sum_eq_zero
        intro y hy
        obtain ⟨e, he, rfl⟩ := List.mem_map.1 hy
        rw [if_neg (fun h' => h ((hs.prod n hk v).2 ⟨_, dst_mem_succ he, h'⟩))]
  obtain ⟨hq, -⟩ := query_eq_meaning hL.wf hL.graded hL.root hmean m
  simp only [Graph.moment, circuitVars_eq hL.wf hac hs hL.root, hq]
  show Except.ok _ = Except.ok _
  congr 1
  funext v
  by_cases h : v ∈ sc r <;> simp [h]

/-! ### Integrals over some of the variables -/

theorem lmarginal_of_dirac (μ : Var → Measure ℝ) [∀ v, SigmaFinite (μ v)] (x : Var → ℝ) : ∀ (s : Finset Var),
    (∀ v ∈ s, μ v = Measure.dirac (x v)) → ∀ f : (Var → ℝ) → ℝ≥0∞, Measurable f → ∀ y : Var → ℝ, (∀ v, v ∉ s → y v = x v) →
      (∫⋯∫⁻_s, f ∂μ) y = f x := by
  intro s
  induction s using Finset.induction_on with
  | empty =>
    intro _ f _ y hy
    rw [lmarginal_empty, show y = x from funext fun v => hy v (by simp)]
  | insert a s ha ih =>
    intro hμ f hf y hy
    rw [lmarginal_insert f hf ha, hμ a (by simp), lintegral_dirac]
    refine ih (fun v hv => hμ v (by simp [hv])) f hf _ fun v hv => ?_
    by_cases h : v = a
    · subst h
      simp
    · rw [Function.update_of_ne h, hy v (by simp [h, hv])]

theorem lmarginal_congr_measure {μ ν : Var → Measure ℝ} {s : Finset Var} (h : ∀ v ∈ s, μ v = ν v) (f : (Var → ℝ) → ℝ≥0∞) :
    (∫⋯∫⁻_s, f ∂μ) = ∫⋯∫⁻_s, f ∂ν := by
  unfold lmarginal
  have : (fun i : s => μ i) = fun i : s => ν i := funext fun i => h i i.2
  rw [this]

/-- Integrating the value over the variables outside `W` means integrating the leaves over these variables. -/
theorem lmarginal_off {μ : Var → Measure ℝ} [∀ v, SigmaFinite (μ v)] (hw : g.WF) (ha : g.Acyclic) (hs : Scoped g sc)
    (hdec : Decomposable g sc) {ψ : Leaf → ℝ → ℝ≥0∞} (hψ : ∀ d, Measurable (ψ d))
    {F : (Var → ℝ) → Node → ℝ≥0∞} (hF : ∀ x, ECircuitValue g (fun d => ψ d (x d.var)) (F x)) (W : Finset Var) (x : Var → ℝ)
    {G : Node → ℝ≥0∞} (hG : ECircuitValue g (fun d => if d.var ∈ W then ψ d (x d.var) else ∫⁻ t, ψ d t ∂μ d.var) G)
    {n : Node} (hn : n ∈ g.ids) : (∫⋯∫⁻_(sc n \ W), (fun y => F y n) ∂μ) x = G n := by
  let ν : Var → Measure ℝ := fun v => if v ∈ W then Measure.dirac (x v) else μ v
  have hν : ∀ v, SigmaFinite (ν v) := fun v => by
    by_cases h : v ∈ W
    · simp only [ν, h, if_true]; infer_instance
    · simp only [ν, h, if_false]; infer_instance
  have hG' : ECircuitValue g (fun d => ∫⁻ t, ψ d t ∂ν d.var) G := ecv_congr hG fun n d _ => by
    by_cases h : d.var ∈ W
    · simp only [ν, h, if_true]
      rw [lintegral_dirac' _ (hψ d)]
    · simp only [ν, h, if_false]
  have h1 := lmarginal_ecv (μ := ν) hw ha hs hdec hψ hF hG' n hn
  have hm := ecv_measurable hw ha hψ hF n hn
  have hsplit : sc n = (sc n ∩ W) ∪ (sc n \ W) := by
    ext v
    simp only [Finset.mem_union, Finset.mem_inter, Finset.mem_sdiff]
    tauto
  rw [hsplit, lmarginal_union ν _ hm (Finset.disjoint_left.2 fun v h h' => (Finset.mem_sdiff.1 h').2 (Finset.mem_inter.1 h).2)] at h1
  have h2 := congrFun h1 x
  rw [lmarginal_of_dirac ν x _ (fun v hv => if_pos (Finset.mem_inter.1 hv).2) _ (hm.lmarginal ν) x fun _ _ => rfl,
    lmarginal_congr_measure (ν := μ) fun v hv => if_neg (Finset.mem_sdiff.1 hv).2] at h2
  exact h2

end PM
