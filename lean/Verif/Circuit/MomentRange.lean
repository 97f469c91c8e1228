import Verif.Circuit.MomentMix
import Verif.Circuit.BatchLemmas
import Verif.Dist.MomentLemmas
import Verif.Spec.Evidence

/-! Helper lemmas: bounds for the moments of one variable. -/

namespace PM
open Spec Graph MeasureTheory Classical

variable {g : Circuit} {r : Node} {sc : Node → Finset Var}

theorem value_between_var (hw : g.WF) (ha : g.Acyclic) (hs : Scoped g sc) (hdec : Decomposable g sc) (hsn : NormalizedSums g) {v : Var}
    {x : Leaf → ℝ} {F : Node → ℝ} (hF : CircuitValue g x F) (hx1 : ∀ n d, g.kind? n = some (.leaf d) → d.var ≠ v → x d = 1) {a b : ℝ}
    (hx : ∀ n d, g.kind? n = some (.leaf d) → d.var = v → a ≤ x d ∧ x d ≤ b) :
    ∀ n, n ∈ g.ids → v ∈ sc n → a ≤ F n ∧ F n ≤ b := by
  refine ha.induct ?_
  intro n ih hn hv
  obtain ⟨t, hk⟩ := exists_kind? hn
  have hch : ∀ e ∈ g.outEdges n, v ∈ sc e.dst → a ≤ F e.dst ∧ F e.dst ≤ b := fun e he =>
    ih _ (dst_mem_succ he) (succ_mem_ids hw (dst_mem_succ he))
  cases t with
  | leaf d =>
    rw [hs.leaf n d hk, Finset.mem_singleton] at hv
    rw [hF.leaf n d hk]
    exact hx n d hk hv.symm
  | sum =>
    rw [hF.sum n hk]
    exact mix_between (hsn n hk) fun e he => hch e he (by rwa [hs.sum n hk _ (dst_mem_succ he)])
  | prod =>
    obtain ⟨c, hc, hvc⟩ := (hs.prod n hk v).1 hv
    obtain ⟨e, he, rfl⟩ : ∃ e ∈ g.outEdges n, e.dst = c := by simpa [succ, List.mem_map] using hc
    have hd : ((g.outEdges n).map Edge.dst).Pairwise fun a b => Disjoint (sc a) (sc b) := hdec n hk
    rw [hF.prod n hk, prod_single_real _ hd F (fun e he h => value_one_off hw ha hs hsn hF hx1 _ (succ_mem_ids hw (dst_mem_succ he)) h) e he hvc]
    exact hch e he hvc

/-- If the values of two circuits over the leaves of `v` are related by an affine bound, so are the values of the circuits. -/
theorem value_affine_var (hw : g.WF) (ha : g.Acyclic) (hs : Scoped g sc) (hdec : Decomposable g sc) (hsn : NormalizedSums g) {v : Var}
    {x y : Leaf → ℝ} {F G : Node → ℝ} (hF : CircuitValue g x F) (hG : CircuitValue g y G)
    (hx1 : ∀ n d, g.kind? n = some (.leaf d) → d.var ≠ v → x d = 1) (hy1 : ∀ n d, g.kind? n = some (.leaf d) → d.var ≠ v → y d = 1) {a b : ℝ}
    (hxy : ∀ n d, g.kind? n = some (.leaf d) → d.var = v → y d ≤ a * x d + b) :
    ∀ n, n ∈ g.ids → v ∈ sc n → G n ≤ a * F n + b := by
  refine ha.induct ?_
  intro n ih hn hv
  obtain ⟨t, hk⟩ := exists_kind? hn
  have hch : ∀ e ∈ g.outEdges n, v ∈ sc e.dst → G e.dst ≤ a * F e.dst + b := fun e he =>
    ih _ (dst_mem_succ he) (succ_mem_ids hw (dst_mem_succ he))
  cases t with
  | leaf d =>
    rw [hs.leaf n d hk, Finset.mem_singleton] at hv
    rw [hF.leaf n d hk, hG.leaf n d hk]
    exact hxy n d hk hv.symm
  | sum =>
    rw [hF.sum n hk, hG.sum n hk]
    have h1 : ((g.outEdges n).map linWeight).sum = 1 := hsn n hk
    have : a * ((g.outEdges n).map fun e => linWeight e * F e.dst).sum + b =
        ((g.outEdges n).map fun e => linWeight e * (a * F e.dst + b)).sum := by
      rw [← List.sum_map_mul_left]
      conv_lhs => rw [← one_mul b, ← h1, ← List.sum_map_mul_right, ← List.sum_map_add]
      congr 1
      apply List.map_congr_left
      intro e _
      ring
    rw [this]
    exact List.sum_le_sum fun e he =>
      mul_le_mul_of_nonneg_left (hch e he (by rwa [hs.sum n hk _ (dst_mem_succ he)])) (linWeight_nonneg e)
  | prod =>
    obtain ⟨c, hc, hvc⟩ := (hs.prod n hk v).1 hv
    obtain ⟨e, he, rfl⟩ : ∃ e ∈ g.outEdges n, e.dst = c := by simpa [succ, List.mem_map] using hc
    have hd : ((g.outEdges n).map Edge.dst).Pairwise fun a b => Disjoint (sc a) (sc b) := hdec n hk
    rw [hF.prod n hk, prod_single_real _ hd F (fun e he h => value_one_off hw ha hs hsn hF hx1 _ (succ_mem_ids hw (dst_mem_succ he)) h) e he hvc,
      hG.prod n hk, prod_single_real _ hd G (fun e he h => value_one_off hw ha hs hsn hG hy1 _ (succ_mem_ids hw (dst_mem_succ he)) h) e he hvc]
    exact hch e he hvc

/-- Moments are values of the circuit, and every leaf has the moment it needs. -/
theorem moment_values {dom : Var → VSet} (hM : EvidenceModel g r sc dom) (hnum : ∀ n d, g.kind? n = some (.leaf d) → ∀ v p, d ≠ .symbolic v p)
    {order : Var → Option ℕ} {center : Var → Option ℝ} {k : Var → ℕ} {c : Var → ℝ} (hord : ∀ w ∈ sc r, order w = some (k w))
    (hcen : ∀ w ∈ sc r, center w = some (c w)) (m : Mem (Var → ℝ)) :
    (∀ n d, g.kind? n = some (.leaf d) → Integrable (fun t : ℝ => (t - c d.var) ^ k d.var) (leafLaw d)) ∧
    ∃ (res : Var → Option ℝ) (F : Var → Node → ℝ), (g.moment m order center).2 = .ok res ∧
      (∀ w, CircuitValue g (fun d : Leaf => if d.var = w then ∫ t, (t - c d.var) ^ k d.var ∂leafLaw d else 1) (F w)) ∧
      ∀ v ∈ sc r, res v = some (F v r) := by
  have hL := hM.layered
  have hmom : ∀ n d, g.kind? n = some (.leaf d) → Integrable (fun t : ℝ => (t - c d.var) ^ k d.var) (leafLaw d) ∧
      d.momentMap order center = .ok (∫ t, (t - c d.var) ^ k d.var ∂leafLaw d) := by
    intro n d hk
    have hw := leaf_var_mem hL hM.smooth hk
    obtain ⟨h1, h2⟩ := leaf_moment (hM.valid n d hk) (hnum n d hk) (k d.var) (c d.var) fun v l c h => absurd h (hM.noDirac n d hk v l c)
    refine ⟨h1, ?_⟩
    rw [← h2]
    have ho := hord _ hw
    have hc := hcen _ hw
    have hns := hnum n d hk
    clear h1 h2 hk hw
    cases d with
    | symbolic v p => exact absurd rfl (hns v p)
    | _ => simp only [Leaf.momentMap, ho, hc]
  choose F hF using fun w => exists_circuitValue (g := g) hL.graded.acyclic
    (fun d : Leaf => if d.var = w then ∫ t, (t - c d.var) ^ k d.var ∂leafLaw d else 1)
  exact ⟨fun n d hk => (hmom n d hk).1, _, F, moment_value hL hM.smooth hM.decomposable hM.normalized
    (x := fun d => ∫ t, (t - c d.var) ^ k d.var ∂leafLaw d) (fun n d hk => (hmom n d hk).2) hF m, hF, fun v hv => if_pos hv⟩

/-- What expectation and variance of `v` satisfy when the leaves over `v` have their mass between `a` and `b`. -/
theorem mean_variance_between {dom : Var → VSet} (hM : EvidenceModel g r sc dom)
    (hnum : ∀ n d, g.kind? n = some (.leaf d) → ∀ v p, d ≠ .symbolic v p) {vars : List Var} (hvars : ∀ v, v ∈ vars ↔ v ∈ sc r)
    (m : Mem (Var → ℝ)) :
    ∃ e var, (g.expectation m vars).2 = .ok e ∧ (g.variance m vars).2 = .ok var ∧ ∀ v ∈ sc r, ∃ x w, e v = some x ∧ var v = some w ∧
      ∀ a b, (∀ n d, g.kind? n = some (.leaf d) → d.var = v → leafLaw d (Set.Icc a b)ᶜ = 0) →
        a ≤ x ∧ x ≤ b ∧ 0 ≤ w ∧ w ≤ (b - x) * (x - a) := by
  have hL := hM.layered
  obtain ⟨hi, e, F, he, hF, heF⟩ := moment_values hM hnum (order := fun v => if v ∈ vars then some 1 else none)
    (center := fun v => if v ∈ vars then some 0 else none) (k := fun _ => 1) (c := fun _ => 0) (fun w hw => if_pos ((hvars w).2 hw))
    (fun w hw => if_pos ((hvars w).2 hw)) m
  have hvareq : (g.variance m vars).2 =
      (g.moment (g.expectation m vars).1 (fun w => if w ∈ vars then some 2 else none) e).2 := by
    unfold Graph.variance
    change (g.expectation m vars).2 = .ok e at he
    generalize g.expectation m vars = y at he ⊢
    obtain ⟨m', y⟩ := y
    simp only at he
    subst he
    rfl
  obtain ⟨hi2, var, G, hv, hG, hvG⟩ := moment_values hM hnum (order := fun v => if v ∈ vars then some 2 else none)
    (center := e) (k := fun _ => 2) (c := fun w => F w r) (fun w hw => if_pos ((hvars w).2 hw)) (fun w hw => heF w hw) (g.expectation m vars).1
  refine ⟨e, var, he, hvareq.trans hv, fun v hsc => ⟨F v r, G v r, heF v hsc, hvG v hsc, fun a b hin => ?_⟩⟩
  have hp : ∀ n d, g.kind? n = some (.leaf d) → IsProbabilityMeasure (leafLaw d) := fun n d hk =>
    ⟨leafLaw_univ (hM.valid n d hk) (hM.leaves n d hk)⟩
  have hae : ∀ n d, g.kind? n = some (.leaf d) → d.var = v → ∀ᵐ t ∂leafLaw d, t ∈ Set.Icc a b := fun n d hk hd => by
    rw [ae_iff]
    exact hin n d hk hd
  have hint : ∀ n d, g.kind? n = some (.leaf d) → Integrable (fun t : ℝ => t) (leafLaw d) := fun n d hk => by
    simpa using hi n d hk
  have hroot := (root_mem hL.root).1
  obtain ⟨h1, h2⟩ := value_between_var hL.wf hL.graded.acyclic hM.smooth hM.decomposable hM.normalized (hF v) (fun n d _ hd => if_neg hd)
    (a := a) (b := b) (fun n d hk hd => by
      have := hp n d hk
      simp only [if_pos hd, sub_zero, pow_one]
      constructor
      · simpa using integral_mono_ae (integrable_const a) (hint n d hk) ((hae n d hk hd).mono fun t ht => ht.1)
      · simpa using integral_mono_ae (hint n d hk) (integrable_const b) ((hae n d hk hd).mono fun t ht => ht.2)) r hroot hsc
  have h3 : 0 ≤ G v r := by
    obtain ⟨y, hy⟩ : ∃ y : ℝ, ∀ n d, g.kind? n = some (.leaf d) → d.var = v → (∫ t, (t - F v r) ^ 2 ∂leafLaw d) ≤ y := by
      refine ⟨(b - a) ^ 2, fun n d hk hd => ?_⟩
      have := hp n d hk
      have hq : Integrable (fun t : ℝ => (t - F v r) ^ 2) (leafLaw d) := by simpa [hd] using hi2 n d hk
      simpa using integral_mono_ae hq (integrable_const ((b - a) ^ 2)) ((hae n d hk hd).mono fun t ht =>
        sq_le_sq' (by linarith [ht.1, ht.2]) (by linarith [ht.1, ht.2]))
    exact (value_between_var hL.wf hL.graded.acyclic hM.smooth hM.decomposable hM.normalized (hG v) (fun n d _ hd => if_neg hd)
      (a := 0) (b := y) (fun n d hk hd => by
        simp only [if_pos hd]
        exact ⟨integral_nonneg fun t => sq_nonneg _, hd ▸ hy n d hk hd⟩) r hroot hsc).1
  have h4 := value_affine_var hL.wf hL.graded.acyclic hM.smooth hM.decomposable hM.normalized (hF v) (hG v) (fun n d _ hd => if_neg hd)
    (fun n d _ hd => if_neg hd) (a := a + b - 2 * F v r) (b := F v r ^ 2 - a * b) (fun n d hk hd => by
      have := hp n d hk
      have hq : Integrable (fun t : ℝ => (t - F v r) ^ 2) (leafLaw d) := by simpa [hd] using hi2 n d hk
      have hl : Integrable (fun t : ℝ => (a + b - 2 * F v r) * t + (F v r ^ 2 - a * b)) (leafLaw d) :=
        ((hint n d hk).const_mul _).add (integrable_const _)
      have hm := integral_mono_ae hq hl ((hae n d hk hd).mono fun t ht => by
        show (t - F v r) ^ 2 ≤ (a + b - 2 * F v r) * t + (F v r ^ 2 - a * b)
        nlinarith [mul_nonneg (sub_nonneg.2 ht.1) (sub_nonneg.2 ht.2)])
      rw [integral_add ((hint n d hk).const_mul _) (integrable_const _), integral_const_mul] at hm
      simp only [if_pos hd, sub_zero, pow_one]
      rw [hd]
      simpa using hm) r hroot hsc
  exact ⟨h1, h2, h3, by nlinarith [h4]⟩

end PM
