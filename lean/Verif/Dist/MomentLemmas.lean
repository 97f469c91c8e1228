import Verif.Dist.GaussMoment
import Mathlib.Analysis.SpecialFunctions.Integrals.Basic

/-!
# The moment formulas of the leaves are integrals against their laws
-/

namespace PM

open Classical ProbabilityTheory MeasureTheory Set Spec

theorem uniformMoment_eq {lo hi : ℝ} (h : lo < hi) (k : ℕ) (c : ℝ) :
    Leaf.uniformMoment lo hi k c = ∫ x in lo..hi, (x - c) ^ k / (hi - lo) := by
  have hp : Leaf.uniformPdf lo hi = 1 / (hi - lo) := by
    rw [Leaf.uniformPdf, Real.exp_neg, Real.exp_log (by linarith), one_div]
  rw [intervalIntegral.integral_div, intervalIntegral.integral_comp_sub_right (fun x => x ^ k) c, integral_pow,
    Leaf.uniformMoment, hp]
  have h1 : hi - lo ≠ 0 := by linarith
  have h2 : (k : ℝ) + 1 ≠ 0 := by positivity
  field_simp

theorem integrable_discrete (probs : List (ℤ × ℝ)) (f : ℝ → ℝ) :
    Integrable f (probs.map fun kp => ENNReal.ofReal kp.2 • Measure.dirac (kp.1 : ℝ)).sum := by
  induction probs with
  | nil => simp
  | cons kp l ih =>
    rw [List.map_cons, List.sum_cons]
    refine Integrable.add_measure ?_ ih
    exact (integrable_dirac (by simp)).smul_measure (by simp)

theorem integral_discrete (probs : List (ℤ × ℝ)) (hp : ∀ kp ∈ probs, 0 ≤ kp.2) (f : ℝ → ℝ) :
    ∫ x, f x ∂(probs.map fun kp => ENNReal.ofReal kp.2 • Measure.dirac (kp.1 : ℝ)).sum
      = (probs.map fun kp => kp.2 * f kp.1).sum := by
  induction probs with
  | nil => simp
  | cons kp l ih =>
    rw [List.map_cons, List.sum_cons, List.map_cons, List.sum_cons,
      integral_add_measure ((integrable_dirac (by simp)).smul_measure (by simp)) (integrable_discrete l f),
      ih (fun q hq => hp q (by simp [hq])), integral_smul_measure, integral_dirac,
      ENNReal.toReal_ofReal (hp kp (by simp)), smul_eq_mul]

theorem integrable_sub_pow_gauss (μ : ℝ) (v : NNReal) (n : ℕ) (c : ℝ) :
    Integrable (fun x : ℝ => (x - c) ^ n) (gaussianReal μ v) := by
  have : (fun x : ℝ => (x - c) ^ n)
      = fun x => ∑ i ∈ Finset.range (n + 1), ((n.choose i : ℝ) * (-c) ^ (n - i)) * x ^ i := by
    funext x
    rw [sub_eq_add_neg, add_pow]
    refine Finset.sum_congr rfl fun i _ => ?_
    ring
  rw [this]
  exact integrable_finsetSum _ fun i _ => (integrable_pow_gauss _ _ i).const_mul _

/-- For all numeric leaves except the Dirac distribution: the moment exists and is the integral of `(x - c) ^ k`. -/
theorem leaf_moment {d : Leaf} (hv : d.Valid) (hs : ∀ v p, d ≠ .symbolic v p) (k : ℕ) (c : ℝ)
    (hd : ∀ v loc cap, d = .dirac v loc cap → k ≤ 1 ∨ loc = c) :
    Integrable (fun t : ℝ => (t - c) ^ k) (leafLaw d) ∧ d.moment k c = .ok (∫ t, (t - c) ^ k ∂leafLaw d) := by
  cases d with
  | uniform v lo hi l r =>
    have hlt : lo < hi := hv
    rw [uniform_law_eq v hlt]
    constructor
    · refine Integrable.smul_measure ?_ (by simp)
      refine (Continuous.intervalIntegrable (by fun_prop) lo hi).1
    · show Except.ok (Leaf.uniformMoment lo hi k c) = _
      rw [uniformMoment_eq hlt, integral_smul_measure, intervalIntegral.integral_of_le hlt.le,
        ENNReal.toReal_ofReal (by have := sub_pos.2 hlt; positivity), smul_eq_mul, ← integral_const_mul]
      congr 2
      funext x
      ring
  | dirac v loc cap =>
    constructor
    · exact integrable_dirac (by simp)
    · show Except.ok (Leaf.diracMoment loc k c) = Except.ok (∫ t, (t - c) ^ k ∂Measure.dirac loc)
      rw [integral_dirac]
      unfold Leaf.diracMoment
      by_cases h0 : k = 0
      · subst h0
        simp
      · by_cases h1 : k = 1
        · subst h1
          simp
        · rw [if_neg h0, if_neg h1]
          rcases hd v loc cap rfl with h | h
          · omega
          · rw [h, sub_self, zero_pow h0]
  | symbolic v p => exact absurd rfl (hs v p)
  | integer v p =>
    obtain ⟨hp, -⟩ := id hv
    refine ⟨integrable_discrete p _, ?_⟩
    show Except.ok (Leaf.integerMoment p k c) = Except.ok (∫ t, (t - c) ^ k ∂(p.map fun kp =>
      ENNReal.ofReal kp.2 • Measure.dirac (kp.1 : ℝ)).sum)
    rw [integral_discrete p hp]
    rfl
  | gaussian v μ σ =>
    have hσ : 0 < σ := hv
    rw [gauss_law_eq v μ hσ]
    refine ⟨integrable_sub_pow_gauss _ _ _ _, ?_⟩
    rw [← gaussMoment_eq μ hσ]
    rfl
  | truncGaussian v I μ σ =>
    obtain ⟨hσ, hI⟩ := id hv
    have hZ := gauss_toSet_pos hI μ hσ
    rw [trunc_law_eq v μ hσ hI]
    refine ⟨(integrable_sub_pow_gauss _ _ _ _).integrableOn.smul_measure (by simp), ?_⟩
    show Except.ok (Leaf.truncMoment I μ σ k c) = _
    rw [truncMoment_eq hI μ hσ, integral_smul_measure, ENNReal.toReal_ofReal (by positivity), smul_eq_mul, one_div,
      inv_mul_eq_div]

end PM
