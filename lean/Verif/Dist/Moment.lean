import Verif.Dist.Leaf
import Mathlib.Probability.Distributions.Gamma

/-!
# Moments of the leaf distributions

`moment(order, center)` for the own variable; the order is a natural number.
-/

namespace PM

open Classical ProbabilityTheory MeasureTheory

namespace Leaf

/-- `UniformDistribution.pdf_value` (`distributions/uniform.py:36-46`). -/
noncomputable def uniformPdf (lo hi : ℝ) : ℝ := Real.exp (-Real.log (hi - lo))

/-- `UniformDistribution.moment` (`distributions/uniform.py:48-66`). -/
noncomputable def uniformMoment (lo hi : ℝ) (k : ℕ) (c : ℝ) : ℝ :=
  (uniformPdf lo hi * (hi - c) ^ (k + 1)) / (k + 1) - (uniformPdf lo hi * (lo - c) ^ (k + 1)) / (k + 1)

/-- `DiracDeltaDistribution.moment` (`distributions/distributions.py:563-574`). -/
noncomputable def diracMoment (loc : ℝ) (k : ℕ) (c : ℝ) : ℝ :=
  if k = 0 then 1 else if k = 1 then loc - c else 0

/-- `IntegerDistribution.moment` (`distributions/distributions.py:486-490`). -/
noncomputable def integerMoment (probs : List (ℤ × ℝ)) (k : ℕ) (c : ℝ) : ℝ :=
  (probs.map fun kp => kp.2 * ((kp.1 : ℝ) - c) ^ k).sum

/-- `GaussianDistribution.raw_moment` (`distributions/gaussian.py:50-70`). -/
noncomputable def rawMoment (μ σ : ℝ) (n : ℕ) : ℝ :=
  ((List.range (n / 2 + 1)).map fun j =>
    (n.choose (2 * j) : ℝ) * μ ^ (n - 2 * j) * σ ^ (2 * j) * (2 * j).factorial / (j.factorial * 2 ^ j)).sum

/-- `GaussianDistribution.moment` (`distributions/gaussian.py:72-92`). -/
noncomputable def gaussMoment (μ σ : ℝ) (k : ℕ) (c : ℝ) : ℝ :=
  ((List.range (k + 1)).map fun i => (k.choose i : ℝ) * rawMoment μ σ i * (-c) ^ (k - i)).sum

/-- `transform_to_standard_normal` of a bound (`distributions/gaussian.py:272-278`). -/
noncomputable def stdBound (μ σ : ℝ) (x : EReal) : EReal :=
  if x = ⊥ then ⊥ else if x = ⊤ then ⊤ else (((x.toReal - μ) / σ : ℝ) : EReal)

/-- `gamma.cdf(bound ** 2 / 2, a)` of `scipy.stats`, modelled by Mathlib's Gamma law with rate 1; an infinite bound gives
`gamma.cdf(inf, a) = 1`. -/
noncomputable def gammaCdfHalfSq (a : ℝ) (b : EReal) : ℝ :=
  if b = ⊥ ∨ b = ⊤ then 1 else (gammaMeasure a 1).real (Set.Iic (b.toReal ^ 2 / 2))

/-- `np.sign(bound)`. -/
noncomputable def signE (b : EReal) : ℝ := if b < 0 then -1 else if b = 0 then 0 else 1

/-- `TruncatedGaussianDistribution.moment` (`distributions/gaussian.py:199-251`); `2 ** (k / 2)` is a float power. -/
noncomputable def truncMoment (I : SimpleInterval) (μ σ : ℝ) (order : ℕ) (c : ℝ) : ℝ :=
  ((List.range (order + 1)).map fun k =>
    ((order.choose k : ℝ) * (2 : ℝ) ^ ((k : ℝ) / 2) * Real.Gamma (((k : ℝ) + 1) / 2) / Real.sqrt Real.pi) *
      ((-0.5 * gammaCdfHalfSq (((k : ℝ) + 1) / 2) (stdBound μ σ I.lower)
          * (if k % 2 = 0 then signE (stdBound μ σ I.lower) else 1))
        + (0.5 * gammaCdfHalfSq (((k : ℝ) + 1) / 2) (stdBound μ σ I.upper)
          * (if k % 2 = 0 then signE (stdBound μ σ I.upper) else 1)))
      * (-((c - μ) / σ)) ^ (order - k)).sum
    * (σ ^ order / truncZ I μ σ)

/-- `distribution.moment(order, center)[variable]`.  `SymbolicDistribution` inherits the abstract method
(`probabilistic_model.py:209-224`), which raises `NotImplementedError`. -/
noncomputable def moment : Leaf → ℕ → ℝ → Except PyErr ℝ
  | uniform _ lo hi _ _, k, c => .ok (uniformMoment lo hi k c)
  | dirac _ loc _, k, c => .ok (diracMoment loc k c)
  | symbolic _ _, _, _ => .error .notImplementedError
  | integer _ probs, k, c => .ok (integerMoment probs k c)
  | gaussian _ μ σ, k, c => .ok (gaussMoment μ σ k c)
  | truncGaussian _ I μ σ, k, c => .ok (truncMoment I μ σ k c)

end Leaf
end PM
