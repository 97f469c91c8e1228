import Verif.Events.Basic
import Mathlib.Probability.Distributions.Gaussian.Real

/-!
# Leaf distributions

The univariate distributions of `distributions/*.py`.  Numbers are reals: floating point rounding, overflow and `nan`
are not modelled.  `scipy.stats.norm` is modelled by the exact Gaussian of Mathlib.
-/

namespace PM

open Classical ProbabilityTheory MeasureTheory

/-- A univariate distribution with the variable it is over.
* `UniformDistribution(variable, interval)` (`distributions/uniform.py:13-16`), with finite borders.
* `DiracDeltaDistribution(variable, location, density_cap)` (`distributions/distributions.py:529-533`), with a finite
  `density_cap` (the default `inf` is not modelled).
* `SymbolicDistribution`, `IntegerDistribution` (`distributions/distributions.py:249-255, 436-437`): the probability
  dictionary as an insertion-ordered association list.
* `GaussianDistribution(variable, location, scale)` (`distributions/gaussian.py:25-29`).
* `TruncatedGaussianDistribution(variable, interval, location, scale)` (`distributions/gaussian.py:137-139`). -/
inductive Leaf where
  | uniform (v : Var) (lo hi : ℝ) (l r : Bound)
  | dirac (v : Var) (loc cap : ℝ)
  | symbolic (v : Var) (probs : List (ℤ × ℝ))
  | integer (v : Var) (probs : List (ℤ × ℝ))
  | gaussian (v : Var) (μ σ : ℝ)
  | truncGaussian (v : Var) (I : SimpleInterval) (μ σ : ℝ)

namespace Leaf

/-- `self.variable`. -/
def var : Leaf → Var
  | uniform v .. | dirac v .. | symbolic v .. | integer v .. | gaussian v .. | truncGaussian v .. => v

/-- The variance parameter of `norm(loc, scale)`. -/
noncomputable def nnvar (σ : ℝ) : NNReal := ⟨σ ^ 2, sq_nonneg σ⟩

/-- `norm.cdf` (`distributions/gaussian.py:38-39`), with `cdf(-inf) = 0` and `cdf(inf) = 1`. -/
noncomputable def gaussCdf (μ σ : ℝ) (x : EReal) : ℝ :=
  if x = ⊥ then 0 else if x = ⊤ then 1 else (gaussianReal μ (nnvar σ)).real (Set.Iic x.toReal)

/-- `TruncatedGaussianDistribution.normalizing_constant` (`distributions/gaussian.py:141-153`). -/
noncomputable def truncZ (I : SimpleInterval) (μ σ : ℝ) : ℝ := gaussCdf μ σ I.upper - gaussCdf μ σ I.lower

/-- `DiscreteDistribution.log_likelihood` (`distributions/distributions.py:265-270`): start with `-inf` and overwrite
at every matching key. -/
noncomputable def discreteLogLik (probs : List (ℤ × ℝ)) (x : ℝ) : LogP :=
  probs.foldl (fun acc kp => if x = (kp.1 : ℝ) then LogP.log kp.2 else acc) .negInf

/-- `log_likelihood` of one row: uniform (`distributions/distributions.py:209-214`, `distributions/uniform.py:18-19,
42-46`), Dirac (`distributions/distributions.py:535-538`), discrete (`:265-270`), Gaussian
(`distributions/gaussian.py:35-36`), truncated Gaussian (`distributions/gaussian.py:159-160`). -/
noncomputable def logLik : Leaf → ℝ → LogP
  | uniform _ lo hi l r, x =>
    if SimpleInterval.leftOK l lo x ∧ SimpleInterval.rightOK r hi x then .fin (-Real.log (hi - lo)) else .negInf
  | dirac _ loc cap, x => if x = loc then LogP.log cap else .negInf
  | symbolic _ probs, x => discreteLogLik probs x
  | integer _ probs, x => discreteLogLik probs x
  | gaussian _ μ σ, x => LogP.log (gaussianPDFReal μ (nnvar σ) x)
  | truncGaussian _ I μ σ, x =>
    if I.Mem x then LogP.log (gaussianPDFReal μ (nnvar σ) x) - LogP.log (truncZ I μ σ) else .negInf

/-- `UniformDistribution.cdf` (`distributions/uniform.py:21-24`); `(inf - lower) / width` is clipped to `1`,
`(-inf - lower) / width` to `0`. -/
noncomputable def uniformCdf (lo hi : ℝ) (x : EReal) : ℝ :=
  if x = ⊥ then 0 else if x = ⊤ then 1 else min 1 (max 0 ((x.toReal - lo) / (hi - lo)))

/-- `TruncatedGaussianDistribution.cdf` (`distributions/gaussian.py:162-169`). -/
noncomputable def truncCdf (I : SimpleInterval) (μ σ : ℝ) (x : EReal) : ℝ :=
  min 1 (if SimpleInterval.leftOK I.left I.lower x then (gaussCdf μ σ x - gaussCdf μ σ I.lower) / truncZ I μ σ else 0)

/-- `IntegerDistribution.cdf` for a single row (`distributions/distributions.py:461-470`): the loop stops at the first
key larger than the (only) row. -/
noncomputable def integerCdf : List (ℤ × ℝ) → ℝ → ℝ
  | [], _ => 0
  | (k, p) :: rest, x => if (k : ℝ) > x then 0 else (if x ≥ (k : ℝ) then p else 0) + integerCdf rest x

/-- `cdf` of one row.  `SymbolicDistribution` has no `cdf`: `ProbabilisticModel.cdf` is abstract and raises
`NotImplementedError` (`probabilistic_model.py:94-108`). -/
noncomputable def cdf : Leaf → ℝ → Except PyErr ℝ
  | uniform _ lo hi _ _, x => .ok (uniformCdf lo hi x)
  | dirac _ loc _, x => .ok (if loc ≤ x then 1 else 0)
  | symbolic _ _, _ => .error .notImplementedError
  | integer _ probs, x => .ok (integerCdf probs x)
  | gaussian _ μ σ, x => .ok (gaussCdf μ σ x)
  | truncGaussian _ I μ σ, x => .ok (truncCdf I μ σ x)

/-- `self.probabilities[key]` on a `MissingDict(float)`: a missing key is `0` (`utils.py:38-44`). -/
def lookup (probs : List (ℤ × ℝ)) (k : ℤ) : ℝ :=
  match probs.find? (fun p => p.1 == k) with
  | some p => p.2
  | none => 0

/-- Sum of `cdf(upper) - cdf(lower)` over the simple intervals
(`ContinuousDistribution.probability_of_simple_event`, `distributions/distributions.py:101-106`). -/
noncomputable def cdfSum (F : EReal → ℝ) (I : List SimpleInterval) : ℝ :=
  (I.map (fun i => F i.upper - F i.lower)).sum

/-- Probability of a value set of the own variable: continuous distributions
(`distributions/distributions.py:101-106`), symbolic (`:403-404`), integer (`:472-480`), Dirac (`:553-555`).  A value
set of the wrong kind (symbols for a numeric variable or the other way round) is a `TypeError` here. -/
noncomputable def prob : Leaf → VSet → Except PyErr ℝ
  | uniform _ lo hi _ _, .interval I => .ok (cdfSum (uniformCdf lo hi) I)
  | dirac _ loc _, .interval I => .ok (if (VSet.interval I).Mem loc then 1 else 0)
  | symbolic _ probs, .symbols S => .ok (S.map (lookup probs)).sum
  | integer _ probs, .interval I =>
    .ok (probs.map (fun kp => if (VSet.interval I).Mem (kp.1 : ℝ) then kp.2 else 0)).sum
  | gaussian _ μ σ, .interval I => .ok (cdfSum (gaussCdf μ σ) I)
  | truncGaussian _ J μ σ, .interval I => .ok (cdfSum (truncCdf J μ σ) I)
  | _, _ => .error .typeError

/-- `probability_of_simple_event(event)`: read `event[self.variable]`, then the above. -/
noncomputable def probEvent (d : Leaf) (E : SimpleEvent) : Except PyErr ℝ := do
  let A ← E.get d.var
  d.prob A

/-- Parameters for which the distribution is a distribution: non-degenerate support, probabilities that are
non-negative (not necessarily normalized), distinct keys (it is a dictionary), positive scale. -/
def Valid : Leaf → Prop
  | uniform _ lo hi _ _ => lo < hi
  | dirac _ _ cap => 0 < cap
  | symbolic _ probs | integer _ probs => (∀ kp ∈ probs, 0 ≤ kp.2) ∧ (probs.map Prod.fst).Nodup
  | gaussian _ _ σ => 0 < σ
  | truncGaussian _ I _ σ => 0 < σ ∧ I.lower < I.upper

/-- Total mass one. -/
def Normalized : Leaf → Prop
  | symbolic _ probs | integer _ probs => (probs.map Prod.snd).sum = 1
  | _ => True

end Leaf
end PM
