import Verif.Dist.Leaf
import Verif.Dist.Conditional

/-!
# Modes of the leaf distributions
-/

namespace PM

open Classical ProbabilityTheory

/-- `max(…)` of a list of numbers; `ValueError` for an empty one. -/
noncomputable def maxOf : List ℝ → Except PyErr ℝ
  | [] => .error .valueError
  | a :: l => .ok (l.foldl max a)

namespace Leaf

/-- The interval with the only point `x` (`random_events.interval.singleton`). -/
noncomputable def point (x : ℝ) : SimpleInterval := ⟨x, x, .closed, .closed⟩

/-- The value `TruncatedGaussianDistribution.univariate_log_mode` picks (`distributions/gaussian.py:171-182`).  `next x up` stands
for `nextafter(x, inf)` or `nextafter(x, -inf)`. -/
noncomputable def truncModeValue (next : ℝ → Bool → ℝ) (I : SimpleInterval) (μ : ℝ) : ℝ :=
  if I.Mem μ then μ
  else if (μ : EReal) < I.lower then
    match I.left with
    | .opn => next I.lower.toReal true
    | .closed => I.lower.toReal
  else
    match I.right with
    | .opn => next I.upper.toReal false
    | .closed => I.upper.toReal

/-- `univariate_log_mode`: uniform (`distributions/uniform.py:26-27`), Dirac (`distributions/distributions.py:557-558`), symbolic
(`:369-377`), integer (`:442-448`), Gaussian (`distributions/gaussian.py:41-42`), truncated Gaussian (`:171-182`, the value
without bounds check `:159-160`). -/
noncomputable def logMode (next : ℝ → Bool → ℝ) : Leaf → Except PyErr (VSet × LogP)
  | uniform _ lo hi l r => .ok (.interval [⟨lo, hi, l, r⟩], .fin (-Real.log (hi - lo)))
  | dirac _ loc cap => .ok (.interval [point loc], LogP.log cap)
  | symbolic _ probs => do
    let M ← maxOf (probs.map Prod.snd)
    .ok (.symbols ((probs.filter fun kp => kp.2 = M).map Prod.fst), LogP.log M)
  | integer _ probs => do
    let M ← maxOf (probs.map Prod.snd)
    .ok (.interval ((probs.filter fun kp => kp.2 = M).map fun kp => point kp.1), LogP.log M)
  | gaussian _ μ σ => .ok (.interval [point μ], LogP.log (gaussianPDFReal μ (nnvar σ) μ))
  | truncGaussian _ I μ σ =>
    .ok (.interval [point (truncModeValue next I μ)],
      LogP.log (gaussianPDFReal μ (nnvar σ) (truncModeValue next I μ)) - LogP.log (truncZ I μ σ))

end Leaf
end PM
