import Mathlib.Data.Real.Basic
import Verif.Graph.Basic

/-!
# Monte Carlo estimates

`MonteCarloEstimator` (`monte_carlo_estimator.py:8-77`).  A model enters with its likelihood function; the samples are arguments.
-/

namespace PM.MonteCarlo

variable {X : Type*}

/-- `(diff > tolerance).mean()` with `diff = l_p - l_q` on the samples (`monte_carlo_estimator.py:68-71`, `:72-76`). -/
noncomputable def higherFraction (p q : X → ℝ) (tolerance : ℝ) (samples : List X) : ℝ :=
  open Classical in (samples.map fun x => if p x - q x > tolerance then (1 : ℝ) else 0).sum / samples.length

/-- `MonteCarloEstimator.l1_metric` (`monte_carlo_estimator.py:58-77`) for the likelihoods `p` of the model and `q` of the other model, where
`samplesP` and `samplesQ` are the samples drawn from the models. -/
noncomputable def l1Metric (p q : X → ℝ) (tolerance : ℝ) (samplesP samplesQ : List X) : ℝ :=
  2 * (higherFraction p q tolerance samplesP - higherFraction p q tolerance samplesQ)

/-- The default of `tolerance`, `10e-8` (`monte_carlo_estimator.py:58`). -/
noncomputable def defaultTolerance : ℝ := 10 * 10 ^ (-8 : ℤ)

/-- `l1_metric_but_with_uniform_measure` (`monte_carlo_estimator.py:42-56`), where `u` is the likelihood of the uniform model and `samples`
are drawn from it.  Without samples, `[0]` raises an exception. -/
noncomputable def l1Uniform (p q u : X → ℝ) (samples : List X) : Except PyErr ℝ :=
  match samples with
  | [] => .error .indexError
  | x :: _ => .ok ((samples.map fun y => |p y - q y|).sum / samples.length / u x)

end PM.MonteCarlo
