import Verif.Circuit.Support
import Verif.Circuit.UniformMeasure
import Verif.MonteCarlo.Estimator

/-!
# Monte Carlo estimates for circuits

`MonteCarloEstimator` (`monte_carlo_estimator.py:8-77`) with circuits as the model and the other model.
-/

namespace PM.MonteCarlo

open Graph

/-- `model.likelihood(samples)` (`probabilistic_model.py:64-82`): one entry per row. -/
noncomputable def likelihoods (g : Circuit) (samples : List (Var → ℝ)) : Except PyErr (List ℝ) :=
  samples.mapM (g.likelihood freshMem)

/-- The part of `l1_metric_but_with_uniform_measure` after the construction of the uniform model (`monte_carlo_estimator.py:45-56`):
`samples` are drawn from the uniform model; without samples, `likelihood(samples[:1])[0]` raises an `IndexError` (`:48`). -/
noncomputable def l1FromUniform (model other uniform : Circuit) (samples : List (Var → ℝ)) : Except PyErr ℝ :=
  match samples with
  | [] => .error .indexError
  | x :: _ => do
    let density ← uniform.likelihood freshMem x
    let pSelf ← likelihoods model samples
    let pOther ← likelihoods other samples
    .ok ((List.zipWith (fun a b => |a - b|) pSelf pOther).sum / samples.length / density)

/-- `l1_metric_but_with_uniform_measure` (`monte_carlo_estimator.py:27-56`) for circuits.  The union of events (`:39`) and their bounding box
belong to `random_events` and are parameters.  If the union of the supports had probability zero, `uniform_measure_of_event` would return
`None` and the call of `sample` (`:45`) an `AttributeError`. -/
noncomputable def l1UniformOfCircuits (ty : Var → VarType) (dom : Var → VSet) (boundingBox : Event → SimpleEvent)
    (union : Event → Event → Event) (model other : Circuit) (samples : List (Var → ℝ)) : Except PyErr ℝ := do
  let suppOfSelf ← (model.support freshMem).2
  let suppOfOther ← (other.support freshMem).2
  match ← uniformOfEvent ty dom boundingBox (union suppOfOther suppOfSelf) with
  | none => .error .attributeError
  | some uniform => l1FromUniform model other uniform samples

/-- `(diff > tolerance).mean()` for the likelihoods of two circuits on samples (`monte_carlo_estimator.py:67-71`, `:72-76`); the mean of
no samples is `nan` in numpy and `0` here. -/
noncomputable def higherFractionOf (model other : Circuit) (tolerance : ℝ) (samples : List (Var → ℝ)) : Except PyErr ℝ := do
  let lp ← likelihoods model samples
  let lq ← likelihoods other samples
  .ok ((List.zipWith (fun a b => open Classical in if a - b > tolerance then (1 : ℝ) else 0) lp lq).sum / samples.length)

/-- `MonteCarloEstimator.l1_metric` (`monte_carlo_estimator.py:58-77`) for circuits and the samples drawn from them. -/
noncomputable def l1MetricOfCircuits (model other : Circuit) (tolerance : ℝ) (samplesP samplesQ : List (Var → ℝ)) : Except PyErr ℝ := do
  let p ← higherFractionOf model other tolerance samplesP
  let q ← higherFractionOf model other tolerance samplesQ
  .ok (2 * (p - q))

end PM.MonteCarlo
