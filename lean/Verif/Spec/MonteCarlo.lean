import Mathlib.MeasureTheory.Constructions.Pi
import Mathlib.MeasureTheory.Integral.Bochner.Basic
import Mathlib.MeasureTheory.Measure.WithDensity
import Verif.MonteCarlo.Estimator

/-!
# Specification: Monte Carlo estimates
-/

namespace PM.Spec
open MeasureTheory

variable {X : Type*} [MeasurableSpace X]

/-- `p` is a probability density with respect to `μ`. -/
structure IsDensity (μ : Measure X) (p : X → ℝ) : Prop where
  measurable : Measurable p
  nonneg : ∀ x, 0 ≤ p x
  mass : ∫⁻ x, ENNReal.ofReal (p x) ∂μ = 1

/-- The distribution with density `p`. -/
noncomputable def lawOf (μ : Measure X) (p : X → ℝ) : Measure X := μ.withDensity fun x => ENNReal.ofReal (p x)

/-- The expected value of a function of `n` independent samples of the distribution with density `p`. -/
noncomputable def expected (μ : Measure X) (p : X → ℝ) (n : ℕ) (f : List X → ℝ) : ℝ :=
  ∫ s : Fin n → X, f (List.ofFn s) ∂Measure.pi fun _ => lawOf μ p

/-- The L1 distance of two densities. -/
noncomputable def l1Distance (μ : Measure X) (p q : X → ℝ) : ℝ := ∫ x, |p x - q x| ∂μ

end PM.Spec
