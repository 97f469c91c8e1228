import Verif.Spec.Integral
import Mathlib.MeasureTheory.Integral.Bochner.Basic

/-!
# Specification: expectations over several variables
-/

namespace PM.Spec

open MeasureTheory

/-- The (Bochner) integral of `φ` over the variables in `s` with respect to the product of the measures `μ v`; variables
outside `s` are set to `0`. -/
noncomputable def expectOver (μ : Var → Measure ℝ) (s : Finset Var) (φ : (Var → ℝ) → ℝ) : ℝ :=
  ∫ y : (∀ _ : s, ℝ), φ (Function.updateFinset 0 s y) ∂(Measure.pi fun v : s => μ v)

/-- The integral above exists. -/
def HasExpectOver (μ : Var → Measure ℝ) (s : Finset Var) (φ : (Var → ℝ) → ℝ) : Prop :=
  Integrable (fun y : (∀ _ : s, ℝ) => φ (Function.updateFinset 0 s y)) (Measure.pi fun v : s => μ v)

end PM.Spec
