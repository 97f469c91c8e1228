import Verif.Spec.MonteCarlo
import Verif.Spec.Support
import Verif.Spec.Uniform
import Verif.MonteCarlo.Circuit

/-!
# Specification: Monte Carlo estimates for circuits
-/

namespace PM.Spec

open MeasureTheory Graph

/-- A smooth, decomposable and normalized circuit over the variables `s` whose leaves fit the types of the variables. -/
structure DensityCircuit (ty : Var → VarType) (dom : Var → VSet) (s : Finset Var) (g : Circuit) : Prop where
  shape : ∃ r sc, Layered g r ∧ Scoped g sc ∧ Decomposable g sc ∧ sc r = s
  valid : ∀ n d, g.kind? n = some (.leaf d) → d.Valid
  leaves : ∀ n d, g.kind? n = some (.leaf d) → d.Normalized
  sums : NormalizedSums g
  products : ProductsNonempty g
  base : ∀ n d, g.kind? n = some (.leaf d) → HasBase (fun v => ty v == .continuous) d
  typed : Typed g fun v => ty v == .symbolic
  domain : DomainFor g dom

/-- The assignment with the values `y` for the variables `s`; the other variables do not matter. -/
noncomputable def assign (s : Finset Var) (y : s → ℝ) : Var → ℝ := Function.updateFinset 0 s y

/-- Lebesgue measure for the continuous variables, counting measure for the other ones. -/
noncomputable def baseOn (ty : Var → VarType) (s : Finset Var) : Measure (s → ℝ) :=
  Measure.pi fun v : s => baseMeasure (fun v => ty v == .continuous) v

/-- The density that `likelihood` describes. -/
noncomputable def densityOf (s : Finset Var) (g : Circuit) (y : s → ℝ) : ℝ :=
  match g.likelihood freshMem (assign s y) with
  | .ok p => p
  | .error _ => 0

end PM.Spec
