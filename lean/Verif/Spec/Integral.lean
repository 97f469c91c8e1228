import Verif.Spec.Law
import Verif.Spec.Value
import Verif.Circuit.Probability
import Mathlib.MeasureTheory.Integral.Marginal
import Mathlib.MeasureTheory.Measure.Count

/-!
# Specification: integrals over several variables, events and domains
-/

namespace PM.Spec

open MeasureTheory
open scoped ENNReal

/-- The counting measure on the integers inside the reals (symbols are numbered). -/
noncomputable def intCount : Measure ℝ := Measure.map (fun k : ℤ => (k : ℝ)) Measure.count

/-- Lebesgue measure for continuous variables, counting measure for discrete ones. -/
noncomputable def baseMeasure (cont : Var → Bool) (v : Var) : Measure ℝ := if cont v then volume else intCount

/-- The leaf has a density with respect to the base measure of its variable. -/
def HasBase (cont : Var → Bool) : Leaf → Prop
  | .uniform v .. | .gaussian v .. | .truncGaussian v .. => cont v = true
  | .symbolic v _ | .integer v _ => cont v = false
  | .dirac .. => False

/-- The integral of `φ` over the variables in `s` with respect to the product of the measures `μ v`.  (The variables
outside `s` are set to `0`; `φ` should not depend on them.) -/
noncomputable def integralOver (μ : Var → Measure ℝ) (s : Finset Var) (φ : (Var → ℝ) → ℝ≥0∞) : ℝ≥0∞ :=
  (∫⋯∫⁻_s, φ ∂μ) 0

/-- A simple event about variables of the circuit: a dictionary whose values are composite sets of the right type. -/
structure EventFor (g : Circuit) (vars : Finset Var) (E : SimpleEvent) : Prop where
  nodup : E.keys.Nodup
  keys : ∀ v ∈ E.keys, v ∈ vars
  disjoint : ∀ p ∈ E, p.2.Disjoint
  fits : ∀ p ∈ E, ∀ n d, g.kind? n = some (.leaf d) → d.var = p.1 → Fits d p.2

/-- The domains of the variables: sets of the right type outside of which no leaf has mass. -/
structure DomainFor (g : Circuit) (dom : Var → VSet) : Prop where
  disjoint : ∀ v, (dom v).Disjoint
  fits : ∀ n d, g.kind? n = some (.leaf d) → Fits d (dom d.var)
  covers : ∀ n d, g.kind? n = some (.leaf d) → leafLaw d (dom d.var).toSetᶜ = 0

/-- The simple events of the family do not overlap. -/
def DisjointFamily (Es : Event) : Prop := Es.Pairwise fun E F => ∀ x, ¬ (E.Mem x ∧ F.Mem x)

/-- The weights of every sum unit sum to one. -/
def NormalizedSums {D : Type} (g : Graph D) : Prop :=
  ∀ n, g.kind? n = some .sum → ((g.outEdges n).map linWeight).sum = 1

end PM.Spec
