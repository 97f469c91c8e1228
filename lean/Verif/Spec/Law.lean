import Verif.Spec.Density

/-!
# Specification: the law of a leaf distribution

The probability measure on the real line that a leaf distribution stands for: the measure with the textbook density for
continuous distributions, point masses for discrete and Dirac distributions.
-/

namespace PM.Spec

open MeasureTheory

noncomputable def leafLaw : Leaf → Measure ℝ
  | .dirac _ loc _ => Measure.dirac loc
  | .symbolic _ probs | .integer _ probs =>
    (probs.map fun kp => ENNReal.ofReal kp.2 • Measure.dirac (kp.1 : ℝ)).sum
  | d => volume.withDensity fun x => ENNReal.ofReal (leafDensity d x)

/-- The value set has the type that fits the variable of the leaf: symbols for symbolic, intervals for numeric leaves. -/
def Fits : Leaf → VSet → Prop
  | .symbolic .., .symbols _ => True
  | .symbolic .., .interval _ => False
  | _, .interval _ => True
  | _, .symbols _ => False

end PM.Spec

namespace PM

/-- The set of values an event allows for variable `v`. -/
def allowed (E : SimpleEvent) (v : Var) : Set ℝ := {t | ∀ p ∈ E, p.1 = v → p.2.Mem t}

end PM
