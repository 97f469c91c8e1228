import Verif.Spec.Density

/-!
# Specification: leaves whose density has a maximum
-/

namespace PM.Spec

/-- The density attains its maximum, and the maximum is positive. -/
def AttainsMax (d : Leaf) : Prop := ∃ x, 0 < leafDensity d x ∧ ∀ y, leafDensity d y ≤ leafDensity d x

end PM.Spec
