import Verif.Spec.Value
import Verif.Spec.Density

/-!
# Specification: the set of possible points
-/

namespace PM.Spec

/-- `S n` is the set of points the unit `n` can produce when weights are ignored: a leaf's points of positive density, the
union of the children at a sum unit, the intersection at a product unit. -/
structure PossiblePoints (g : Circuit) (S : Node → Set (Var → ℝ)) : Prop where
  leaf : ∀ n d, g.kind? n = some (.leaf d) → ∀ x, x ∈ S n ↔ 0 < leafDensity d (x d.var)
  sum : ∀ n, g.kind? n = some .sum → ∀ x, x ∈ S n ↔ ∃ c ∈ g.succ n, x ∈ S c
  prod : ∀ n, g.kind? n = some .prod → ∀ x, x ∈ S n ↔ ∀ c ∈ g.succ n, x ∈ S c

/-- Leaves over a symbolic variable (`sym v`) are symbolic distributions, leaves over the other variables are not. -/
def Typed (g : Circuit) (sym : Var → Bool) : Prop :=
  ∀ n d, g.kind? n = some (.leaf d) → (sym d.var = true ↔ ∃ v probs, d = .symbolic v probs)

/-- Product units have children. -/
def ProductsNonempty {D : Type} (g : Graph D) : Prop := ∀ n, g.kind? n = some .prod → g.succ n ≠ []

end PM.Spec
