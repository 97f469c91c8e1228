import Verif.Learn.RegionCircuit
import Verif.Spec.LayerMass

/-!
# Specification: circuits of region graphs
-/

namespace PM.Spec
open PM.Jax Learn

/-- The type of a variable of the circuit. -/
def kindType : VarKind → VarType
  | .continuous => .real
  | .symbolic n => .states n
  | .integer => .real

/-- The types of the columns, for the variables `V` in their order. -/
def columnTypes (V : Finset Var) (kinds : Var → VarKind) (i : ℕ) : VarType := kindType (kinds ((V.sort (· ≤ ·)).getD i 0))

/-- A variable that the conversion supports: continuous, or symbolic with a state. -/
def Supported : VarKind → Prop
  | .continuous => True
  | .symbolic n => 0 < n
  | .integer => False

/-- The random numbers lie in `[0, 1)`. -/
def UnitDraws (d : Draws) : Prop := (∀ n i, 0 ≤ d.vector n i ∧ d.vector n i < 1) ∧ ∀ n m i j, 0 ≤ d.matrix n m i j ∧ d.matrix n m i j < 1

end PM.Spec
