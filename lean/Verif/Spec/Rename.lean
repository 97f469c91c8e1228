import Verif.Spec.Value

/-!
# Specification: new names
-/

namespace PM.Spec

/-- The new name of a variable: the one the map gives, or the old one. -/
def renamed (ρ : List (Var × Var)) (v : Var) : Var :=
  match ρ.lookup v with
  | some w => w
  | none => v

end PM.Spec
