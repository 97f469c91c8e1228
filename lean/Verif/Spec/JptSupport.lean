import Verif.Spec.JptMarginal

/-!
# Specification: what a learned tree considers possible
-/

namespace PM.Spec
open Learn.Jpt

/-- The point looks like the rows in one column: a number lies between two entries, an integer or a symbol is an entry. -/
def Resembles (p : Var → ℝ) (rows : List Row) (ci : Column × ℕ) : Prop :=
  match ci.1 with
  | .continuous P => (∃ x ∈ rows, x.real ci.2 ≤ p P.var) ∧ ∃ y ∈ rows, p P.var ≤ y.real ci.2
  | _ => ∃ x ∈ rows, Agrees p x ci

end PM.Spec
