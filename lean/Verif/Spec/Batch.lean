import Verif.Dist.Leaf
import Mathlib.Data.Finset.Card

/-!
# Specification: rows of an array, and lower orthants
-/

namespace PM.Spec

/-- The assignment that a row stands for: the value of a variable is in the column whose number is the number of smaller
variables. -/
noncomputable def rowPoint (vars : Finset Var) (row : List ℝ) (v : Var) : ℝ :=
  row.getD (vars.filter (· < v)).card 0

/-- The event that every variable is at most its value in `x`: `(-∞, x v]` for every variable. -/
noncomputable def lowerOrthant (vars : Finset Var) (x : Var → ℝ) : SimpleEvent :=
  vars.toList.map fun v => (v, .interval [⟨⊥, (x v : EReal), .opn, .closed⟩])

/-- The leaf is over a numeric variable (cumulative distributions of symbols do not exist). -/
def Numeric : Leaf → Prop
  | .symbolic .. => False
  | _ => True

/-- The keys of an integer distribution are stored in increasing order. -/
def KeysIncreasing : Leaf → Prop
  | .integer _ probs => (probs.map Prod.fst).Pairwise (· < ·)
  | _ => True

end PM.Spec
