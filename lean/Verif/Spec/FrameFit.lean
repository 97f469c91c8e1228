import Verif.Learn.FrameFit
import Verif.Spec.Preprocess
import Verif.Spec.TreeConfig
import Verif.Spec.Jpt

/-!
# Specification: learning from a data frame
-/

namespace PM.Spec

open Learn.Jpt

/-- The variable can be learned from the column: sensible parameters for continuous variables; integers that are their own `hash` for
integer variables; a domain whose elements have their positions as values for symbolic variables. -/
def Learnable (v : TreeVar) (c : Cells) : Prop :=
  match v.kind, c with
  | .continuous _ _ _ improvement samples, _ => 1 ≤ samples ∧ 0 ≤ improvement
  | .scaled _ _ _ improvement samples, _ => 1 ≤ samples ∧ 0 ≤ improvement
  | .integer _ _, .ints xs => ∀ x ∈ xs, x ≠ -1 ∧ x.natAbs < 2 ^ 61 - 1
  | .integer _ _, _ => False
  | .symbolic d, _ => ∀ (i : ℕ) (e : String × ℤ), d[i]? = some e → e.2 = i

/-- The value `y` of the variable `v` is that of the cell `r` of the column: the number of the cell, standardised if the variable is
scaled, or the hash of the element with the name in the cell. -/
def ValueOf (hash : ℤ → ℤ) (v : TreeVar) (c : Cells) (r : ℕ) (y : ℝ) : Prop :=
  match c with
  | .floats xs => ∃ x, xs[r]? = some x ∧ StandsFor v y x
  | .ints xs => ∃ x : ℤ, xs[r]? = some x ∧ StandsFor v y x
  | .objects xs => ∃ d x z, v.kind = .symbolic d ∧ xs[r]? = some x ∧ (x, z) ∈ d ∧ y = hash z
  | .other _ => False

end PM.Spec
