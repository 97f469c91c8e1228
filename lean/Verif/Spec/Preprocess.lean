import Verif.Learn.Preprocess

/-!
# Specification: preprocessing
-/

namespace PM.Spec

open Learn.Jpt

/-- The columns have different names and one cell per row. -/
structure ProperFrame (F : Frame) : Prop where
  names : (F.columns.map Prod.fst).Nodup
  rows : ∀ c ∈ F.columns, c.2.length = F.rows

/-- The variable can describe the column: numbers for a numeric variable, with a standard deviation other than zero if they are to
be scaled; elements of the domain for a symbolic variable. -/
def Describes (v : TreeVar) (c : Cells) : Prop :=
  match v.kind, c with
  | .scaled m s _ _ _, .floats _ => m ≠ none ∧ s ≠ none ∧ s ≠ some 0
  | .scaled m s _ _ _, .ints _ => m ≠ none ∧ s ≠ none ∧ s ≠ some 0
  | .continuous _ _ _ _ _, .floats _ => True
  | .continuous _ _ _ _ _, .ints _ => True
  | .integer _ _, .floats _ => True
  | .integer _ _, .ints _ => True
  | .symbolic d, .objects xs => (d.map Prod.fst).Nodup ∧ ∀ x ∈ xs, x ∈ d.map Prod.fst
  | _, _ => False

/-- The number `u` stands for the number `x`: it is that number, or `x` is `u` standard deviations above the mean. -/
def StandsFor (v : TreeVar) (u x : ℝ) : Prop :=
  match v.kind with
  | .scaled (some m) (some s) _ _ _ => x = u * s + m
  | .scaled _ _ _ _ _ => False
  | .symbolic _ => False
  | _ => x = u

/-- The entry `y` of the preprocessed data shows the cell `r` of the column: it is a number that stands for the number of the cell,
or the position of the string of the cell in the domain. -/
def Shows (v : TreeVar) (c : Cells) (r : ℕ) (y : Option ℝ) : Prop :=
  match c with
  | .floats xs => ∃ u x, y = some u ∧ xs[r]? = some x ∧ StandsFor v u x
  | .ints xs => ∃ u, ∃ x : ℤ, y = some u ∧ xs[r]? = some x ∧ StandsFor v u x
  | .objects xs => ∃ d i z, v.kind = .symbolic d ∧ y = some ((i : ℕ) : ℝ) ∧ ∃ x, xs[r]? = some x ∧ d[i]? = some (x, z)
  | .other _ => False

/-- Two columns of the same type. -/
def SameType : Cells → Cells → Prop
  | .floats _, .floats _ => True
  | .ints _, .ints _ => True
  | .objects _, .objects _ => True
  | _, _ => False

/-- Numbers and strings. -/
def NumbersOrStrings : Cells → Prop
  | .other _ => False
  | _ => True

/-- A column of floats has two different values. -/
def Varies : Cells → Prop
  | .floats xs => ∃ x ∈ xs, ∃ y ∈ xs, x ≠ y
  | _ => True

end PM.Spec
