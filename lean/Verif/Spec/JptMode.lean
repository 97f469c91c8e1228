import Verif.Spec.Jpt

/-!
# Specification: splits that separate, and the most likely points of a learned tree
-/

namespace PM.Spec

open Learn.Jpt

/-- The column tells the rows of two sides of a split apart: the numbers on one side are all smaller than those on the other, or no
element (no integer) occurs on both sides. -/
def TellsApart (ci : Column × ℕ) (A B : List Row) : Prop :=
  match ci.1 with
  | .continuous _ => (∀ x ∈ A, ∀ y ∈ B, x.real ci.2 < y.real ci.2) ∨ ∀ x ∈ A, ∀ y ∈ B, y.real ci.2 < x.real ci.2
  | .symbolic _ _ => ∀ x ∈ A, ∀ y ∈ B, x.int ci.2 ≠ y.int ci.2
  | .integer _ => ∀ x ∈ A, ∀ y ∈ B, x.int ci.2 ≠ y.int ci.2
  | .other _ => False

/-- The rows at the given indices. -/
noncomputable def rowsAt (data : List Row) (indices : List ℕ) : List Row := indices.map fun i => data.getD i default

/-- The impurity splits as decision trees do: some column tells the rows of both sides apart. -/
def SeparatingSplits (I : Impurity) (threshold : ℝ) (columns : List Column) (data : List Row) : Prop :=
  ∀ calls indices start stop, indices.Perm (List.range data.length) → start < stop → stop ≤ indices.length →
    threshold < (I calls indices start stop).gain →
    ∃ ci ∈ columns.zipIdx, TellsApart ci
      (rowsAt data (((I calls indices start stop).indices.drop start).take ((I calls indices start stop).pos + 1)))
      (rowsAt data (((I calls indices start stop).indices.drop (start + (I calls indices start stop).pos + 1)).take
        (stop - (start + (I calls indices start stop).pos + 1))))

/-- Different integers of the column have different hashes: `-1` and `-2` do not both occur, and all are less than `2^61 - 1` in
absolute value. -/
def NoHashClash (data : List Row) (ci : Column × ℕ) : Prop :=
  match ci.1 with
  | .integer _ => ((∃ x ∈ data, x.int ci.2 = -1) → ∀ x ∈ data, x.int ci.2 ≠ -2) ∧ ∀ x ∈ data, (x.int ci.2).natAbs < 2 ^ 61 - 1
  | _ => True

end PM.Spec
