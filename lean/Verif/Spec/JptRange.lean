import Verif.Spec.Histories
import Verif.Spec.JptCondition

/-!
# Specification: programs that go on with a learned tree
-/

namespace PM.Spec
open Learn.Jpt

/-- Evidence about columns whose variables are in `V`: sets of values for discrete columns, open intervals for continuous ones. -/
structure ColumnEvidence (columns : List Column) (V : Finset Var) (E : SimpleEvent) : Prop where
  nodup : E.keys.Nodup
  column : ∀ p ∈ E, p.1 ∈ V ∧ ∃ ci ∈ columns.zipIdx, columnVar ci.1 = p.1 ∧ SetOf ci.1 p.2 ∧ (IsDiscrete ci.1 ∨ OneOpen p.2)

/-- Evidence is only entered about columns that are left. -/
def ColumnSensible (columns : List Column) : Finset Var → List Op → Prop
  | _, [] => True
  | V, .given E :: ops => ColumnEvidence columns V E ∧ ColumnSensible columns V ops
  | V, .onto W :: ops => ColumnSensible columns (V ∩ W) ops
  | V, _ :: ops => ColumnSensible columns V ops

/-- `A` has all entries of the column, and for continuous columns everything between two entries. -/
def Encloses (data : List Row) (ci : Column × ℕ) (A : VSet) : Prop :=
  match ci.1 with
  | .continuous _ => ∀ x ∈ data, ∀ y ∈ data, ∀ t, x.real ci.2 ≤ t → t ≤ y.real ci.2 → A.Mem t
  | _ => ∀ x ∈ data, EntryIn ci A x

/-- The entry of the row in a column of numbers. -/
def numberIn (ci : Column × ℕ) (x : Row) : ℝ :=
  match ci.1 with
  | .continuous _ => x.real ci.2
  | _ => x.int ci.2

/-- Columns of numbers. -/
def IsNumeric : Column → Prop
  | .continuous _ | .integer _ => True
  | _ => False

end PM.Spec
