import Verif.Spec.Jpt
import Verif.Events.Sets
import Verif.Circuit.UniformMeasure

/-!
# Specification: the distribution of one variable of a learned tree
-/

namespace PM.Spec

open Learn.Jpt

/-- The domains of the variables as the library has them: all numbers for continuous and integer variables, at least the elements for
symbolic ones. -/
structure ColumnDomains (columns : List Column) (dom : Var → VSet) : Prop where
  disjoint : ∀ v, (dom v).Disjoint
  domain : ∀ c ∈ columns, match c with
    | .symbolic v domain => ∃ l, dom v = .symbols l ∧ ∀ e ∈ domain, e.2 ∈ l
    | .other _ => True
    | c => ∃ I, dom (columnVar c) = .interval I ∧ ∀ x, (VSet.interval I).Mem x

/-- A set of values of a column: symbols for symbolic columns, intervals for others. -/
def SetOf (c : Column) (A : VSet) : Prop :=
  A.Disjoint ∧ match c, A with
    | .symbolic .., .symbols _ => True
    | .symbolic .., .interval _ => False
    | _, .interval _ => True
    | _, .symbols _ => False

/-- The entry of the row in the column is in the set. -/
def EntryIn (ci : Column × ℕ) (A : VSet) (x : Row) : Prop := ∃ p : Var → ℝ, Agrees p x ci ∧ A.Mem (p (columnVar ci.1))

/-- Columns of discrete variables. -/
def IsDiscrete : Column → Prop
  | .symbolic .. | .integer _ => True
  | _ => False

/-- `types` gives the variables of the columns their classes. -/
def TypesOf (columns : List Column) (types : Var → VarType) : Prop :=
  ∀ c ∈ columns, match c with
    | .continuous P => types P.var = .continuous
    | .symbolic v _ => types v = .symbolic
    | .integer v => types v = .integer
    | .other _ => True

/-- The number of rows with an entry in the set, divided by the number of rows. -/
noncomputable def relativeFrequency (data : List Row) (ci : Column × ℕ) (A : VSet) : ℝ :=
  open Classical in (data.countP fun x => EntryIn ci A x : ℝ) / data.length

end PM.Spec
