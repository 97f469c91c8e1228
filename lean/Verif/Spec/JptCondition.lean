import Verif.Spec.JptMarginal

/-!
# Specification: evidence about the discrete columns of a learned tree

What an event says about a row of the training data, which leaves of a tree have training rows that agree with it, and how often.
-/

namespace PM.Spec
open Learn.Jpt

/-- Evidence about discrete columns: each entry is a set of values of a discrete column, no column occurs twice. -/
structure DiscreteEvidence (columns : List Column) (E : SimpleEvent) : Prop where
  nodup : E.keys.Nodup
  column : ∀ p ∈ E, ∃ ci ∈ columns.zipIdx, columnVar ci.1 = p.1 ∧ IsDiscrete ci.1 ∧ SetOf ci.1 p.2

/-- The entry of the row in the column `ci` is in all sets that `E` has for the column. -/
def Admits (E : SimpleEvent) (ci : Column × ℕ) (x : Row) : Prop :=
  ∃ p : Var → ℝ, Agrees p x ci ∧ ∀ q ∈ E, q.1 = columnVar ci.1 → q.2.Mem (p (columnVar ci.1))

/-- The number of rows whose entry in the column is admitted. -/
noncomputable def admitted (E : SimpleEvent) (ci : Column × ℕ) (rows : List Row) : ℕ :=
  open Classical in rows.countP fun x => Admits E ci x

/-- The training rows with the given numbers. -/
def trainingRows (data : List Row) (idx : List ℕ) : List Row := idx.map fun i => data.getD i default

/-- The leaves (as lists of the numbers of their training rows) in which, for every column, some row has an admitted entry. -/
noncomputable def agreeingLeaves (columns : List Column) (data : List Row) (E : SimpleEvent) (st : State) : List (List ℕ) :=
  open Classical in (leafSamples st).filter fun idx => ∀ ci ∈ columns.zipIdx, ∃ x ∈ trainingRows data idx, Admits E ci x

/-- The share of the rows that are admitted by `E`, taking the columns to be independent. -/
noncomputable def leafShare (columns : List Column) (E : SimpleEvent) (rows : List Row) : ℝ :=
  (columns.zipIdx.map fun ci => (admitted E ci rows : ℝ) / rows.length).prod

/-- The same for the rows that are admitted by `E` and `F`, among those that are admitted by `E`. -/
noncomputable def leafShareGiven (columns : List Column) (E F : SimpleEvent) (rows : List Row) : ℝ :=
  (columns.zipIdx.map fun ci => (admitted (E ++ F) ci rows : ℝ) / admitted E ci rows).prod

end PM.Spec
