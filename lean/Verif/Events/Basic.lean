import Verif.Graph.Basic
import Mathlib.Data.EReal.Basic

/-!
# Events

A model of the part of the `random_events` dependency that the circuit code uses: simple intervals with open or closed
borders, composite intervals, sets of symbols, and simple events (one value set per variable).  `random_events` is not
part of `/repo`; what is written here is the documented behaviour of its classes and belongs to the trusted base.
-/

namespace PM

open Classical

/-- A variable.  `SortedSet` orders variables by name; here by number. -/
abbrev Var := Nat

/-- `random_events.interval.Bound`. -/
inductive Bound where
  | opn | closed
  deriving DecidableEq, Repr

/-- `random_events.interval.SimpleInterval`. -/
structure SimpleInterval where
  lower : EReal
  upper : EReal
  left : Bound
  right : Bound

namespace SimpleInterval

/-- `SimpleInterval.contains`, left border. -/
def leftOK (b : Bound) (lower x : EReal) : Prop :=
  match b with
  | .closed => lower ≤ x
  | .opn => lower < x

/-- `SimpleInterval.contains`, right border. -/
def rightOK (b : Bound) (upper x : EReal) : Prop :=
  match b with
  | .closed => x ≤ upper
  | .opn => x < upper

/-- `SimpleInterval.contains`. -/
def Mem (I : SimpleInterval) (x : ℝ) : Prop := leftOK I.left I.lower x ∧ rightOK I.right I.upper x

/-- `SimpleInterval.is_empty`. -/
def IsEmpty (I : SimpleInterval) : Prop :=
  I.upper < I.lower ∨ (I.lower = I.upper ∧ (I.left = .opn ∨ I.right = .opn))

/-- `SimpleInterval.is_singleton`. -/
def IsSingleton (I : SimpleInterval) : Prop := I.lower = I.upper ∧ I.left = .closed ∧ I.right = .closed

/-- `Bound.intersect`: open wins. -/
def meetBound : Bound → Bound → Bound
  | .closed, .closed => .closed
  | _, _ => .opn

/-- `SimpleInterval.intersection_with`. -/
noncomputable def inter (I J : SimpleInterval) : SimpleInterval where
  lower := max I.lower J.lower
  upper := min I.upper J.upper
  left := if I.lower = J.lower then meetBound I.left J.left else if I.lower < J.lower then J.left else I.left
  right := if I.upper = J.upper then meetBound I.right J.right else if I.upper < J.upper then I.right else J.right

/-- The points of the interval. -/
def toSet (I : SimpleInterval) : Set ℝ := {x | I.Mem x}

end SimpleInterval

/-- The value of one variable in a simple event: an `Interval` (for continuous and integer variables, a list of
disjoint simple intervals) or a `Set` of symbols (given by their hashes, for symbolic variables). -/
inductive VSet where
  | interval (I : List SimpleInterval)
  | symbols (S : List ℤ)

namespace VSet

/-- Membership of a value in a composite set. -/
def Mem (A : VSet) (x : ℝ) : Prop :=
  match A with
  | interval I => ∃ i ∈ I, i.Mem x
  | symbols S => ∃ k ∈ S, (k : ℝ) = x

/-- The points of the set. -/
def toSet (A : VSet) : Set ℝ := {x | A.Mem x}

/-- Composite sets are kept as disjoint unions of non-empty simple sets (`AbstractCompositeSet.make_disjoint`). -/
def Disjoint : VSet → Prop
  | interval I => I.Pairwise (fun i j => ∀ x, ¬ (i.Mem x ∧ j.Mem x)) ∧ ∀ i ∈ I, ¬ i.IsEmpty
  | symbols S => S.Nodup

end VSet

/-- `random_events.product_algebra.SimpleEvent`: a dictionary from variables to value sets. -/
abbrev SimpleEvent := List (Var × VSet)

namespace SimpleEvent

/-- `event[variable]`; a missing variable is a `KeyError`. -/
def get (E : SimpleEvent) (v : Var) : Except PyErr VSet :=
  match E.find? (fun p => p.1 == v) with
  | some p => .ok p.2
  | none => .error .keyError

/-- A full assignment lies in the event if each constrained variable's value lies in its set. -/
def Mem (E : SimpleEvent) (x : Var → ℝ) : Prop := ∀ p ∈ E, p.2.Mem (x p.1)

/-- The assignments in the event. -/
def toSet (E : SimpleEvent) : Set (Var → ℝ) := {x | E.Mem x}

end SimpleEvent
end PM
