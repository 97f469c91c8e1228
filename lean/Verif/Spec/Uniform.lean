import Verif.Spec.Integral
import Verif.Circuit.UniformMeasure

/-!
# Specification: uniform measures
-/

namespace PM.Spec

open Classical MeasureTheory
open scoped ENNReal

/-- A set of values of a variable that is bounded, not empty and written as `random_events` does it: disjoint proper intervals
with finite borders for a continuous variable, different symbols for a symbolic one, different points for an integer one. -/
def BoundedSet : VarType → VSet → Prop
  | .continuous, .interval I => I ≠ [] ∧ (VSet.interval I).Disjoint ∧ ∀ i ∈ I, ∃ a b : ℝ, i.lower = a ∧ i.upper = b ∧ a < b
  | .symbolic, .symbols S => S ≠ [] ∧ S.Nodup
  | .integer, .interval I => I ≠ [] ∧ (VSet.interval I).Disjoint ∧
      ∀ i ∈ I, ∃ k : ℤ, i = ⟨((k : ℝ) : EReal), ((k : ℝ) : EReal), .closed, .closed⟩
  | _, _ => False

/-- A bounded simple event about the variables `s`: a box of bounded sets. -/
structure BoundedBox (ty : Var → VarType) (s : Finset Var) (E : SimpleEvent) : Prop where
  nodup : E.keys.Nodup
  keys : ∀ v, v ∈ E.keys ↔ v ∈ s
  sets : ∀ p ∈ E, BoundedSet (ty p.1) p.2

/-- All intervals of a continuous variable have the same length. -/
def EqualLengths (ty : Var → VarType) (E : SimpleEvent) : Prop :=
  ∀ p ∈ E, ty p.1 = .continuous → ∀ I, p.2 = .interval I → ∀ i ∈ I, ∀ j ∈ I,
    i.upper.toReal - i.lower.toReal = j.upper.toReal - j.lower.toReal

/-- For every continuous variable, the set of the box and the set of the simple event are single intervals; or every interval of the box is
an interval of the simple event or has no point in common with it. -/
def CutsCleanly (ty : Var → VarType) (B E : SimpleEvent) : Prop :=
  ∀ p ∈ B, ∀ q ∈ E, p.1 = q.1 → ty p.1 = .continuous → ∀ I J, p.2 = .interval I → q.2 = .interval J →
    (∃ i j, I = [i] ∧ J = [j]) ∨ ∀ i ∈ I, i ∈ J ∨ ∀ j ∈ J, ∀ x, ¬ (i.Mem x ∧ j.Mem x)

/-- The volume of an event about the variables `s`: Lebesgue measure for the continuous, counting measure for the other ones. -/
noncomputable def eventVolume (ty : Var → VarType) (s : Finset Var) (Es : Event) : ℝ≥0∞ :=
  integralOver (baseMeasure fun v => ty v == .continuous) s (fun x => if ∃ E ∈ Es, E.Mem x then 1 else 0)

/-- The value set fits the type of the variable. -/
def FitsType : VarType → VSet → Prop
  | .symbolic, .symbols _ => True
  | .symbolic, .interval _ => False
  | _, .interval _ => True
  | _, .symbols _ => False

/-- A simple event about some of the variables `s`. -/
structure TypedEvent (ty : Var → VarType) (s : Finset Var) (F : SimpleEvent) : Prop where
  nodup : F.keys.Nodup
  keys : ∀ v ∈ F.keys, v ∈ s
  disjoint : ∀ p ∈ F, p.2.Disjoint
  fits : ∀ p ∈ F, FitsType (ty p.1) p.2

/-- The domains of the variables: the reals for numeric variables and a set of symbols for symbolic ones that contains those of
the event. -/
structure TypedDomain (ty : Var → VarType) (dom : Var → VSet) (E : SimpleEvent) : Prop where
  numeric : ∀ v, ty v ≠ .symbolic → dom v = .interval [⟨⊥, ⊤, .opn, .opn⟩]
  symbolic : ∀ v, ty v = .symbolic → ∃ S, dom v = .symbols S ∧ S.Nodup
  covers : ∀ p ∈ E, ty p.1 = .symbolic → ∀ x, p.2.Mem x → (dom p.1).Mem x

end PM.Spec
