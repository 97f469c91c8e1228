import Verif.Events.Basic

/-!
# Specification: moved events
-/

namespace PM.Spec

/-- The image of an interval under `x ↦ x + c`. -/
noncomputable def moveInterval (c : ℝ) (i : SimpleInterval) : SimpleInterval := ⟨i.lower + c, i.upper + c, i.left, i.right⟩

/-- The image of a value set of a numeric variable under `x ↦ x + c`. -/
noncomputable def moveSet (c : ℝ) : VSet → VSet
  | .interval I => .interval (I.map (moveInterval c))
  | .symbols S => .symbols S

/-- The image of an event when `c v` is added to every variable `v`. -/
noncomputable def moveEvent (c : Var → ℝ) (E : SimpleEvent) : SimpleEvent := E.map fun p => (p.1, moveSet (c p.1) p.2)

end PM.Spec
