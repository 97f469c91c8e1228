import Verif.Events.Basic

/-!
# Specification: scaled events
-/

namespace PM.Spec

open Classical

/-- The image of an interval under `x ↦ x * s`, for `s ≠ 0`. -/
noncomputable def scaleInterval (s : ℝ) (i : SimpleInterval) : SimpleInterval :=
  if 0 < s then ⟨i.lower * s, i.upper * s, i.left, i.right⟩ else ⟨i.upper * s, i.lower * s, i.right, i.left⟩

/-- The image of a value set of a numeric variable under `x ↦ x * s`. -/
noncomputable def scaleSet (s : ℝ) : VSet → VSet
  | .interval I => .interval (I.map (scaleInterval s))
  | .symbols S => .symbols S

/-- The image of an event when every variable `v` is multiplied by `s v`. -/
noncomputable def scaleEvent (s : Var → ℝ) (E : SimpleEvent) : SimpleEvent := E.map fun p => (p.1, scaleSet (s p.1) p.2)

end PM.Spec
