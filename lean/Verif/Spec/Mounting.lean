import Verif.Graph.Basic

/-! # Circuits that can be put together -/

namespace PM.Spec

variable {D : Type}

/-- The units shared by the two circuits have the same class and the same out-edges in both.  This holds if the
circuits have no unit in common (a subcircuit built elsewhere) and if they are the same circuit (a unit that gets
another parent). -/
def Compatible (g h : Graph D) : Prop :=
  ∀ n ∈ g.ids, n ∈ h.ids → g.kind? n = h.kind? n ∧ g.outEdges n = h.outEdges n

/-- No unit in common. -/
def DisjointIds (g h : Graph D) : Prop := ∀ n ∈ g.ids, n ∉ h.ids

end PM.Spec
