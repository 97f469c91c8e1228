import Mathlib.Logic.Relation
import Verif.Graph.Basic

/-!
# Specification: cycles and connectedness
-/

namespace PM.Spec

variable {D : Type}

/-- There is an edge from `a` to `b`. -/
def Arrow (g : Graph D) (a b : Node) : Prop := ∃ e ∈ g.edges, e.src = a ∧ e.dst = b

/-- No unit can be reached from itself along one or more edges. -/
def NoCycle (g : Graph D) : Prop := ∀ n, ¬ Relation.TransGen (Arrow g) n n

/-- Any two units are connected by edges, whatever their directions are. -/
def Connected (g : Graph D) : Prop :=
  ∀ a ∈ g.ids, ∀ b ∈ g.ids, Relation.ReflTransGen (fun x y => Arrow g x y ∨ Arrow g y x) a b

end PM.Spec
