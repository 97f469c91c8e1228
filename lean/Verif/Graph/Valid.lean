import Verif.Graph.Basic

/-!
# `is_valid`
-/

namespace PM.Graph

variable {D : Type}

/-- One generation of `nx.topological_generations`, which `nx.is_directed_acyclic_graph` runs through (`nx/probabilistic_circuit.py:774`): the
units without a parent among the remaining ones are taken away. -/
def peel (g : Graph D) (rest : List Node) : List Node :=
  rest.filter fun n => g.edges.any fun e => decide (e.dst = n ∧ e.src ∈ rest)

/-- `nx.is_directed_acyclic_graph` (`nx/probabilistic_circuit.py:774`): the generations exhaust the units.  There are at most as many
generations as units. -/
def isDag (g : Graph D) : Bool := ((g.peel)^[g.ids.length] g.ids).isEmpty

/-- One round of the breadth-first search of `nx.weakly_connected_components` (`nx/probabilistic_circuit.py:774`): the units that were seen
and their parents and children. -/
def grow (g : Graph D) (seen : List Node) : List Node :=
  g.ids.filter fun n => decide (n ∈ seen) || g.edges.any fun e => decide ((e.src = n ∧ e.dst ∈ seen) ∨ (e.dst = n ∧ e.src ∈ seen))

/-- `nx.is_weakly_connected` (`nx/probabilistic_circuit.py:774`): the component of the first unit has all units.  It raises
`NetworkXPointlessConcept` if there are no units. -/
def isWeaklyConnected (g : Graph D) : Except PyErr Bool :=
  match g.ids with
  | [] => .error .networkXError
  | n :: _ => .ok (((g.grow)^[g.ids.length] [n]).length == g.ids.length)

/-- `ProbabilisticCircuit.is_valid` (`nx/probabilistic_circuit.py:765-774`). -/
def isValid (g : Graph D) : Except PyErr Bool := if g.isDag then g.isWeaklyConnected else .ok false

end PM.Graph
