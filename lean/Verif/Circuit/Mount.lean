import Verif.Circuit.Conditional

/-!
# `mount` and `add_subcircuit`

Units are numbers; a unit that lies in two circuits has the same number in both.
-/

namespace PM.Graph

variable {D : Type}

/-- `ProbabilisticCircuit.add_edges_and_nodes_from_circuit` (`nx/probabilistic_circuit.py:1114-1122`): all nodes, then
`unweighted_edges` (which lists all edges, see `copyAt`), then `log_weighted_edges`. -/
def addCircuit (g s : Graph D) : Graph D :=
  let g1 := s.nodes.foldl (fun g p => g.addNode p.1 p.2) g
  let g2 := s.edgeView.foldl (fun g e => g.addEdge e.src e.dst none) g1
  (s.edgeView.filter fun e => e.weight.isSome).foldl (fun g e => g.addEdge e.src e.dst e.weight) g2

/-- `Unit.mount(other)` (`nx/probabilistic_circuit.py:117-126`): `g` is the circuit of the unit, `h` that of `other`.
(networkx may list the nodes of a small subgraph in another order; the order of nodes has no effect on values.) -/
def mount (g h : Graph D) (other : Node) : Graph D := g.addCircuit (h.removeUnreachable other)

/-- `SumUnit.add_subcircuit(other, log_weight)` (`nx/probabilistic_circuit.py:381-397`, with `some` weight) and
`ProductUnit.add_subcircuit(other)` (`:673-682`, with `none`), with `mount=True`. -/
def addSubcircuit (g h : Graph D) (u other : Node) (w : Option LogP) : Graph D := (g.mount h other).addEdge u other w

/-- `SumUnit()`, `ProductUnit()`, `LeafUnit(distribution)`: a new unit in a circuit of its own
(`nx/probabilistic_circuit.py:46-52`). -/
def newUnit (n : Node) (k : Kind D) : Graph D := ⟨[(n, k)], []⟩

/-- A loop over `u.add_subcircuit(…)`. -/
def addAll (g : Graph D) (u : Node) (l : List (Graph D × Node × Option LogP)) : Graph D :=
  l.foldl (fun g x => g.addSubcircuit x.1 u x.2.1 x.2.2) g

/-- `u.add_subcircuit(other, …)` for a unit `other` of a circuit that was built on its own: its units are other objects than
those of `g`; they get numbers past those of `g`. -/
def attach (g h : Graph D) (u other : Node) (w : Option LogP) : Graph D :=
  g.addSubcircuit (h.copyAt g.fresh) u (g.fresh + other) w

/-- A loop over `attach`. -/
def attachAll (g : Graph D) (u : Node) (l : List (Graph D × Node × Option LogP)) : Graph D :=
  l.foldl (fun g x => g.attach x.1 u x.2.1 x.2.2) g

end PM.Graph
