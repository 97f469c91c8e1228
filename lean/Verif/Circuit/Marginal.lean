import Verif.Circuit.Query
import Verif.Circuit.Simplify

/-!
# `marginal`
-/

namespace PM.Graph

variable {D : Type}

/-- The graph after `remove_nodes_from` all nodes that are not to be kept: also the edges at them disappear. -/
def induced (g : Graph D) (keep : Node → Bool) : Graph D :=
  { nodes := g.nodes.filter (fun p => keep p.1)
    edges := g.edges.filter (fun e => keep e.src && keep e.dst) }

/-- `ProbabilisticCircuit.remove_unreachable_nodes` (`nx/probabilistic_circuit.py:844-850`).  `nx.descendants(self, root)`
and the root are the units that a breadth-first search from the root visits. -/
def removeUnreachable (g : Graph D) (r : Node) : Graph D :=
  g.induced fun n => decide (n ∈ (g.layersFrom r).flatten)

/-- `node.marginal(variables)` by class: a leaf over a variable that is not kept is removed
(`nx/probabilistic_circuit.py:282-289` with `UnivariateDistribution.marginal`, `distributions/distributions.py:52-56`), an
inner unit without children is removed (`:329-333`).  The flag says whether the unit is returned (`True`) or `None`. -/
def marginalUnit (vs : Finset Var) (s : Circuit × Bool) (n : Node) : Except PyErr (Circuit × Bool) :=
  match s.1.kind? n with
  | none => .error .networkXError
  | some (.leaf d) => if d.var ∈ vs then .ok (s.1, true) else .ok (s.1.removeNode n, false)
  | some _ => if s.1.succ n = [] then .ok (s.1.removeNode n, false) else .ok (s.1, true)

/-- `ProbabilisticCircuit.marginal_in_place` (`nx/probabilistic_circuit.py:934-942`): `none` is Python's `None`.  The layers
are those of the circuit before the first removal; the answer of the last visited unit, the root, decides.  The list is
never empty, because the root itself is visited. -/
noncomputable def marginalInPlace (g : Circuit) (vs : Finset Var) : Except PyErr (Option Circuit) := do
  let r ← g.root
  let (g', kept) ← (g.bottomUp r).foldlM (marginalUnit vs) (g, false)
  if kept then do
    let g'' ← (g'.removeUnreachable r).simplify
    .ok (some g'')
  else .ok none

end PM.Graph
