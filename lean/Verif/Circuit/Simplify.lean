import Verif.Circuit.Normalize

/-!
# `simplify` and the other in-place edits of the circuit graph
-/

namespace PM.Graph

variable {D : Type}

/-- `Unit.connect_incoming_edges_to` (`nx/probabilistic_circuit.py:107-115`) and the same loop in `SumUnit.simplify`
(`:556-558`): every parent of `n` gets an edge with the same data to `other`. -/
def connectIncoming (g : Graph D) (n other : Node) : Graph D :=
  (g.inEdges n).foldl (fun g e => g.addEdge e.src other e.weight) g

/-- The children of the sum unit `s` become children of `n` with weight `sub_weight + weight`
(`nx/probabilistic_circuit.py:579-584`). -/
noncomputable def adopt (g : Graph D) (n s : Node) (w : LogP) : Except PyErr (Graph D) := do
  let ws ← g.logWeights s
  .ok ((ws.zip (g.succ s)).foldl (fun g p => g.addEdge n p.2 (some (p.1 + w))) g)

/-- One round of the loop in `SumUnit.simplify` (`nx/probabilistic_circuit.py:566-587`).  An edge of weight zero is
removed, the unit below it stays in the graph; a sum unit below `n` is dissolved and removed from the graph, whether or
not it has other parents. -/
noncomputable def simplifySumChild (n : Node) (g : Graph D) (p : LogP × Node) : Except PyErr (Graph D) := do
  let g := if p.1.isNegInf then g.removeEdge n p.2 else g
  match g.kind? p.2 with
  | some .sum => do
    let g ← g.adopt n p.2 p.1
    .ok (g.removeNode p.2)
  | _ => .ok g

/-- `SumUnit.simplify` (`nx/probabilistic_circuit.py:550-587`). -/
noncomputable def simplifySum (g : Graph D) (n : Node) : Except PyErr (Graph D) :=
  match g.succ n with
  | [c] => .ok ((g.connectIncoming n c).removeNode n)
  | _ => do
    let ws ← g.logWeights n
    (ws.zip (g.succ n)).foldlM (simplifySumChild n) g

/-- One round of the loop in `ProductUnit.simplify` (`nx/probabilistic_circuit.py:711-722`).  The code adds the
grandchildren to the *child* (`subcircuit.add_subcircuit`), where they already are. -/
def simplifyProdChild (g : Graph D) (c : Node) : Graph D :=
  match g.kind? c with
  | some .prod => (g.succ c).foldl (fun g gc => g.addEdge c gc none) g
  | _ => g

/-- `ProductUnit.simplify` (`nx/probabilistic_circuit.py:703-722`). -/
def simplifyProd (g : Graph D) (n : Node) : Graph D :=
  match g.succ n with
  | [c] => (g.connectIncoming n c).removeNode n
  | cs => cs.foldl simplifyProdChild g

/-- `node.simplify()` by class.  A leaf is removed only if it has no distribution (`nx/probabilistic_circuit.py:254-256`);
the model's leaves always have one.  Asking networkx for the successors of a unit that an earlier step removed raises
`NetworkXError`. -/
noncomputable def simplifyUnit (g : Graph D) (n : Node) : Except PyErr (Graph D) :=
  match g.kind? n with
  | none => .error .networkXError
  | some (.leaf _) => .ok g
  | some .sum => g.simplifySum n
  | some .prod => .ok (g.simplifyProd n)

/-- `ProbabilisticCircuit.simplify` (`nx/probabilistic_circuit.py:972-977`).  The layers are those of the circuit before
the first step. -/
noncomputable def simplify (g : Graph D) : Except PyErr (Graph D) :=
  match g.root with
  | .error e => .error e
  | .ok r => (g.bottomUp r).foldlM simplifyUnit g

end PM.Graph
