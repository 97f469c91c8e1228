import Verif.Graph.Pass

/-!
# `normalize`
-/

namespace PM.Graph

variable {D : Type}

/-- The `log_weights` of unit `n` (`nx/probabilistic_circuit.py:415-420`). -/
def logWeights (g : Graph D) (n : Node) : Except PyErr (List LogP) := (g.outEdges n).mapM readWeight

/-- Apply `f` to the `log_weight` of every out-edge of `n` (the loop `nx/probabilistic_circuit.py:594-595`). -/
def mapWeights (g : Graph D) (n : Node) (f : LogP → LogP) : Graph D :=
  { g with edges := g.edges.map fun e => if e.src == n then { e with weight := e.weight.map f } else e }

/-- `SumUnit.normalize` (`nx/probabilistic_circuit.py:589-595`).  `logsumexp` of an empty array raises `ValueError`.
If all weights are `-inf`, Python computes `-inf - -inf = nan`; here the weights stay `-inf`. -/
noncomputable def normalizeUnit (g : Graph D) (n : Node) : Except PyErr (Graph D) := do
  let ws ← g.logWeights n
  match ws with
  | [] => .error .valueError
  | w :: ws => .ok (g.mapWeights n (· - LogP.logsumexp (w :: ws)))

/-- `isinstance(node, SumUnit)`. -/
def isSum : Kind D → Bool
  | .sum => true
  | _ => false

/-- Units of class `SumUnit` in insertion order (the filter of `nx/probabilistic_circuit.py:1110-1111`). -/
def sumNodes (g : Graph D) : List Node := (g.nodes.filter fun p => isSum p.2).map Prod.fst

/-- `ProbabilisticCircuit.normalize` (`nx/probabilistic_circuit.py:1108-1112`). -/
noncomputable def normalize (g : Graph D) : Except PyErr (Graph D) :=
  g.sumNodes.foldlM normalizeUnit g

end PM.Graph
