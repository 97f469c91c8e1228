import Verif.Graph.BfsReach
import Verif.Spec.Value

/-!
# `nodes_weights`
-/

namespace PM.Graph

variable {D : Type}

/-- The state of the search: the queue `to_visit_nodes`, the set `seen_nodes` and the dictionary `node_weights` (the empty list stands
for a missing key). -/
structure WeightSearch where
  queue : List Node
  seen : List Node
  weights : Node → List ℝ

/-- The body of the inner loop (`nx/probabilistic_circuit.py:1252-1258`).  `get_edge_data(...).get("weight", 1)` is `1`: the only key of
the edges is `log_weight`. -/
def weightStep (n : Node) (s : WeightSearch) (c : Node) : WeightSearch :=
  { weights := Function.update s.weights c ((s.weights n).map (fun old => old * 1) ++ s.weights c)
    seen := if c ∈ s.seen then s.seen else s.seen ++ [c]
    queue := if c ∈ s.seen then s.queue else s.queue ++ [c] }

/-- The outer loop (`nx/probabilistic_circuit.py:1248-1258`); every unit is put into the queue once, so `len(nodes)` rounds suffice. -/
def weightLoop (g : Graph D) : ℕ → WeightSearch → WeightSearch
  | 0, s => s
  | fuel + 1, s => match s.queue with
    | [] => s
    | n :: queue => g.weightLoop fuel ((g.succ n).foldl (weightStep n) { s with queue := queue })

/-- `ProbabilisticCircuit.nodes_weights` (`nx/probabilistic_circuit.py:1237-1259`) for a given root. -/
def nodesWeights (g : Graph D) (r : Node) : Node → List ℝ :=
  (g.weightLoop g.nodes.length ⟨[r], [r], Function.update (fun _ => []) r [1]⟩).weights

end PM.Graph
