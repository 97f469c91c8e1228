import Verif.Circuit.Structure
import Verif.Circuit.Conditional
import Verif.Dist.Transform

/-!
# `translate` and `scale` of circuits
-/

namespace PM.Graph

/-- The loop body: `leaf.distribution.translate(…)`, in place. -/
def changeLeaf (φ : Leaf → Except PyErr Leaf) (g : Circuit) (n : Node) : Except PyErr Circuit :=
  match g.kind? n with
  | some (.leaf d) => do
    let d' ← φ d
    .ok (g.setLeaf n d')
  | _ => .error .attributeError

/-- `for leaf in self.leaves: …` (`nx/probabilistic_circuit.py:1282-1288`).  (After an exception the leaves visited before stay
changed; the model only reports the exception.) -/
def changeLeaves (g : Circuit) (φ : Leaf → Except PyErr Leaf) : Except PyErr Circuit := do
  let r ← g.root
  (g.leavesOf r).foldlM (changeLeaf φ) g

/-- `ProbabilisticCircuit.translate` (`nx/probabilistic_circuit.py:1282-1284`). -/
noncomputable def translate (g : Circuit) (t : Var → Option ℝ) : Except PyErr Circuit := g.changeLeaves (Leaf.translate t)

/-- `ProbabilisticCircuit.scale` (`nx/probabilistic_circuit.py:1286-1288`). -/
noncomputable def rescale (g : Circuit) (t : Var → Option ℝ) : Except PyErr Circuit := g.changeLeaves (Leaf.rescale t)

end PM.Graph
