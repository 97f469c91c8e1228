import Verif.Circuit.Query
import Verif.Graph.Bfs

/-!
# Structural checks: `leaves`, `is_decomposable`
-/

namespace PM.Graph

/-- `node.is_leaf` (`nx/probabilistic_circuit.py:234-236, 313-315`). -/
def isLeafUnit {D : Type} (g : Graph D) (n : Node) : Bool := match g.kind? n with
  | some (.leaf _) => true
  | _ => false

/-- `isinstance(node, ProductUnit)`. -/
def isProductUnit {D : Type} (g : Graph D) (n : Node) : Bool := match g.kind? n with
  | some .prod => true
  | _ => false

/-- `networkx.descendants(g, n)`: everything reachable from `n` except `n`.  (A Python set; here in breadth-first order.) -/
def descendants {D : Type} (g : Graph D) (n : Node) : List Node := (g.layersFrom n).flatten.filter fun k => !(k == n)

/-- `unit.leaves`: `[]` for a leaf unit (`nx/probabilistic_circuit.py:238-240`), the leaf units below an inner unit
(`:317-319`). -/
def leavesOf {D : Type} (g : Graph D) (n : Node) : List Node :=
  if g.isLeafUnit n then [] else (g.descendants n).filter g.isLeafUnit

/-- `ProductUnit.is_decomposable` (`nx/probabilistic_circuit.py:684-690`): the first subcircuit against all later ones, and so
on. -/
noncomputable def decomposableChildren (g : Circuit) : List Node → Except PyErr Bool
  | [] => .ok true
  | c :: cs => do
    let vs ← g.varsOf (g.nodes.length + 1) c
    let rec against : List Node → Except PyErr Bool
      | [] => .ok true
      | d :: ds => do
        let ws ← g.varsOf (g.nodes.length + 1) d
        if (ws ∩ vs).card > 0 then .ok false else against ds
    if ← against cs then g.decomposableChildren cs else .ok false

/-- `ProductUnit.is_decomposable()`. -/
noncomputable def productIsDecomposable (g : Circuit) (n : Node) : Except PyErr Bool := g.decomposableChildren (g.succ n)

/-- `ProbabilisticCircuit.is_decomposable()` (`nx/probabilistic_circuit.py:984-992`): the loop runs over the product units among
`self.leaves`. -/
noncomputable def isDecomposable (g : Circuit) : Except PyErr Bool := do
  let r ← g.root
  let rs ← ((g.leavesOf r).filter g.isProductUnit).mapM g.productIsDecomposable
  .ok (rs.all id)

end PM.Graph
