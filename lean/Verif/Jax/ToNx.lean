import Verif.Jax.Layers
import Verif.Circuit.Query
import Verif.Circuit.Normalize

/-!
# Conversion of a layered (jax) circuit to a circuit

`ProbabilisticCircuit.to_nx` (`jax/probabilistic_circuit.py:77-91`).  Units are numbered in the order of their creation.  The progress bar
is modelled as far as the code calls methods on it: `progress` says whether there is one.
-/

namespace PM.Jax
open Graph

/-- The distribution that a node of an input layer over the variable `v` becomes.
* `UniformLayer.to_nx` (`jax/uniform_layer.py:69-87`): open intervals,
* `DiracDeltaLayer.to_nx` (`jax/input_layer.py:147-159`),
* `GaussianLayer.to_nx` (`jax/gaussian_layer.py:86-100`): the property `scale`,
* `DiscreteLayer.to_nx` (`jax/discrete_layer.py:87-101`): `enumerate` of the normalized probabilities. -/
noncomputable def inputLeaf (v : Var) : InputNode → Leaf
  | .uniform lower upper => .uniform v lower upper .opn .opn
  | .dirac location cap => .dirac v location cap
  | .gaussian location logScale minScale => .gaussian v location (scale logScale minScale)
  | .discrete logs => .symbolic v (logs.zipIdx.map fun p => ((p.2 : ℤ), (p.1 - LogP.logsumexp logs).exp))

/-- New units of the given classes in the circuit: `[SumUnit(result) for _ in range(n)]` and the like. -/
def newUnits (g : Circuit) (kinds : List (Kind Leaf)) : Circuit × List Node :=
  ({ g with nodes := g.nodes ++ (kinds.zipIdx g.nodes.length).map fun p => (p.2, p.1) },
    (List.range kinds.length).map (g.nodes.length + ·))

/-- `list[i]`. -/
def nth {α : Type} (l : List α) (i : ℕ) : Except PyErr α :=
  match l[i]? with
  | some a => .ok a
  | none => .error .indexError

/-- The edges of a layer into each child layer, as (node, node of the child layer, log weight), in the order of the loops.
* sparse sum layer: the stored entries (`jax/inner_layer.py:430-434`). -/
def sparseLinks (ws : List Coo) : List (List (ℕ × ℕ × Option LogP)) :=
  ws.map fun w => w.entries.map fun e => (e.1, e.2.1, some e.2.2)

/-- * dense sum layer: all pairs, with `exp(log_weight)` in the place of the log weight (`jax/inner_layer.py:525-529`). -/
noncomputable def denseLinks (ws : List (List (List LogP))) : List (List (ℕ × ℕ × Option LogP)) :=
  ws.map fun w => w.zipIdx.flatMap fun row => row.1.zipIdx.map fun l => (row.2, l.2, some (.fin l.1.exp))

/-- * product layer: the stored entries, without weights (`jax/inner_layer.py:681-682`). -/
def productLinks (es : List (List (ℕ × ℕ))) : List (List (ℕ × ℕ × Option LogP)) :=
  es.map fun row => row.map fun e => (e.1, e.2, none)

/-- One `units[row].add_subcircuit(child_layer[col], …, mount=False)`. -/
def connectOne (units child : List Node) (g : Circuit) (e : ℕ × ℕ × Option LogP) : Except PyErr Circuit := do
  let u ← nth units e.1
  let c ← nth child e.2.1
  .ok (g.addEdge u c e.2.2)

/-- The loops over the child layers and over their edges (`jax/inner_layer.py:430-436, 525-532, 681-685`). -/
def connect (units : List Node) (links : List (List (ℕ × ℕ × Option LogP))) (children : List (List Node)) (g : Circuit) :
    Except PyErr Circuit :=
  (links.zip children).foldlM (fun g p => p.1.foldlM (connectOne units p.2) g) g

/-- `[variables[i] for i in self.variables]` (`jax/inner_layer.py:421, 516, 674`). -/
def checkVariables (vars : List Var) (indices : List ℕ) : Except PyErr Unit := do
  let _ ← indices.mapM (nth vars)
  .ok ()

mutual
/-- `to_nx` of the layers: input layers (see `inputLeaf`; `DiracDeltaLayer` calls `progress_bar.update` also if there is no progress bar,
`jax/input_layer.py:158`), `SparseSumLayer` (`jax/inner_layer.py:418-440`), `DenseSumLayer` (`:513-536`), `ProductLayer` (`:668-687`). -/
noncomputable def Layer.toNx (vars : List Var) (progress : Bool) : Layer → Circuit → Except PyErr (Circuit × List Node)
  | .input index nodes, g => do
    let v ← nth vars index
    if nodes.any InputNode.isDirac && !progress then .error .attributeError
    else .ok (newUnits g (nodes.map fun f => .leaf (inputLeaf v f)))
  | .sparseSum ws cs, g => do
    checkVariables vars (Layer.sparseSum ws cs).variables
    let p := newUnits g (List.replicate (Layer.sparseSum ws cs).numberOfNodes .sum)
    let q ← childrenToNx vars progress cs p.1
    let g ← connect p.2 (sparseLinks ws) q.2 q.1
    let g ← p.2.foldlM normalizeUnit g
    .ok (g, p.2)
  | .denseSum ws cs, g => do
    checkVariables vars (Layer.denseSum ws cs).variables
    let p := newUnits g (List.replicate (Layer.denseSum ws cs).numberOfNodes .sum)
    let q ← childrenToNx vars progress cs p.1
    let g ← connect p.2 (denseLinks ws) q.2 q.1
    let g ← p.2.foldlM normalizeUnit g
    .ok (g, p.2)
  | .product n es cs, g => do
    checkVariables vars (Layer.product n es cs).variables
    let p := newUnits g (List.replicate n .prod)
    let q ← childrenToNx vars progress cs p.1
    let g ← connect p.2 (productLinks es) q.2 q.1
    .ok (g, p.2)
/-- `[cl.to_nx(variables, result, progress_bar) for cl in self.child_layers]`. -/
noncomputable def childrenToNx (vars : List Var) (progress : Bool) : List Layer → Circuit → Except PyErr (Circuit × List (List Node))
  | [], g => .ok (g, [])
  | c :: cs, g => do
    let p ← c.toNx vars progress g
    let q ← childrenToNx vars progress cs p.1
    .ok (q.1, p.2 :: q.2)
end

/-- `ProbabilisticCircuit.to_nx` (`jax/probabilistic_circuit.py:77-91`); `vars` are the variables of the circuit in their order. -/
noncomputable def toNx (vars : List Var) (progress : Bool) (L : Layer) : Except PyErr Circuit := do
  let p ← L.toNx vars progress ⟨[], []⟩
  .ok p.1

end PM.Jax
