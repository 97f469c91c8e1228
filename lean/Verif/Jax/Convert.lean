import Verif.Jax.Layers
import Verif.Circuit.Query

/-!
# Conversion of a circuit to a layered (jax) circuit

`ProbabilisticCircuit.from_nx` (`jax/probabilistic_circuit.py:48-75`).  Python's `set` has no order one could rely on: `shuffle` reorders
the elements of a set.  Simplifications: `hash(unit)` is the identity of the unit; `jnp.float32` is a real number; progress bars are not
modelled.
-/

namespace PM.Jax
open Graph Classical

/-- The type of a unit, for leaf units the type of their distribution (`jax/inner_layer.py:135`). -/
inductive UnitType where
  | sum | prod | uniform | dirac | symbolic | integer | gaussian | truncGaussian
  deriving DecidableEq

def unitType : Kind Leaf → UnitType
  | .sum => .sum
  | .prod => .prod
  | .leaf (.uniform ..) => .uniform
  | .leaf (.dirac ..) => .dirac
  | .leaf (.symbolic ..) => .symbolic
  | .leaf (.integer ..) => .integer
  | .leaf (.gaussian ..) => .gaussian
  | .leaf (.truncGaussian ..) => .truncGaussian

/-- `isinstance`: `TruncatedGaussianDistribution` is a subclass of `GaussianDistribution` (`distributions/gaussian.py:133`). -/
def UnitType.isInstance (t u : UnitType) : Bool := t == u || (t == .truncGaussian && u == .gaussian)

def UnitType.isLeaf : UnitType → Bool
  | .sum | .prod => false
  | _ => true

/-- What the conversion reads from outside the circuit: `jnp.nextafter` towards the left and the right, and the number of elements of the
domain of a symbolic variable. -/
structure Env where
  below : ℝ → ℝ
  above : ℝ → ℝ
  states : Var → ℕ

/-- `NXConverterLayer` (`jax/inner_layer.py:682-690`); `hash_remap` maps a unit to its position in `nodes`. -/
structure Converter where
  layer : Layer
  nodes : List Node

/-- The unit is a leaf unit. -/
def leafOf (g : Circuit) (n : Node) : Option Leaf :=
  match g.kind? n with
  | some (.leaf d) => some d
  | _ => none

/-- `type(node) if not node.is_leaf else type(node.distribution)`; only used for units of the circuit. -/
def typeOf (g : Circuit) (n : Node) : UnitType :=
  match g.kind? n with
  | some k => unitType k
  | none => .sum

/-- A row of `DiscreteLayer.log_probabilities` (`jax/discrete_layer.py:68-76`): `parameters[row, state] = value`; a negative state counts
from the end and a state beyond the row is an `IndexError`. -/
noncomputable def stateRow (k : ℕ) (probs : List (ℤ × ℝ)) : Except PyErr (List ℝ) :=
  probs.foldlM (fun row kp =>
    let i : ℤ := if kp.1 < 0 then kp.1 + k else kp.1
    if 0 ≤ i ∧ i < k then .ok (row.set i.toNat kp.2) else .error .indexError) (List.replicate k 0)

/-- The parameters of a unit in an input layer.
* `UniformLayer` with the borders of `simple_interval_to_open_array` (`jax/utils.py:20-27`, `jax/uniform_layer.py:50-63`),
* `DiracDeltaLayer` (`jax/input_layer.py:126-134`),
* `GaussianLayer` with `min_scale = 0.01` (`jax/gaussian_layer.py:60-74`), also for truncated Gaussian distributions,
* `DiscreteLayer` (`jax/discrete_layer.py:60-77`),
* there is no layer for integer distributions: `TypeError` (`jax/inner_layer.py:30-36`). -/
noncomputable def inputNode (env : Env) : Leaf → Except PyErr InputNode
  | .uniform _ lo hi l r =>
    .ok (.uniform (if l = .closed then env.below lo else lo) (if r = .closed then env.above hi else hi))
  | .dirac _ loc cap => .ok (.dirac loc cap)
  | .gaussian _ μ σ | .truncGaussian _ _ μ σ => .ok (.gaussian μ (Real.log σ) (1 / 100))
  | .symbolic v probs => do
    let row ← stateRow (env.states v) probs
    .ok (.discrete (row.map LogP.log))
  | .integer .. => .error .typeError

/-- `(child_layer.layer.variables == variables).all()` (`jax/inner_layer.py:397-398`): arrays of one element are broadcast, other arrays of
different lengths are a `TypeError`. -/
def sameVariables (a b : List ℕ) : Except PyErr Bool :=
  if a.length = b.length then .ok (a == b)
  else match a, b with
    | [x], b => .ok (b.all (· == x))
    | a, [y] => .ok (a.all (· == y))
    | _, _ => .error .typeError

/-- The entries of the weight matrix for one child layer (`jax/inner_layer.py:404-417`). -/
noncomputable def sumEntries (g : Circuit) (nodes : List Node) (c : Converter) : Except PyErr (List (ℕ × ℕ × LogP)) := do
  let rows ← nodes.zipIdx.mapM fun p =>
    ((g.outEdges p.1).filter fun e => e.dst ∈ c.nodes).mapM fun e => do
      let w ← readWeight e
      .ok (p.2, c.nodes.idxOf e.dst, w)
  .ok rows.flatten

/-- `SparseSumLayer.create_layer_from_nodes_with_same_type_and_scope` (`jax/inner_layer.py:383-427`).  `vars` are the indices of the
variables of the units.  A weight matrix without entries is refused by `BCOO`, a layer without child layers has no variables
(`:291-294`, `IndexError`). -/
noncomputable def sumLayer (g : Circuit) (nodes : List Node) (vars : List ℕ) (children : List Converter) : Except PyErr Converter := do
  let keep ← children.mapM fun c => sameVariables c.layer.variables vars
  let filtered := ((children.zip keep).filter fun p => p.2).map Prod.fst
  let weights ← filtered.mapM fun c => do
    let entries ← sumEntries g nodes c
    if entries = [] then .error .assertionError
    else .ok (Coo.mk nodes.length c.layer.numberOfNodes entries)
  if filtered = [] then .error .indexError
  else .ok ⟨.sparseSum weights (filtered.map Converter.layer), nodes⟩

/-- The values that a product unit stores for one child layer (`jax/inner_layer.py:634-645`): for every subcircuit over the variables of the
layer its position there, `KeyError` if it is not in the layer. -/
noncomputable def productValues (g : Circuit) (scope : Node → Except PyErr (Finset Var)) (vars : List Var) (n : Node) (c : Converter) :
    Except PyErr (List ℕ) := do
  let values ← (g.succ n).mapM fun s => do
    let vs ← scope s
    if (c.layer.variables.map fun i => vars.getD i 0).toFinset = vs then
      (if s ∈ c.nodes then .ok [c.nodes.idxOf s] else .error .keyError)
    else .ok []
  .ok values.flatten

/-- The row of the edge tensor for one child layer; `sum_duplicates` adds the values of a unit in the same child layer
(`jax/inner_layer.py:649-650`). -/
noncomputable def productRow (g : Circuit) (scope : Node → Except PyErr (Finset Var)) (vars : List Var) (nodes : List Node)
    (c : Converter) : Except PyErr (List (ℕ × ℕ)) := do
  let values ← nodes.mapM fun n => productValues g scope vars n c
  .ok (values.zipIdx.flatMap fun p => if p.1 = [] then [] else [(p.2, p.1.sum)])

/-- `ProductLayer.create_layer_from_nodes_with_same_type_and_scope` (`jax/inner_layer.py:621-653`).  All child layers become children of the
layer.  An edge tensor without entries is refused by `BCOO`. -/
noncomputable def productLayer (g : Circuit) (scope : Node → Except PyErr (Finset Var)) (vars : List Var) (nodes : List Node)
    (children : List Converter) : Except PyErr Converter := do
  let rows ← children.mapM (productRow g scope vars nodes)
  if rows.flatten = [] then .error .assertionError
  else .ok ⟨.product nodes.length rows (children.map Converter.layer), nodes⟩

/-- The parameters of one unit of an input layer; `node.distribution` of a unit that is not a leaf unit is an `AttributeError`. -/
noncomputable def inputOf (env : Env) (g : Circuit) (n : Node) : Except PyErr InputNode :=
  match leafOf g n with
  | some d => inputNode env d
  | none => .error .attributeError

/-- `create_layer_from_nodes_with_same_type_and_scope` of the input layers (`jax/uniform_layer.py:50-63`, `jax/input_layer.py:126-134`,
`jax/gaussian_layer.py:60-74`, `jax/discrete_layer.py:60-77`).  The units are leaf units over the variable with index `index`. -/
noncomputable def inputLayer (env : Env) (g : Circuit) (index : ℕ) (nodes : List Node) : Except PyErr Converter := do
  let fs ← nodes.mapM (inputOf env g)
  .ok ⟨.input index fs, nodes⟩

/-- One layer for units of the type `t` and the scope `s` (`jax/inner_layer.py:144-155`). -/
noncomputable def createLayer (env : Env) (g : Circuit) (scope : Node → Except PyErr (Finset Var)) (vars : List Var) (t : UnitType)
    (s : Finset Var) (nodes : List Node) (children : List Converter) : Except PyErr Converter :=
  let indices := (s.sort (· ≤ ·)).map fun v => vars.idxOf v
  match t with
  | .sum => sumLayer g nodes indices children
  | .prod => productLayer g scope vars nodes children
  | _ => inputLayer env g (indices.headD 0) nodes

/-- The type that selects the class of the layer (`jax/inner_layer.py:140-141`): if the first unit of the level is a leaf unit, the type of
the distribution of the first unit of the type, an `AttributeError` if that has none. -/
def layerType (g : Circuit) (nodes ofType : List Node) (t : UnitType) : Except PyErr UnitType :=
  match nodes, ofType with
  | n :: _, m :: _ =>
    if (typeOf g n).isLeaf then (if (typeOf g m).isLeaf then .ok (typeOf g m) else .error .attributeError) else .ok t
  | _, _ => .error .indexError

/-- One turn of the loop over the types: one layer per scope (`jax/inner_layer.py:137-156`). -/
noncomputable def layersOfType (env : Env) (shuffle : {α : Type} → List α → List α) (g : Circuit)
    (scope : Node → Except PyErr (Finset Var)) (vars : List Var) (nodes : List Node) (children : List Converter) (t : UnitType) :
    Except PyErr (List Converter) := do
  let ofType := nodes.filter fun n => (typeOf g n).isInstance t
  let t ← layerType g nodes ofType t
  let scopes ← ofType.mapM scope
  (shuffle scopes.dedup).mapM fun s =>
    createLayer env g scope vars t s (((ofType.zip scopes).filter fun p => p.2 = s).map Prod.fst) children

/-- `Layer.create_layers_from_nodes` (`jax/inner_layer.py:125-158`). -/
noncomputable def createLayers (env : Env) (shuffle : {α : Type} → List α → List α) (g : Circuit)
    (scope : Node → Except PyErr (Finset Var)) (vars : List Var) (nodes : List Node) (children : List Converter) :
    Except PyErr (List Converter) := do
  let groups ← (shuffle (nodes.map (typeOf g)).dedup).mapM (layersOfType env shuffle g scope vars nodes children)
  .ok groups.flatten

/-- `ProbabilisticCircuit.from_nx` (`jax/probabilistic_circuit.py:48-75`): the root layer.  The units are grouped by their distance from the
root, which gives the layers of a breadth first search. -/
noncomputable def fromNx (env : Env) (shuffle : {α : Type} → List α → List α) (g : Circuit) : Except PyErr Layer := do
  let r ← g.root
  let vs ← g.circuitVars
  let scope := g.varsOf (g.nodes.length + 1)
  let top ← (g.layersFrom r).reverse.foldlM
    (fun children nodes => createLayers env shuffle g scope (vs.sort (· ≤ ·)) nodes children) []
  match top with
  | [] => .error .indexError
  | c :: _ => .ok c.layer

end PM.Jax
