import Verif.Jax.Layers
import Verif.Jax.Indices

/-!
# Coupling circuits: layered circuits whose parameters are computed from other columns

`eqx.partition(layer, eqx.is_inexact_array)` takes the floating point arrays out of a layer: the child layers' arrays first, then the
weights of the layer (the order of the fields, `jax/inner_layer.py:201`, `267`).  The fields of uniform and Dirac layers and the edges of
product layers are static (`jax/input_layer.py:35,92,97`, `jax/inner_layer.py:551`) and therefore not among them.
-/

namespace PM.Jax

/-- A node of a `GaussianLayer`. -/
def InputNode.isGaussian : InputNode → Bool
  | .gaussian .. => true
  | _ => false

/-- A node of a `DiscreteLayer`. -/
def InputNode.isDiscrete : InputNode → Bool
  | .discrete .. => true
  | _ => false

/-- The lengths (`len(leaf)`) of the arrays of an input layer: `location` and `log_scale` (`jax/gaussian_layer.py:19-20`), or
`log_probabilities` (`jax/discrete_layer.py:25`), whose length is the number of its rows. -/
def inputLengths (nodes : List InputNode) : List ℕ :=
  if nodes.any InputNode.isDiscrete then [nodes.length]
  else if nodes.any InputNode.isGaussian then [nodes.countP InputNode.isGaussian, nodes.countP InputNode.isGaussian]
  else []

mutual
/-- The lengths of the flattened parameter arrays (`jax/coupling_circuit.py:84-92`); of a sparse matrix the stored values, of a dense
matrix the rows. -/
def Layer.parameterLengths : Layer → List ℕ
  | .input _ nodes => inputLengths nodes
  | .sparseSum ws cs => childParameterLengths cs ++ ws.map fun w => w.entries.length
  | .denseSum ws cs => childParameterLengths cs ++ ws.map List.length
  | .product _ _ cs => childParameterLengths cs
def childParameterLengths : List Layer → List ℕ
  | [] => []
  | c :: cs => c.parameterLengths ++ childParameterLengths cs
end

/-- Put new locations and log scales into the nodes of a Gaussian layer. -/
def setGaussians : List InputNode → List ℝ → List ℝ → List InputNode
  | [], _, _ => []
  | .gaussian l s m :: nodes, locs, scales => .gaussian (locs.headD l) (scales.headD s) m :: setGaussians nodes locs.tail scales.tail
  | f :: nodes, locs, scales => f :: setGaussians nodes locs scales

/-- Put new values into a sparse matrix; the indices are kept. -/
def Coo.setValues (w : Coo) (values : List ℝ) : Coo :=
  { w with entries := w.entries.zipWith (fun e v => (e.1, e.2.1, LogP.fin v)) values }

/-- Put new values into the sparse matrices of a layer; also returns the arrays that are left. -/
def setWeights : List Coo → List (List ℝ) → List Coo × List (List ℝ)
  | [], arrays => ([], arrays)
  | w :: ws, arrays =>
    let r := setWeights ws arrays.tail
    (w.setValues (arrays.headD []) :: r.1, r.2)

/-- Put new parameters into an input layer.  A vector instead of the matrix `log_probabilities` is a `ValueError` when the likelihood is
computed (`jax/discrete_layer.py:44`: there is no axis 1); the model raises it here. -/
def setInput (nodes : List InputNode) (arrays : List (List ℝ)) : Except PyErr (List InputNode × List (List ℝ)) :=
  if nodes.any InputNode.isDiscrete then .error .valueError
  else if nodes.any InputNode.isGaussian then .ok (setGaussians nodes (arrays.headD []) (arrays.tail.headD []), arrays.tail.tail)
  else .ok (nodes, arrays)

mutual
/-- `tree_unflatten` and `eqx.combine` (`jax/coupling_circuit.py:116-119`): every array is put into its place; also returns the arrays
that are left.  A vector instead of a dense matrix of weights is a `ValueError` when the likelihood is computed
(`jax/inner_layer.py:469,492`: there is no axis 1); the model raises it here. -/
def Layer.setArrays : Layer → List (List ℝ) → Except PyErr (Layer × List (List ℝ))
  | .input v nodes, arrays => do
    let r ← setInput nodes arrays
    .ok (.input v r.1, r.2)
  | .sparseSum ws cs, arrays => do
    let r ← setChildArrays cs arrays
    .ok (.sparseSum (setWeights ws r.2).1 r.1, (setWeights ws r.2).2)
  | .denseSum _ cs, arrays => do
    let _ ← setChildArrays cs arrays
    .error .valueError
  | .product n es cs, arrays => do
    let r ← setChildArrays cs arrays
    .ok (.product n es r.1, r.2)
def setChildArrays : List Layer → List (List ℝ) → Except PyErr (List Layer × List (List ℝ))
  | [], arrays => .ok ([], arrays)
  | c :: cs, arrays => do
    let r ← c.setArrays arrays
    let s ← setChildArrays cs r.2
    .ok (r.1 :: s.1, s.2)
end

/-- `create_circuit_from_parameters` (`jax/coupling_circuit.py:99-120`). -/
def createCircuit (L : Layer) (params : List ℝ) : Except PyErr Layer := do
  let r ← L.setArrays (splitParameters L.parameterLengths params)
  .ok r.1

/-- `CouplingCircuit` (`jax/coupling_circuit.py:37-68`); the conditioner is any function. -/
structure Coupling where
  conditioner : List ℝ → List ℝ
  conditionerColumns : List ℕ
  circuit : Layer
  circuitColumns : List ℕ

/-- `conditional_log_likelihood_single` (`jax/coupling_circuit.py:122-131`); `conditional_log_likelihood` (`:133-134`) is one call per
row. -/
noncomputable def Coupling.conditionalLogLikelihood (c : Coupling) (x : List ℝ) : Except PyErr (List LogP) := do
  let L ← createCircuit c.circuit (c.conditioner (gather x 0 c.conditionerColumns))
  L.logLikelihood (gather x 0 c.circuitColumns)

end PM.Jax
