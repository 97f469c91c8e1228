import Verif.Jax.Json

/-!
# Classification circuits

`ClassificationCircuit.as_probabilistic_circuit` (`jax/probabilistic_circuit.py:145-202`): a layered circuit with one root node per class
becomes a layered circuit over the variables and the class.
-/

namespace PM.Jax

/-- The input layers without a method `__deepcopy__` (`jax/input_layer.py:87-159`, `jax/discrete_layer.py:23-101`). -/
def InputNode.noCopy : InputNode → Bool
  | .dirac .. | .discrete .. => true
  | _ => false

mutual
/-- `__deepcopy__` of the layers (`jax/inner_layer.py:99-103, 361-364, 496-499, 614-617`, `jax/input_layer.py:83-84`,
`jax/gaussian_layer.py:33-34`).  The arrays of a Gaussian layer are shared, they are never changed. -/
def Layer.deepcopy : Layer → Except PyErr Layer
  | .input v nodes => if nodes.any InputNode.noCopy then .error .notImplementedError else .ok (.input v nodes)
  | .sparseSum ws cs => do .ok (.sparseSum ws (← deepcopies cs))
  | .denseSum ws cs => do .ok (.denseSum ws (← deepcopies cs))
  | .product n es cs => do .ok (.product n es (← deepcopies cs))
def deepcopies : List Layer → Except PyErr (List Layer)
  | [] => .ok []
  | c :: cs => do
    let c ← c.deepcopy
    let cs ← deepcopies cs
    .ok (c :: cs)
end

mutual
/-- The loop that makes room for the class variable (`jax/probabilistic_circuit.py:174-183`).  `reset_variables` of the inner layers: their
variables are computed from the input layers again. -/
def Layer.shift (i : ℕ) : Layer → Layer
  | .input v nodes => .input (if i ≤ v then v + 1 else v) nodes
  | .sparseSum ws cs => .sparseSum ws (shifts i cs)
  | .denseSum ws cs => .denseSum ws (shifts i cs)
  | .product n es cs => .product n es (shifts i cs)
def shifts (i : ℕ) : List Layer → List Layer
  | [] => []
  | c :: cs => c.shift i :: shifts i cs
end

/-- The input layer of the class: `DiscreteLayer(class_variable_index, jnp.log(jnp.eye(number_of_classes)))`
(`jax/probabilistic_circuit.py:186`). -/
noncomputable def classLayer (i n : ℕ) : Layer :=
  .input i ((List.range n).map fun k => .discrete ((List.range n).map fun j => LogP.log (if j = k then 1 else 0)))

/-- The product layer and the root (`jax/probabilistic_circuit.py:188-197`): edges from node `k` to node `k` of both child layers, weights
`log(class_probabilities)`. -/
noncomputable def classRoot (i n : ℕ) (probs : List ℝ) (root : Layer) : Layer :=
  let diagonal := (List.range n).map fun k => (k, k)
  .sparseSum [⟨1, n, probs.zipIdx.map fun p => (0, p.2, LogP.log p.1)⟩] [.product n [diagonal, diagonal] [root, classLayer i n]]

/-- `ClassificationCircuit.as_probabilistic_circuit` (`jax/probabilistic_circuit.py:145-202`) for a class variable with `states` states.
Simplification: class probabilities that are not as many as the classes are an error here (jax accepts them and reads beyond the array). -/
noncomputable def asProbabilisticCircuit (m : Model) (classVar : ℕ) (states : ℕ) (probs : Option (List ℝ)) : Except PyErr Model := do
  if states ≠ m.root.numberOfNodes then .error .assertionError
  else
    let vars := uniqueSorted (m.vars ++ [classVar])
    let i := vars.idxOf classVar
    let probs := probs.getD (List.replicate m.root.numberOfNodes (1 / m.root.numberOfNodes))
    let root ← m.root.deepcopy
    if probs.length ≠ m.root.numberOfNodes then .error .valueError
    else .ok ⟨vars, classRoot i m.root.numberOfNodes probs (root.shift i)⟩

end PM.Jax
