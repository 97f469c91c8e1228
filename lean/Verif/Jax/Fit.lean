import Verif.Jax.Coupling

/-!
# Training of layered circuits

`ProbabilisticCircuit.fit` and `ClassificationCircuit.fit` (`jax/probabilistic_circuit.py:105-135`, `208-239`).  Differentiation
(`eqx.filter_value_and_grad`) and the optimizer (`optax`) are parameters: any functions that return one real number per trained number.
Simplification: numbers are reals or `-inf`; an update that is not a finite number (e.g. the gradient of a loss that is infinite) is
outside.
-/

namespace PM.Jax

/-- `p + u` for one trained number, which may be `-inf`. -/
noncomputable def stepLog (p : LogP) (u : ℝ) : LogP := p + .fin u

/-- Add updates to the numbers of an array; also returns the updates that are left. -/
noncomputable def updateRow : List LogP → List ℝ → List LogP × List ℝ
  | [], us => ([], us)
  | p :: ps, us =>
    let r := updateRow ps us.tail
    (stepLog p (us.headD 0) :: r.1, r.2)

/-- Add updates to the rows of a matrix. -/
noncomputable def updateRows : List (List LogP) → List ℝ → List (List LogP) × List ℝ
  | [], us => ([], us)
  | row :: rows, us =>
    let r := updateRow row us
    let s := updateRows rows r.2
    (r.1 :: s.1, s.2)

/-- Add updates to the matrices of a dense sum layer. -/
noncomputable def updateMatrices : List (List (List LogP)) → List ℝ → List (List (List LogP)) × List ℝ
  | [], us => ([], us)
  | m :: ms, us =>
    let r := updateRows m us
    let s := updateMatrices ms r.2
    (r.1 :: s.1, s.2)

/-- Add updates to the stored values of a sparse matrix; the indices are integers and no parameters. -/
noncomputable def updateEntries : List (ℕ × ℕ × LogP) → List ℝ → List (ℕ × ℕ × LogP) × List ℝ
  | [], us => ([], us)
  | e :: es, us =>
    let r := updateEntries es us.tail
    ((e.1, e.2.1, stepLog e.2.2 (us.headD 0)) :: r.1, r.2)

/-- Add updates to the sparse matrices of a sum layer. -/
noncomputable def updateSparse : List Coo → List ℝ → List Coo × List ℝ
  | [], us => ([], us)
  | w :: ws, us =>
    let r := updateEntries w.entries us
    let s := updateSparse ws r.2
    ({ w with entries := r.1 } :: s.1, s.2)

/-- Add updates to the locations of a Gaussian layer (`jax/gaussian_layer.py:19`). -/
noncomputable def updateLocations : List InputNode → List ℝ → List InputNode × List ℝ
  | [], us => ([], us)
  | .gaussian l s m :: nodes, us =>
    let r := updateLocations nodes us.tail
    (.gaussian (l + us.headD 0) s m :: r.1, r.2)
  | f :: nodes, us =>
    let r := updateLocations nodes us
    (f :: r.1, r.2)

/-- Add updates to the log scales of a Gaussian layer (`jax/gaussian_layer.py:20`); `min_scale` is static (`:21`). -/
noncomputable def updateScales : List InputNode → List ℝ → List InputNode × List ℝ
  | [], us => ([], us)
  | .gaussian l s m :: nodes, us =>
    let r := updateScales nodes us.tail
    (.gaussian l (s + us.headD 0) m :: r.1, r.2)
  | f :: nodes, us =>
    let r := updateScales nodes us
    (f :: r.1, r.2)

/-- Add updates to the rows of `log_probabilities` (`jax/discrete_layer.py:25`). -/
noncomputable def updateDiscrete : List InputNode → List ℝ → List InputNode × List ℝ
  | [], us => ([], us)
  | .discrete logs :: nodes, us =>
    let r := updateRow logs us
    let s := updateDiscrete nodes r.2
    (.discrete r.1 :: s.1, s.2)
  | f :: nodes, us =>
    let r := updateDiscrete nodes us
    (f :: r.1, r.2)

/-- Add updates to an input layer.  The fields of uniform and Dirac layers are static (`jax/input_layer.py:35,92,97`), so there is
nothing to update. -/
noncomputable def updateInput (nodes : List InputNode) (us : List ℝ) : List InputNode × List ℝ :=
  let r := updateLocations nodes us
  let s := updateScales r.1 r.2
  updateDiscrete s.1 s.2

mutual
/-- `eqx.apply_updates(self.root, updates)` (`jax/probabilistic_circuit.py:134`): every inexact array of the layer gets its updates
added, first those of the child layers and then the weights (the order of the fields); the static fields, among them the edges of product
layers (`jax/inner_layer.py:551`), stay as they are.  Also returns the updates that are left. -/
noncomputable def Layer.applyUpdates : Layer → List ℝ → Layer × List ℝ
  | .input v nodes, us =>
    let r := updateInput nodes us
    (.input v r.1, r.2)
  | .sparseSum ws cs, us =>
    let r := applyChildUpdates cs us
    let s := updateSparse ws r.2
    (.sparseSum s.1 r.1, s.2)
  | .denseSum ws cs, us =>
    let r := applyChildUpdates cs us
    let s := updateMatrices ws r.2
    (.denseSum s.1 r.1, s.2)
  | .product n es cs, us =>
    let r := applyChildUpdates cs us
    (.product n es r.1, r.2)
noncomputable def applyChildUpdates : List Layer → List ℝ → List Layer × List ℝ
  | [], us => ([], us)
  | c :: cs, us =>
    let r := c.applyUpdates us
    let s := applyChildUpdates cs r.2
    (r.1 :: s.1, s.2)
end

/-- An optimizer (`optax.GradientTransformation`): the initial state, and the updates and the next state for gradients. -/
structure Optimizer (S : Type) where
  init : Layer → S
  update : List ℝ → S → Layer → List ℝ × S

/-- `log_likelihood_of_nodes` on a batch (`jax/inner_layer.py:68-72`). -/
noncomputable def Layer.batch (L : Layer) (data : List (List ℝ)) : Except PyErr (List (List LogP)) := data.mapM L.logLikelihood

/-- The mean of all numbers of an array (`jnp.mean`); of an empty array it is `nan` in jax and `0` here. -/
noncomputable def meanLog (l : List LogP) : LogP := match l.foldr (· + ·) 0 with
  | .negInf => .negInf
  | .fin total => .fin (total / l.length)

/-- The negative of the loss of `ProbabilisticCircuit.fit` (`jax/probabilistic_circuit.py:116-119`): the mean over all rows and nodes. -/
noncomputable def Layer.averageLogLikelihood (L : Layer) (data : List (List ℝ)) : Except PyErr LogP := do
  let ll ← L.batch data
  .ok (meanLog ll.flatten)

/-- The loop of `fit` (`jax/probabilistic_circuit.py:128-134`, `232-238`) for a loss and its gradient. -/
noncomputable def fitLoop {S : Type} (opt : Optimizer S) (loss : Layer → Except PyErr LogP) (grad : Layer → List ℝ) :
    ℕ → Layer → S → Except PyErr Layer
  | 0, L, _ => .ok L
  | epochs + 1, L, s => do
    let _ ← loss L
    let r := opt.update (grad L) s L
    fitLoop opt loss grad epochs (L.applyUpdates r.1).1 r.2

/-- `ProbabilisticCircuit.fit` (`jax/probabilistic_circuit.py:105-135`). -/
noncomputable def Layer.fit {S : Type} (L : Layer) (opt : Optimizer S) (grad : Layer → List ℝ) (data : List (List ℝ)) (epochs : ℕ) :
    Except PyErr Layer :=
  fitLoop opt (fun L => L.averageLogLikelihood data) grad epochs L (opt.init L)

/-- `log_probs[y]` for an array `y` of integers (`jax/probabilistic_circuit.py:222`): the rows with these indices; jax clamps an index
behind the end. -/
def rowsAt (logProbs : List (List LogP)) (labels : List ℕ) : List LogP := (gather logProbs [] labels).flatten

/-- The negative of the loss of `ClassificationCircuit.fit` (`jax/probabilistic_circuit.py:219-222`) for integer labels. -/
noncomputable def Layer.classificationObjective (L : Layer) (data : List (List ℝ)) (labels : List ℕ) : Except PyErr LogP := do
  let logProbs ← L.batch data
  .ok (meanLog (rowsAt logProbs labels))

/-- `ClassificationCircuit.fit` (`jax/probabilistic_circuit.py:208-239`) for integer labels; labels that are booleans raise, because the
loss is compiled and jax does not compile indexing with booleans. -/
noncomputable def Layer.fitClassifier {S : Type} (L : Layer) (opt : Optimizer S) (grad : Layer → List ℝ) (data : List (List ℝ))
    (labels : List ℕ) (epochs : ℕ) : Except PyErr Layer :=
  fitLoop opt (fun L => L.classificationObjective data labels) grad epochs L (opt.init L)

end PM.Jax
