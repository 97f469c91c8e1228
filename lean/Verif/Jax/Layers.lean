import Mathlib.Data.List.Dedup
import Mathlib.Data.List.Sort
import Mathlib.Data.Finset.Sort
import Verif.Num.LogP
import Verif.Graph.Basic
import Verif.Dist.Leaf

/-!
# Layers of the layered (jax) circuits and their likelihood

Arrays are lists.  Simplifications: floats are reals and `-inf` (`LogP`), so a row without any finite weight (NaN in jax) is outside
the theorems; `jax.vmap` over the rows of a batch is one call per row.
-/

namespace PM.Jax

/-- A sparse matrix of log weights (`BCOO`): the shape and the stored entries (row, column, value). -/
structure Coo where
  rows : ℕ
  cols : ℕ
  entries : List (ℕ × ℕ × LogP)

/-- The parameters of a node of an input layer.
* `UniformLayer`: an open interval (`jax/uniform_layer.py:17-30`),
* `DiracDeltaLayer`: location and density cap (`jax/input_layer.py:87-107`),
* `GaussianLayer`: location, `log_scale` and `min_scale` (`jax/gaussian_layer.py:14-31`),
* `DiscreteLayer`: the row of `log_probabilities` (`jax/discrete_layer.py:25-34`). -/
inductive InputNode where
  | uniform (lower upper : ℝ)
  | dirac (location cap : ℝ)
  | gaussian (location logScale minScale : ℝ)
  | discrete (logs : List LogP)

/-- `isinstance(layer, DiracDeltaLayer)`. -/
def InputNode.isDirac : InputNode → Bool
  | .dirac .. => true
  | _ => false

/-- `x.astype(int)` and the index that jax reads with it in an axis of length `k`: a negative index counts from the end, and an index out
of bounds is clamped. -/
noncomputable def stateIndex (k : ℕ) (y : ℝ) : ℕ :=
  let i : ℤ := if 0 ≤ y then ⌊y⌋ else ⌈y⌉
  min (if i < 0 then i + k else i).toNat (k - 1)

/-- `GaussianLayer.scale` (`jax/gaussian_layer.py:49-51`). -/
noncomputable def scale (logScale minScale : ℝ) : ℝ := Real.exp logScale + minScale

/-- The log density of a node: `log_likelihood_of_nodes_single` of the layers (`jax/uniform_layer.py:37-41`, `jax/input_layer.py:54-76,
118-119`, `jax/gaussian_layer.py:53-54`, `jax/discrete_layer.py:43-56`). -/
noncomputable def InputNode.logDensity : InputNode → ℝ → LogP
  | .uniform lower upper, y => if lower < y ∧ y < upper then .fin (-Real.log (upper - lower)) else .negInf
  | .dirac location cap, y => if y = location then LogP.log cap else .negInf
  | .gaussian location logScale minScale, y =>
    LogP.log (ProbabilityTheory.gaussianPDFReal location (Leaf.nnvar (scale logScale minScale)) y)
  | .discrete logs, y => logs.getD (stateIndex logs.length y) .negInf - LogP.logsumexp logs

noncomputable instance : CoeFun InputNode (fun _ => ℝ → LogP) := ⟨InputNode.logDensity⟩

/-- The layers (`jax/inner_layer.py:40-690`, `jax/input_layer.py`).  An input layer is its variable index and the parameters of its
nodes.  A product layer is its number of
nodes, per child layer the row of the sparse matrix `edges` as pairs (node, node of the child layer), and the child layers. -/
inductive Layer where
  | input (index : ℕ) (nodes : List InputNode)
  | sparseSum (logWeights : List Coo) (children : List Layer)
  | denseSum (logWeights : List (List (List LogP))) (children : List Layer)
  | product (nodes : ℕ) (edges : List (List (ℕ × ℕ))) (children : List Layer)

/-- `jnp.unique`: sorted without duplicates. -/
def uniqueSorted (l : List ℕ) : List ℕ := l.dedup.insertionSort (· ≤ ·)

mutual
/-- `Layer.variables`: of an input layer (`inner_layer.py:246-248`), of a sum layer those of the first child
(`:291-294`), of a product layer the sorted distinct ones of all children (`:585-591`). -/
def Layer.variables : Layer → List ℕ
  | .input v _ => [v]
  | .sparseSum _ cs => firstVariables cs
  | .denseSum _ cs => firstVariables cs
  | .product _ _ cs => uniqueSorted (allVariables cs)
def firstVariables : List Layer → List ℕ
  | [] => []
  | c :: _ => c.variables
def allVariables : List Layer → List ℕ
  | [] => []
  | c :: cs => c.variables ++ allVariables cs
end

/-- `number_of_nodes`: of the input layers, of the sum layers (`log_weights[0].shape[0]`, `inner_layer.py:297-298`), of the product
layer (`edges.shape[1]`, `:573-574`). -/
def Layer.numberOfNodes : Layer → ℕ
  | .input _ nodes => nodes.length
  | .sparseSum ws _ => match ws with
    | [] => 0
    | w :: _ => w.rows
  | .denseSum ws _ => match ws with
    | [] => 0
    | w :: _ => w.length
  | .product n _ _ => n

/-- Indexing an array with an array of indices; jax clamps an index behind the end to the last position. -/
def gather {α : Type} (xs : List α) (default : α) (indices : List ℕ) : List α :=
  indices.map fun i => xs.getD (min i (xs.length - 1)) default

/-- `result.at[row].add(value)`; jax drops an update behind the end. -/
noncomputable def scatterAdd (result : List ℝ) (row : ℕ) (value : ℝ) : List ℝ := result.modify row (· + value)

/-- `array.max()`. -/
noncomputable def maxLog : List LogP → LogP
  | [] => .negInf
  | .negInf :: l => maxLog l
  | .fin a :: l => match maxLog l with
    | .negInf => .fin a
    | .fin b => .fin (max a b)

/-- `SparseSumLayer.log_normalization_constants` (`inner_layer.py:325-331`) of row `i`: the maximum is taken over the entries of all
rows and all child layers. -/
noncomputable def sparseNormalization (ws : List Coo) (i : ℕ) : LogP :=
  let data := ws.flatMap Coo.entries
  let maximum := maxLog (data.map fun e => e.2.2)
  maximum + LogP.log ((data.filter fun e => e.1 == i).map fun e => (e.2.2 - maximum).exp).sum

/-- One turn of the loop over the child layers (`inner_layer.py:346-357`). -/
noncomputable def sparseStep (result : List ℝ) (p : Coo × List LogP) : List ℝ :=
  p.1.entries.foldl
    (fun res e => scatterAdd res e.1 (e.2.2 + p.2.getD (min e.2.1 (p.2.length - 1)) .negInf).exp) result

/-- `SparseSumLayer.log_likelihood_of_nodes_single` (`inner_layer.py:343-359`) given the log-likelihoods of the child layers. -/
noncomputable def sparseSumOut (ws : List Coo) (outs : List (List LogP)) : Except PyErr (List LogP) :=
  match ws with
  | [] => .error .indexError
  | w :: _ =>
    let result := (ws.zip outs).foldl sparseStep (List.replicate w.rows 0)
    .ok (result.zipIdx.map fun p => LogP.log p.1 - sparseNormalization ws p.2)

/-- `DenseSumLayer.log_normalization_constants` (`inner_layer.py:472-474`) of row `i`. -/
noncomputable def denseNormalization (ws : List (List (List LogP))) (i : ℕ) : LogP :=
  LogP.logsumexp (ws.flatMap fun w => w.getD i [])

/-- One turn of the loop over the child layers (`inner_layer.py:486-494`). -/
noncomputable def denseStep (result : List ℝ) (p : List (List LogP) × List LogP) : List ℝ :=
  List.zipWith (fun r row => r + (LogP.logsumexp (List.zipWith (· + ·) row p.2)).exp) result p.1

/-- `DenseSumLayer.log_likelihood_of_nodes_single` (`inner_layer.py:483-496`) given the log-likelihoods of the child layers. -/
noncomputable def denseSumOut (ws : List (List (List LogP))) (outs : List (List LogP)) : Except PyErr (List LogP) :=
  match ws with
  | [] => .error .indexError
  | w :: _ =>
    let result := (ws.zip outs).foldl denseStep (List.replicate w.length 0)
    .ok (result.zipIdx.map fun p => LogP.log p.1 - denseNormalization ws p.2)

/-- One turn of the loop over the child layers of a product layer (`inner_layer.py:596-605`). -/
noncomputable def productStep (result : List LogP) (p : List (ℕ × ℕ) × List LogP) : List LogP :=
  p.1.foldl (fun res e => res.modify e.1 (· + p.2.getD (min e.2 (p.2.length - 1)) .negInf)) result

/-- `ProductLayer.log_likelihood_of_nodes_single` (`inner_layer.py:593-607`) given the log-likelihoods of the child layers. -/
noncomputable def productOut (n : ℕ) (es : List (List (ℕ × ℕ))) (outs : List (List LogP)) : List LogP :=
  (es.zip outs).foldl productStep (List.replicate n 0)

mutual
/-- `log_likelihood_of_nodes_single` of the layers.  An input layer compares its parameter arrays with an array of one value
(`uniform_layer.py:40-41`, `gaussian_layer.py:53-54`, `input_layer.py:111-112`, `discrete_layer.py:53-54`); for another length the
broadcast is an error (simplification: jax also accepts an array that happens to have as many values as there are nodes). -/
noncomputable def Layer.logLikelihood : Layer → List ℝ → Except PyErr (List LogP)
  | .input _ nodes, x => match x with
    | [y] => .ok (nodes.map fun f => f y)
    | _ => .error .typeError
  | .sparseSum ws cs, x => do
    let outs ← childLikelihoods cs x
    sparseSumOut ws outs
  | .denseSum ws cs, x => do
    let outs ← childLikelihoods cs x
    denseSumOut ws outs
  | .product n es cs, x => do
    let outs ← slicedLikelihoods cs x
    .ok (productOut n es outs)
/-- The child layers of a sum layer get the array itself (`inner_layer.py:348`, `488`). -/
noncomputable def childLikelihoods : List Layer → List ℝ → Except PyErr (List (List LogP))
  | [], _ => .ok []
  | c :: cs, x => do
    let out ← c.logLikelihood x
    let outs ← childLikelihoods cs x
    .ok (out :: outs)
/-- The child layers of a product layer get the columns of their variables, `x[layer.variables]` (`inner_layer.py:598`). -/
noncomputable def slicedLikelihoods : List Layer → List ℝ → Except PyErr (List (List LogP))
  | [], _ => .ok []
  | c :: cs, x => do
    let out ← c.logLikelihood (gather x 0 c.variables)
    let outs ← slicedLikelihoods cs x
    .ok (out :: outs)
end

end PM.Jax
