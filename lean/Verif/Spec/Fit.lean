import Verif.Spec.LayerMass
import Verif.Jax.Fit

/-!
# Specification: training
-/

namespace PM.Spec
open PM.Jax

/-- `0` for a finite number; `-inf` stays. -/
def blankLog : LogP → LogP
  | .negInf => .negInf
  | .fin _ => .fin 0

/-- The parameters of an input node that are not trained: the interval of a uniform node, a Dirac node, the minimal scale of a Gaussian node,
the number of states and the impossible states of a discrete node. -/
def blankInput : InputNode → InputNode
  | .gaussian _ _ m => .gaussian 0 0 m
  | .discrete logs => .discrete (logs.map blankLog)
  | f => f

mutual
/-- Everything about a layer except for the trained numbers: all layers, indices, shapes, edges and fixed parameters. -/
def skeleton : Layer → Layer
  | .input v nodes => .input v (nodes.map blankInput)
  | .sparseSum ws cs => .sparseSum (ws.map fun w => ⟨w.rows, w.cols, w.entries.map fun e => (e.1, e.2.1, blankLog e.2.2)⟩) (skeletons cs)
  | .denseSum ws cs => .denseSum (ws.map fun w => w.map fun row => row.map blankLog) (skeletons cs)
  | .product n es cs => .product n es (skeletons cs)
def skeletons : List Layer → List Layer
  | [] => []
  | c :: cs => skeleton c :: skeletons cs
end

/-- The mean of the logarithms of numbers that are not negative; `-inf` if one of them is zero. -/
noncomputable def meanOfLogs (values : List ℝ) : LogP :=
  open Classical in if ∀ x ∈ values, 0 < x then .fin ((values.map Real.log).sum / values.length) else .negInf

/-- The densities that the nodes of the layer describe at a row. -/
noncomputable def valuesAt (L : Layer) (row : List ℝ) : List ℝ := layerValue (fun v => row.getD v 0) L

/-- The mean log-likelihood of the rows under the node of their label: what training with labels should maximise (the negative cross
entropy). -/
noncomputable def labelledMean (L : Layer) (data : List (List ℝ)) (labels : List ℕ) : LogP :=
  meanOfLogs (List.zipWith (fun row y => (valuesAt L row).getD y 0) data labels)

end PM.Spec
