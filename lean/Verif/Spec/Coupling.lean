import Verif.Spec.LayerMass
import Verif.Jax.Coupling

/-!
# Specification: the structure and the parameters of a layered circuit
-/

namespace PM.Spec
open PM.Jax

/-- An input node without its trainable parameters: the location and the log scale of a normal distribution are forgotten. -/
def blankNode : InputNode → InputNode
  | .gaussian _ _ m => .gaussian 0 0 m
  | f => f

/-- A sparse matrix without its values. -/
def blankMatrix (w : Coo) : Coo := ⟨w.rows, w.cols, w.entries.map fun e => (e.1, e.2.1, LogP.fin 0)⟩

mutual
/-- The structure of a layered circuit: all trainable parameters of sparse sum layers and Gaussian layers are forgotten. -/
def structureOf : Layer → Layer
  | .input v nodes => .input v (nodes.map blankNode)
  | .sparseSum ws cs => .sparseSum (ws.map blankMatrix) (structuresOf cs)
  | .denseSum ws cs => .denseSum ws (structuresOf cs)
  | .product n es cs => .product n es (structuresOf cs)
def structuresOf : List Layer → List Layer
  | [] => []
  | c :: cs => structureOf c :: structuresOf cs
end

/-- The location of a normal distribution. -/
def locationOf : InputNode → Option LogP
  | .gaussian l _ _ => some (.fin l)
  | _ => none

/-- The log scale of a normal distribution. -/
def logScaleOf : InputNode → Option LogP
  | .gaussian _ s _ => some (.fin s)
  | _ => none

mutual
/-- The trainable parameters of a circuit of sparse sum, product, uniform, Dirac and Gaussian layers: for every layer those of its
children, followed by its own. -/
def parametersOf : Layer → List LogP
  | .input _ nodes => nodes.filterMap locationOf ++ nodes.filterMap logScaleOf
  | .sparseSum ws cs => parametersOfAll cs ++ ws.flatMap fun w => w.entries.map fun e => e.2.2
  | .denseSum _ cs => parametersOfAll cs
  | .product _ _ cs => parametersOfAll cs
def parametersOfAll : List Layer → List LogP
  | [] => []
  | c :: cs => parametersOf c ++ parametersOfAll cs
end

/-- Circuits of sparse sum, product, uniform, Dirac and Gaussian layers. -/
inductive VectorParameters : Layer → Prop where
  | input (v : ℕ) (nodes : List InputNode) (nodiscrete : ∀ f ∈ nodes, ∀ logs, f ≠ .discrete logs) : VectorParameters (.input v nodes)
  | sparseSum (ws : List Coo) (cs : List Layer) (children : ∀ c ∈ cs, VectorParameters c) : VectorParameters (.sparseSum ws cs)
  | product (n : ℕ) (es : List (List (ℕ × ℕ))) (cs : List Layer) (children : ∀ c ∈ cs, VectorParameters c) :
      VectorParameters (.product n es cs)

/-- The row `x` has the values `z` in the columns of the conditioner and the values `y 0, …, y (k-1)` in the columns of the circuit. -/
structure RowOf (c : Coupling) (k : ℕ) (z : List ℝ) (y : ℕ → ℝ) (x : List ℝ) : Prop where
  conditioner : c.conditionerColumns.map (fun j => x[j]?) = z.map some
  circuit : c.circuitColumns.map (fun j => x[j]?) = (List.range k).map fun j => some (y j)

/-- The conditional likelihood of a row for node `i`. -/
noncomputable def conditionalLikelihood (c : Coupling) (i : ℕ) (x : List ℝ) : ℝ :=
  match c.conditionalLogLikelihood x with
  | .ok out => (out.getD i .negInf).exp
  | .error _ => 0

end PM.Spec
