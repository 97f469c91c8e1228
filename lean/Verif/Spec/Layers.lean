import Verif.Jax.Layers

/-!
# What a layered circuit means

The meaning is given on plain real numbers and on a full assignment `a` of values to variable indices; it does not slice arrays and
does not use logarithms.
-/

namespace PM.Spec
open PM.Jax

/-- The weighted mean of values, for a list of pairs (weight, value). -/
noncomputable def weightedMean (l : List (ℝ × ℝ)) : ℝ := (l.map fun p => p.1 * p.2).sum / (l.map fun p => p.1).sum

/-- The edges of node `i` of a sparse sum layer into one child layer, as pairs (weight, value of the child node). -/
noncomputable def sparseTerms (w : Coo) (values : List ℝ) (i : ℕ) : List (ℝ × ℝ) :=
  (w.entries.filter fun e => e.1 == i).map fun e => (e.2.2.exp, values.getD e.2.1 0)

/-- The edges of node `i` of a dense sum layer into one child layer, as pairs (weight, value of the child node). -/
noncomputable def denseTerms (w : List (List LogP)) (values : List ℝ) (i : ℕ) : List (ℝ × ℝ) :=
  ((w.getD i []).map LogP.exp).zip values

/-- The values of the child nodes that node `i` of a product layer is connected with in one child layer. -/
noncomputable def productFactors (es : List (ℕ × ℕ)) (values : List ℝ) (i : ℕ) : List ℝ :=
  (es.filter fun e => e.1 == i).map fun e => values.getD e.2 0

mutual
/-- The likelihoods of the nodes of a layer under the assignment `a`. -/
noncomputable def layerValue (a : ℕ → ℝ) : Layer → List ℝ
  | .input v nodes => nodes.map fun f => (f (a v)).exp
  | .sparseSum ws cs => (List.range (Layer.sparseSum ws cs).numberOfNodes).map fun i =>
      weightedMean ((ws.zip (layerValues a cs)).flatMap fun p => sparseTerms p.1 p.2 i)
  | .denseSum ws cs => (List.range (Layer.denseSum ws cs).numberOfNodes).map fun i =>
      weightedMean ((ws.zip (layerValues a cs)).flatMap fun p => denseTerms p.1 p.2 i)
  | .product n es cs => (List.range n).map fun i =>
      ((es.zip (layerValues a cs)).flatMap fun p => productFactors p.1 p.2 i).prod
noncomputable def layerValues (a : ℕ → ℝ) : List Layer → List (List ℝ)
  | [] => []
  | c :: cs => layerValue a c :: layerValues a cs
end

/-- The layers are put together as their `validate` methods ask for (`inner_layer.py:273-281`, `567-570`), the stored indices lie
within the shapes, and every node of a sum layer has a child with positive weight. -/
inductive Regular : Layer → Prop where
  | input (v : ℕ) (nodes : List InputNode) : Regular (.input v nodes)
  | sparseSum (ws : List Coo) (cs : List Layer) (n : ℕ) (children : ∀ c ∈ cs, Regular c) (nonempty : ws ≠ [])
      (shapes : List.Forall₂ (fun (w : Coo) (c : Layer) => w.rows = n ∧ w.cols = c.numberOfNodes) ws cs)
      (indices : ∀ w ∈ ws, ∀ e ∈ w.entries, e.1 < w.rows ∧ e.2.1 < w.cols)
      (weights : ∀ i < n, ∃ w ∈ ws, ∃ e ∈ w.entries, e.1 = i ∧ e.2.2 ≠ LogP.negInf) : Regular (.sparseSum ws cs)
  | denseSum (ws : List (List (List LogP))) (cs : List Layer) (n : ℕ) (children : ∀ c ∈ cs, Regular c) (nonempty : ws ≠ [])
      (shapes : List.Forall₂ (fun (w : List (List LogP)) (c : Layer) => w.length = n ∧ ∀ row ∈ w, row.length = c.numberOfNodes) ws cs)
      (weights : ∀ i < n, ∃ w ∈ ws, ∃ l ∈ w.getD i [], l ≠ LogP.negInf) : Regular (.denseSum ws cs)
  | product (n : ℕ) (es : List (List (ℕ × ℕ))) (cs : List Layer) (children : ∀ c ∈ cs, Regular c)
      (indices : List.Forall₂ (fun (e : List (ℕ × ℕ)) (c : Layer) => ∀ p ∈ e, p.1 < n ∧ p.2 < c.numberOfNodes) es cs) :
      Regular (.product n es cs)

/-- A layer over the single variable `v`: an input layer, or sums of such layers. -/
inductive OneVariable (v : ℕ) : Layer → Prop where
  | input (nodes : List InputNode) : OneVariable v (.input v nodes)
  | sparseSum (ws : List Coo) (cs : List Layer) (nonempty : cs ≠ []) (children : ∀ c ∈ cs, OneVariable v c) :
      OneVariable v (.sparseSum ws cs)
  | denseSum (ws : List (List (List LogP))) (cs : List Layer) (nonempty : cs ≠ []) (children : ∀ c ∈ cs, OneVariable v c) :
      OneVariable v (.denseSum ws cs)

/-- Layers over the variables `0, …, k-1` in which the children of a product layer are over a single variable or over an initial segment
of the variables. -/
inductive Aligned : ℕ → Layer → Prop where
  | one (c : Layer) (h : OneVariable 0 c) : Aligned 1 c
  | sparseSum (k : ℕ) (ws : List Coo) (cs : List Layer) (children : ∀ c ∈ cs, Aligned k c) : Aligned k (.sparseSum ws cs)
  | denseSum (k : ℕ) (ws : List (List (List LogP))) (cs : List Layer) (children : ∀ c ∈ cs, Aligned k c) :
      Aligned k (.denseSum ws cs)
  | product (k n : ℕ) (es : List (List (ℕ × ℕ))) (cs : List Layer)
      (initial : ∀ c ∈ cs, (¬ ∃ v < k, OneVariable v c) → ∃ j ≤ k, c.variables = List.range j)
      (children : ∀ c ∈ cs, (¬ ∃ v < k, OneVariable v c) → Aligned c.variables.length c) : Aligned k (.product n es cs)

end PM.Spec
