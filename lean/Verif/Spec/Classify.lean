import Verif.Spec.Layers
import Verif.Jax.Json

/-! # What the joint model of a classification circuit is -/

namespace PM.Spec
open PM.Jax

/-- The probability of class `k` among `n`: by default all classes have the same. -/
noncomputable def classProbability (probs : Option (List ℝ)) (n k : ℕ) : ℝ :=
  match probs with
  | none => 1 / n
  | some ps => ps.getD k 0 / ps.sum

/-- Class probabilities for `n` classes: one per class, not negative, not all zero. -/
def ValidClasses (n : ℕ) : Option (List ℝ) → Prop
  | none => True
  | some ps => ps.length = n ∧ (∀ p ∈ ps, 0 ≤ p) ∧ ∃ p ∈ ps, 0 < p

/-- The input layers are over variables with an index below `k`. -/
inductive IndicesBelow (k : ℕ) : Layer → Prop where
  | input (v : ℕ) (nodes : List InputNode) (h : v < k) : IndicesBelow k (.input v nodes)
  | sparseSum (ws : List Coo) (cs : List Layer) (children : ∀ c ∈ cs, IndicesBelow k c) : IndicesBelow k (.sparseSum ws cs)
  | denseSum (ws : List (List (List LogP))) (cs : List Layer) (children : ∀ c ∈ cs, IndicesBelow k c) : IndicesBelow k (.denseSum ws cs)
  | product (n : ℕ) (es : List (List (ℕ × ℕ))) (cs : List Layer) (children : ∀ c ∈ cs, IndicesBelow k c) : IndicesBelow k (.product n es cs)

/-- The input layers hold uniform or normal distributions. -/
inductive DenseInputs : Layer → Prop where
  | input (v : ℕ) (nodes : List InputNode)
      (h : ∀ f ∈ nodes, (∃ a b, f = .uniform a b) ∨ ∃ μ s t, f = .gaussian μ s t) : DenseInputs (.input v nodes)
  | sparseSum (ws : List Coo) (cs : List Layer) (children : ∀ c ∈ cs, DenseInputs c) : DenseInputs (.sparseSum ws cs)
  | denseSum (ws : List (List (List LogP))) (cs : List Layer) (children : ∀ c ∈ cs, DenseInputs c) : DenseInputs (.denseSum ws cs)
  | product (n : ℕ) (es : List (List (ℕ × ℕ))) (cs : List Layer) (children : ∀ c ∈ cs, DenseInputs c) : DenseInputs (.product n es cs)

end PM.Spec
