import Verif.Spec.Layers

/-!
# Which layered circuits are circuits

The conditions speak about the nodes of the layers and their connections, not about the conversion.
-/

namespace PM.Spec
open PM.Jax

/-- Parameters of a distribution: an interval that is not empty, a positive density cap, a minimal scale that is not negative (as
`GaussianLayer.validate` asks for), a row of probabilities that are not all zero. -/
def ValidInput : InputNode → Prop
  | .uniform lower upper => lower < upper
  | .dirac _ cap => 0 < cap
  | .gaussian _ _ minScale => 0 ≤ minScale
  | .discrete logs => ∃ l ∈ logs, l ≠ LogP.negInf

/-- The union of a list of sets. -/
def unionOf (l : List (Finset ℕ)) : Finset ℕ := l.foldr (· ∪ ·) ∅

mutual
/-- The indices of the variables below each node of a layer. -/
def nodeScopes : Layer → List (Finset ℕ)
  | .input v nodes => nodes.map fun _ => {v}
  | .sparseSum ws cs => (List.range (Layer.sparseSum ws cs).numberOfNodes).map fun i =>
      unionOf ((ws.zip (layerScopes cs)).flatMap fun p => (p.1.entries.filter fun e => e.1 == i).map fun e => p.2.getD e.2.1 ∅)
  | .denseSum ws cs => (List.range (Layer.denseSum ws cs).numberOfNodes).map fun i =>
      unionOf ((ws.zip (layerScopes cs)).flatMap fun p => ((p.1.getD i []).zip p.2).map Prod.snd)
  | .product n es cs => (List.range n).map fun i =>
      unionOf ((es.zip (layerScopes cs)).flatMap fun p => (p.1.filter fun e => e.1 == i).map fun e => p.2.getD e.2 ∅)
def layerScopes : List Layer → List (List (Finset ℕ))
  | [] => []
  | c :: cs => nodeScopes c :: layerScopes cs
end

/-- All children of a node of a sum layer are over the variables of the node. -/
inductive SmoothLayer : Layer → Prop where
  | input (v : ℕ) (nodes : List InputNode) : SmoothLayer (.input v nodes)
  | sparseSum (ws : List Coo) (cs : List Layer) (children : ∀ c ∈ cs, SmoothLayer c)
      (same : ∀ p ∈ ws.zip (layerScopes cs), ∀ e ∈ p.1.entries, p.2.getD e.2.1 ∅ = (nodeScopes (.sparseSum ws cs)).getD e.1 ∅) :
      SmoothLayer (.sparseSum ws cs)
  | denseSum (ws : List (List (List LogP))) (cs : List Layer) (children : ∀ c ∈ cs, SmoothLayer c)
      (same : ∀ S ∈ layerScopes cs, ∀ s ∈ S, ∀ s' ∈ nodeScopes (.denseSum ws cs), s = s') : SmoothLayer (.denseSum ws cs)
  | product (n : ℕ) (es : List (List (ℕ × ℕ))) (cs : List Layer) (children : ∀ c ∈ cs, SmoothLayer c) :
      SmoothLayer (.product n es cs)

/-- The input layers are over variables with an index below `k` and have valid parameters.  No edge is stored twice (`unique_indices` of
`BCOO`; a product node has at most one child per child layer).  Every node of a child layer is the child of a node. -/
inductive Tidy (k : ℕ) : Layer → Prop where
  | input (v : ℕ) (nodes : List InputNode) (index : v < k) (params : ∀ f ∈ nodes, ValidInput f) : Tidy k (.input v nodes)
  | sparseSum (ws : List Coo) (cs : List Layer) (children : ∀ c ∈ cs, Tidy k c)
      (unique : ∀ w ∈ ws, (w.entries.map fun e => (e.1, e.2.1)).Nodup)
      (used : ∀ p ∈ ws.zip cs, ∀ j < p.2.numberOfNodes, ∃ e ∈ p.1.entries, e.2.1 = j) : Tidy k (.sparseSum ws cs)
  | denseSum (ws : List (List (List LogP))) (cs : List Layer) (children : ∀ c ∈ cs, Tidy k c)
      (used : 0 < (Layer.denseSum ws cs).numberOfNodes) : Tidy k (.denseSum ws cs)
  | product (n : ℕ) (es : List (List (ℕ × ℕ))) (cs : List Layer) (children : ∀ c ∈ cs, Tidy k c)
      (unique : ∀ row ∈ es, (row.map Prod.fst).Nodup)
      (used : ∀ p ∈ es.zip cs, ∀ j < p.2.numberOfNodes, ∃ e ∈ p.1, e.2 = j) : Tidy k (.product n es cs)

/-- There is no dense sum layer, and no Dirac node unless `dirac`. -/
inductive NoDense (dirac : Bool) : Layer → Prop where
  | input (v : ℕ) (nodes : List InputNode) (h : dirac = false → ∀ f ∈ nodes, f.isDirac = false) : NoDense dirac (.input v nodes)
  | sparseSum (ws : List Coo) (cs : List Layer) (children : ∀ c ∈ cs, NoDense dirac c) : NoDense dirac (.sparseSum ws cs)
  | product (n : ℕ) (es : List (List (ℕ × ℕ))) (cs : List Layer) (children : ∀ c ∈ cs, NoDense dirac c) : NoDense dirac (.product n es cs)

/-- The assignment gives the variables of discrete nodes an index of one of their states. -/
inductive InStates (a : ℕ → ℝ) : Layer → Prop where
  | input (v : ℕ) (nodes : List InputNode) (states : ∀ logs, .discrete logs ∈ nodes → ∃ j : ℕ, j < logs.length ∧ a v = (j : ℝ)) :
      InStates a (.input v nodes)
  | sparseSum (ws : List Coo) (cs : List Layer) (children : ∀ c ∈ cs, InStates a c) : InStates a (.sparseSum ws cs)
  | denseSum (ws : List (List (List LogP))) (cs : List Layer) (children : ∀ c ∈ cs, InStates a c) : InStates a (.denseSum ws cs)
  | product (n : ℕ) (es : List (List (ℕ × ℕ))) (cs : List Layer) (children : ∀ c ∈ cs, InStates a c) : InStates a (.product n es cs)

end PM.Spec
