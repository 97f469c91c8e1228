import Verif.Circuit.Query
import Verif.Graph.EvalLemmas

/-!
# Specification: the mixture/product formula

`CircuitValue g ℓ f` says that the numbers `f` are obtained from leaf numbers `ℓ` by weighted sums with weights
`exp(log_weight)` at sum units and products at product units.  With `ℓ` the density of the leaf at a point this is the
density of the circuit, with `ℓ` the probability of an event its probability.
-/

namespace PM.Spec

variable {D : Type}

/-- The linear weight of an edge. -/
noncomputable def linWeight (e : Edge) : ℝ := match e.weight with
  | some w => w.exp
  | none => 0

structure CircuitValue (g : Graph D) (ℓ : D → ℝ) (f : Node → ℝ) : Prop where
  leaf : ∀ n d, g.kind? n = some (.leaf d) → f n = ℓ d
  sum : ∀ n, g.kind? n = some .sum → f n = ((g.outEdges n).map fun e => linWeight e * f e.dst).sum
  prod : ∀ n, g.kind? n = some .prod → f n = ((g.outEdges n).map fun e => f e.dst).prod

/-- Every out-edge of a sum unit carries a `log_weight` (`SumUnit.add_subcircuit` requires one). -/
def Weighted (g : Graph D) : Prop := ∀ n, g.kind? n = some .sum → ∀ e ∈ g.outEdges n, e.weight.isSome

/-- `sc` gives every unit its scope: a leaf's scope is its variable, a product's the union of the children's, and all
children of a sum unit (at least one) have the same scope as the sum.  Such an `sc` exists exactly for smooth circuits
without childless sum units. -/
structure Scoped (g : Circuit) (sc : Node → Finset Var) : Prop where
  leaf : ∀ n d, g.kind? n = some (.leaf d) → sc n = {d.var}
  sumNe : ∀ n, g.kind? n = some .sum → g.succ n ≠ []
  sum : ∀ n, g.kind? n = some .sum → ∀ c ∈ g.succ n, sc c = sc n
  prod : ∀ n, g.kind? n = some .prod → ∀ v, v ∈ sc n ↔ ∃ c ∈ g.succ n, v ∈ sc c

/-- The children of every product unit have pairwise disjoint scopes. -/
def Decomposable (g : Circuit) (sc : Node → Finset Var) : Prop :=
  ∀ n, g.kind? n = some .prod → (g.succ n).Pairwise fun a b => Disjoint (sc a) (sc b)

/-- Well-formed layered circuits, as built with `add_subcircuit`: a networkx digraph with a single root `r`, in which
all paths from the root to a unit have the same length (every tree has this), whose leaf units have no children and
whose sum edges have weights. -/
structure Layered (g : Graph D) (r : Node) : Prop where
  wf : g.WF
  graded : g.Graded
  leaves : g.LeafTerminal
  weighted : Weighted g
  root : g.root = .ok r

end PM.Spec
