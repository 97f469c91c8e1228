import Verif.Spec.Layers
import Verif.Spec.Value
import Verif.Spec.Density
import Verif.Jax.Convert

/-!
# Which circuits can be converted to layers

The conditions speak about the units of the circuit, their scopes and their distance from the root.
-/

namespace PM.Spec
open PM.Jax

/-- Leaves with a layer that expresses the same density: uniform distributions on an open interval, Dirac distributions and normalized
distributions over the elements `0, …, states v - 1` of the domain of a symbolic variable. -/
def ConvertibleLeaf (states : Var → ℕ) : Leaf → Prop
  | .uniform _ _ _ l r => l = .opn ∧ r = .opn
  | .dirac .. => True
  | .symbolic v probs => (probs.map Prod.snd).sum = 1 ∧ ∀ kp ∈ probs, 0 ≤ kp.1 ∧ kp.1 < states v
  | _ => False

/-- Leaves for which there is a layer: all but integer distributions.  The borders of closed intervals are moved outwards by
`jnp.nextafter`, or stay. -/
def LayerLeaf (env : Env) : Leaf → Prop
  | .uniform _ lo hi l r => (l = .closed → env.below lo ≤ lo) ∧ (r = .closed → hi ≤ env.above hi)
  | .dirac .. | .gaussian .. | .truncGaussian .. => True
  | .symbolic v probs => (probs.map Prod.snd).sum = 1 ∧ ∀ kp ∈ probs, 0 ≤ kp.1 ∧ kp.1 < env.states v
  | .integer .. => False

/-- The density that the layer of a leaf expresses: closed borders of a uniform distribution are moved to the next float, the standard
deviation of a Gaussian distribution grows by `0.01`, and a truncated Gaussian distribution is no longer truncated. -/
noncomputable def layerDensity (env : Env) : Leaf → ℝ → ℝ
  | .uniform _ lo hi .opn .opn, y => if lo < y ∧ y < hi then 1 / (hi - lo) else 0
  | .uniform _ lo hi .closed .opn, y => if env.below lo < y ∧ y < hi then 1 / (hi - env.below lo) else 0
  | .uniform _ lo hi .opn .closed, y => if lo < y ∧ y < env.above hi then 1 / (env.above hi - lo) else 0
  | .uniform _ lo hi .closed .closed, y => if env.below lo < y ∧ y < env.above hi then 1 / (env.above hi - env.below lo) else 0
  | .gaussian _ μ σ, y | .truncGaussian _ _ μ σ, y => ProbabilityTheory.gaussianPDFReal μ (Real.toNNReal ((σ + 1 / 100) ^ 2)) y
  | d, y => leafDensity d y

/-- Gaussian and truncated Gaussian leaves do not occur together. -/
def GaussianUnmixed (g : Circuit) : Prop :=
  ∀ n v μ σ, g.kind? n = some (.leaf (.gaussian v μ σ)) → ∀ m w I μ' σ', g.kind? m ≠ some (.leaf (.truncGaussian w I μ' σ'))

/-- The conditions on one level of the circuit, given the next level.
* If the first unit of the level is a leaf then all are.
* Below products there are only units over some of their variables, and units over the same variables are of the same type.
* Below sums the numbers of variables are compatible, and each unit over their variables is a child of one of them. -/
structure ConvertibleLevel (g : Circuit) (sc : Node → Finset Var) (level next : List Node) : Prop where
  leafFirst : ∀ n, level.head? = some n → (typeOf g n).isLeaf → ∀ m ∈ level, (typeOf g m).isLeaf
  productScope : ∀ p ∈ level, g.kind? p = some .prod → ∀ c ∈ next, sc c ⊆ sc p
  productType : ∀ p ∈ level, g.kind? p = some .prod → ∀ c ∈ next, ∀ c' ∈ next, sc c = sc c' → typeOf g c = typeOf g c'
  sumSize : ∀ s ∈ level, g.kind? s = some .sum → ∀ c ∈ next,
    (sc c).card = (sc s).card ∨ (sc c).card = 1 ∨ (sc s).card = 1
  sumParent : ∀ s ∈ level, g.kind? s = some .sum → ∀ c ∈ next, sc c = sc s → ∃ p ∈ level, g.kind? p = some .sum ∧ c ∈ g.succ p

/-- All levels of the circuit can be converted. -/
def ConvertibleLevels (g : Circuit) (sc : Node → Finset Var) : List (List Node) → Prop
  | [] => True
  | l :: ls => ConvertibleLevel g sc l (ls.headD []) ∧ ConvertibleLevels g sc ls

/-- Every unit is over a single variable or over an initial segment of the variables `vs` of the circuit; products are over at least two
variables. -/
structure InitialScopes (g : Circuit) (sc : Node → Finset Var) (vs : Finset Var) : Prop where
  scopes : ∀ n ∈ g.ids, (sc n).card = 1 ∨ ∀ v ∈ sc n, ∀ w ∈ vs, w < v → w ∈ sc n
  products : ∀ n, g.kind? n = some .prod → 1 < (sc n).card

/-- The values of the symbolic variables are indices into their domains. -/
def InDomain (states : Var → ℕ) (g : Circuit) (x : Var → ℝ) : Prop :=
  ∀ n v probs, g.kind? n = some (.leaf (.symbolic v probs)) → ∃ j : ℕ, j < states v ∧ x v = (j : ℝ)

end PM.Spec
