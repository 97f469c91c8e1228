import Mathlib.MeasureTheory.Constructions.Pi
import Mathlib.MeasureTheory.Measure.Lebesgue.Basic
import Verif.Spec.ToNx

/-!
# Specification: the mass of a layered circuit

Every variable is a real number or has finitely many states, which are numbered from zero.
-/

namespace PM.Spec
open PM.Jax MeasureTheory

/-- The type of a variable. -/
inductive VarType where
  | real
  | states (number : ℕ)

/-- The measure that belongs to a variable: lengths for a real variable, counting for the states. -/
noncomputable def VarType.measure : VarType → Measure ℝ
  | .real => volume
  | .states n => ∑ j ∈ Finset.range n, Measure.dirac (j : ℝ)

/-- The integral of `f` over the values of the variables in `s`; the other variables are fixed to zero. -/
noncomputable def mass (types : ℕ → VarType) (s : Finset ℕ) (f : (ℕ → ℝ) → ℝ) : ENNReal :=
  ∫⁻ y : s → ℝ, ENNReal.ofReal (f fun v => if h : v ∈ s then y ⟨v, h⟩ else 0) ∂Measure.pi fun v : s => (types v).measure

/-- The parameters fit to the type of the variable: uniform and normal distributions for real variables, a row of probabilities with one
entry per state for the others. -/
def NodeFits : VarType → InputNode → Prop
  | .real, .uniform lower upper => lower < upper
  | .real, .gaussian _ _ minScale => 0 ≤ minScale
  | .states n, .discrete logs => logs.length = n ∧ ∃ l ∈ logs, l ≠ LogP.negInf
  | _, _ => False

/-- All input nodes fit to the types of their variables. -/
inductive TypedInputs (types : ℕ → VarType) : Layer → Prop where
  | input (v : ℕ) (nodes : List InputNode) (fits : ∀ f ∈ nodes, NodeFits (types v) f) : TypedInputs types (.input v nodes)
  | sparseSum (ws : List Coo) (cs : List Layer) (children : ∀ c ∈ cs, TypedInputs types c) : TypedInputs types (.sparseSum ws cs)
  | denseSum (ws : List (List (List LogP))) (cs : List Layer) (children : ∀ c ∈ cs, TypedInputs types c) : TypedInputs types (.denseSum ws cs)
  | product (n : ℕ) (es : List (List (ℕ × ℕ))) (cs : List Layer) (children : ∀ c ∈ cs, TypedInputs types c) : TypedInputs types (.product n es cs)

/-- The children of a node of a product layer have no variable in common. -/
inductive DecomposableLayer : Layer → Prop where
  | input (v : ℕ) (nodes : List InputNode) : DecomposableLayer (.input v nodes)
  | sparseSum (ws : List Coo) (cs : List Layer) (children : ∀ c ∈ cs, DecomposableLayer c) : DecomposableLayer (.sparseSum ws cs)
  | denseSum (ws : List (List (List LogP))) (cs : List Layer) (children : ∀ c ∈ cs, DecomposableLayer c) :
      DecomposableLayer (.denseSum ws cs)
  | product (n : ℕ) (es : List (List (ℕ × ℕ))) (cs : List Layer) (children : ∀ c ∈ cs, DecomposableLayer c)
      (disjoint : ∀ i < n, ((es.zip (layerScopes cs)).flatMap fun p => (p.1.filter fun e => e.1 == i).map fun e => p.2.getD e.2 ∅).Pairwise
        Disjoint) : DecomposableLayer (.product n es cs)

/-- The likelihood that is computed for node `i` of a layered circuit over the variables `0, …, k-1`. -/
noncomputable def computed (L : Layer) (k i : ℕ) (a : ℕ → ℝ) : ℝ :=
  match L.logLikelihood ((List.range k).map a) with
  | .ok out => (out.getD i .negInf).exp
  | .error _ => 0

end PM.Spec
