import Verif.Spec.Value

/-!
# Specification: pruning an impossible part of a circuit without looking at how probable the rest is

`P n` is the probability of the event below the unit `n`.  The children of probability zero are dropped; what is left of the weights of a
sum unit is rescaled to one.  The only thing that a sum unit above sees of it is the weight that was left.
-/

namespace PM.Spec

open Graph

open Classical in
/-- The edges to the children that are possible. -/
noncomputable def possibleEdges {D : Type} (g : Graph D) (P : Node → ℝ) (n : Node) : List Edge := (g.outEdges n).filter fun e => P e.dst ≠ 0

/-- The weight that is left below each unit.  A unit with exactly one possible child is replaced by this child.  A sum unit with more has the
weights of the possible children, each multiplied with what is left below the child.  Everything else counts as one. -/
structure RemainingWeight {D : Type} (g : Graph D) (P T : Node → ℝ) : Prop where
  leaf : ∀ n d, g.kind? n = some (.leaf d) → T n = 1
  single : ∀ n e, possibleEdges g P n = [e] → T n = T e.dst
  sum : ∀ n, g.kind? n = some .sum → (possibleEdges g P n).length ≠ 1 →
    T n = ((possibleEdges g P n).map fun e => linWeight e * T e.dst).sum
  prod : ∀ n, g.kind? n = some .prod → (possibleEdges g P n).length ≠ 1 → T n = 1

/-- The values of the units after pruning, if a leaf with distribution `d` has the value `ℓ d` then: a sum unit is the mean of its possible
children, weighted with the remaining weights; the probabilities `P` of the children are only compared with zero. -/
structure PrunedValue {D : Type} (g : Graph D) (P T : Node → ℝ) (ℓ : D → ℝ) (C : Node → ℝ) : Prop where
  leaf : ∀ n d, g.kind? n = some (.leaf d) → C n = ℓ d
  sum : ∀ n, g.kind? n = some .sum → C n = ((possibleEdges g P n).map fun e => linWeight e * T e.dst * C e.dst).sum /
    ((possibleEdges g P n).map fun e => linWeight e * T e.dst).sum
  prod : ∀ n, g.kind? n = some .prod → C n = ((g.outEdges n).map fun e => C e.dst).prod

/-- At every possible sum unit, the probabilities of the possible children are proportional to the weights that are left below them. -/
def Proportional {D : Type} (g : Graph D) (P T : Node → ℝ) : Prop := ∀ n, g.kind? n = some .sum → P n ≠ 0 →
  ∃ c, ∀ e ∈ possibleEdges g P n, P e.dst = c * T e.dst

end PM.Spec
