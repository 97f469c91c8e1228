import Mathlib.Data.Real.Basic

/-!
# What a random number generator promises

Nothing here refers to the model.
-/

namespace PM.Spec

/-- `rng t n`, the answer to the `t`-th request for `n` proposals, holds `n` pairs of numbers in `[0, 1)`. -/
def Draws (rng : ℕ → ℕ → List (ℝ × ℝ)) : Prop :=
  ∀ t n, (rng t n).length = n ∧ ∀ q ∈ rng t n, 0 ≤ q.1 ∧ q.1 < 1 ∧ 0 ≤ q.2 ∧ q.2 < 1

end PM.Spec
