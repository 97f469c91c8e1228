import Mathlib.Data.Real.Basic
import Mathlib.Data.List.Range

/-!
# Specification: helpers for arrays
-/

namespace PM.Jax.Spec

/-- An array with `width` columns. -/
def Rectangular (width : ℕ) (array : List (List ℝ)) : Prop := ∀ row ∈ array, row.length = width

/-- The entry in row `i` and column `j` exists and is not `value`. -/
def Differs (array : List (List ℝ)) (value : ℝ) (i j : ℕ) : Prop := ∃ row x, array[i]? = some row ∧ row[j]? = some x ∧ x ≠ value

/-- `is` are, in increasing order, the numbers with property `P`. -/
structure Enumerates (P : ℕ → Prop) (is : List ℕ) : Prop where
  sorted : is.Pairwise (· < ·)
  mem : ∀ i, i ∈ is ↔ P i

/-- `counts` may be a result of `np.random.multinomial(amount, pvals)`: one count per outcome, that sum up to the amount. -/
def MultinomialDraw (amount : ℕ) (pvals : List ℝ) (counts : List ℕ) : Prop :=
  counts.length = pvals.length ∧ (pvals ≠ [] → counts.sum = amount)

end PM.Jax.Spec
