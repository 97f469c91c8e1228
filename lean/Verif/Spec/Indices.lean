import Mathlib.Data.Int.Order.Basic
import Mathlib.Data.Set.Defs

/-!
# Specification: index arrays
-/

namespace PM.Spec

/-- Strict lexicographic order of cells: row by row, in a row by column. -/
def CellLT (a b : ℕ × ℤ) : Prop := a.1 < b.1 ∨ (a.1 = b.1 ∧ a.2 < b.2)

/-- `idx` lists exactly the cells `(r, c)` with `c < lengths[r]`, each once, row by row. -/
structure Enumerates (lengths : List ℕ) (idx : List (ℕ × ℤ)) : Prop where
  sorted : idx.Pairwise CellLT
  mem : ∀ a c, (a, c) ∈ idx ↔ ∃ k : ℕ, ∃ h : a < lengths.length, c = k ∧ k < lengths[a]

/-- The column `new` of indices is the compaction of the column `old`: same length, the entries are ordered in the same way and
the new entries are `0, …, k - 1` for some `k`. -/
structure Compacted (old new : List ℤ) : Prop where
  length : new.length = old.length
  order : ∀ i j (hi : i < old.length) (hj : j < old.length),
    new[i]'(length ▸ hi) ≤ new[j]'(length ▸ hj) ↔ old[i] ≤ old[j]
  initial : ∃ k : ℕ, ∀ z, z ∈ new ↔ 0 ≤ z ∧ z < k

end PM.Spec
