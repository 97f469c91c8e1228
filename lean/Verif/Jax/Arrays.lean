import Mathlib.Data.Real.Basic
import Mathlib.Data.List.Range
import Verif.Graph.Basic

/-!
# Helpers for arrays of the layered (jax) circuits

A two-dimensional array is the list of its rows.  Numbers are exact.
-/

namespace PM.Jax

/-- `array[mask]` for a mask of booleans: the elements whose entry in the mask is true. -/
def masked {α : Type} : List α → List Bool → List α
  | x :: xs, b :: bs => if b then x :: masked xs bs else masked xs bs
  | _, _ => []

open Classical in
/-- `remove_rows_and_cols_where_all` (`jax/utils.py:161-183`) for an array with `width` columns. -/
noncomputable def removeRowsAndCols (width : ℕ) (array : List (List ℝ)) (value : ℝ) : List (List ℝ) :=
  let validRows := array.map fun row => row.any fun x => decide (x ≠ value)
  let validCols := (List.range width).map fun j => array.any fun row => row[j]?.any fun x => decide (x ≠ value)
  (masked array validRows).map fun row => masked row validCols

/-- `embed_sparse_array_in_nan_array` (`jax/utils.py:140-143`): entries of the result, `none` for NaN.  `.at[..].set` ignores indices outside
of the shape. -/
def embedInNan (rows cols : ℕ) (entries : List (ℕ × ℕ × ℝ)) : List (List (Option ℝ)) :=
  entries.foldl (fun result e => result.modify e.1 fun row => row.set e.2.1 (some e.2.2))
    (List.replicate rows (List.replicate cols none))

/-- A row of a `csr_array`: the columns with their values, in the order in which they are stored. -/
abbrev CsrRow (α : Type) := List (ℕ × α)

/-- `sample_from_sparse_probabilities_csc` (`jax/utils.py:146-158`): the rows of the result.  `draws` are the results of
`np.random.multinomial` for the rows of `zip(amount, probabilities)`; `csr_array` raises `ValueError` if there are not as many counts as
stored probabilities. -/
def sampleFromSparse (probabilities : List (CsrRow ℝ)) (draws : List (List ℕ)) : Except PyErr (List (CsrRow ℕ)) :=
  let all := draws.flatten
  if all.length = (probabilities.map List.length).sum then
    .ok ((probabilities.foldl (fun (acc : List (CsrRow ℕ) × List ℕ) row =>
      (acc.1 ++ [(row.map Prod.fst).zip acc.2], acc.2.drop row.length)) ([], all)).1)
  else .error .valueError

end PM.Jax
