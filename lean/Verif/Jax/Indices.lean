import Mathlib.Data.Finset.Sort
import Mathlib.Data.Int.Order.Basic
import Mathlib.Data.List.Range
import Verif.Graph.Basic

/-!
# Index arrays of the layered (jax) circuits

Arrays of integers are lists; a two-dimensional index array is a list of rows, a row is a function from the column numbers
(those below the width) to the entries.
-/

namespace PM.Jax

/-- `np.repeat(xs, ns)` for arrays of counts: `ValueError` if the lengths differ.  (An array of one count is broadcast; in the
modelled calls both arrays then have length one.) -/
def npRepeat {α : Type} (xs : List α) (ns : List ℕ) : Except PyErr (List α) :=
  if xs.length = ns.length then .ok ((xs.zip ns).flatMap fun p => List.replicate p.2 p.1) else .error .valueError

/-- `create_bcoo_indices_from_row_lengths` (`jax/utils.py:30-66`; the transposed variant `:68-104` differs only in the
layout): pairs of row and column index. -/
def bcooIndices (lengths : List ℕ) : Except PyErr (List (ℕ × ℤ)) := do
  let rows ← npRepeat (List.range lengths.length) lengths
  let cum ← npRepeat (0 :: lengths.dropLast) lengths
  let cols := List.zipWith (fun (a b : ℕ) => (a : ℤ) - (b : ℤ)) (List.range lengths.sum) cum
  .ok (rows.zip cols)

/-- `jnp.cumsum`. -/
def cumsum : ℕ → List ℕ → List ℕ
  | _, [] => []
  | acc, n :: l => (acc + n) :: cumsum (acc + n) l

/-- `create_bcsr_indices_from_row_lengths` (`jax/utils.py:107-137`): column indices and row pointers. -/
def bcsrIndices (lengths : List ℕ) : Except PyErr (List ℤ × List ℕ) := do
  let cum ← npRepeat (0 :: lengths.dropLast) lengths
  let cols := List.zipWith (fun (a b : ℕ) => (a : ℤ) - (b : ℤ)) (List.range lengths.sum) cum
  .ok (cols, 0 :: cumsum 0 lengths)

/-- A row of an index array. -/
abbrev Row := ℕ → ℤ

/-- `jnp.unique(index_array[:, dim])`: the sorted distinct entries of a column. -/
def uniqueCol (rows : List Row) (dim : ℕ) : List ℤ := (rows.map fun r => r dim).toFinset.sort (· ≤ ·)

/-- `result.at[result[:, dim] == old, dim].set(new)` (`jax/utils.py:205`). -/
def replaceCol (dim : ℕ) (rows : List Row) (p : ℤ × ℕ) : List Row :=
  rows.map fun r => if r dim = p.1 then Function.update r dim (p.2 : ℤ) else r

/-- One round of the outer loop (`jax/utils.py:200-205`); the distinct entries are those of the argument, the replaced ones
those of the result so far. -/
def shrinkCol (index : List Row) (result : List Row) (dim : ℕ) : List Row :=
  (uniqueCol index dim).zipIdx.foldl (replaceCol dim) result

/-- `shrink_index_array` (`jax/utils.py:185-208`) for an array with `width` columns. -/
def shrinkIndexArray (width : ℕ) (index : List Row) : List Row :=
  (List.range width).foldl (shrinkCol index) index

/-- A sparse array: stored values with their index rows, and the shape. -/
structure Sparse where
  entries : List (ℝ × Row)
  shape : ℕ → ℤ

open Classical in
/-- `sparse_remove_rows_and_cols_where_all` (`jax/utils.py:211-240`); the maximum over no rows is a `ValueError`. -/
noncomputable def sparseRemove (width : ℕ) (a : Sparse) (value : ℝ) : Except PyErr Sparse :=
  let valid := a.entries.filter fun e => e.1 ≠ value
  let idx := shrinkIndexArray width (valid.map Prod.snd)
  match idx with
  | [] => .error .valueError
  | r :: rs => .ok ⟨(valid.map Prod.fst).zip idx, fun d => (rs.map fun s => s d).foldl max (r d) + 1⟩

/-- The slices computed by `slices_of_parameters_for_flat_model` (`jax/coupling_circuit.py:77-96`) for parameter arrays of the
given lengths (`len(leaf)`). -/
def slices : ℕ → List ℕ → List (ℕ × ℕ)
  | _, [] => []
  | offset, n :: l => (offset, offset + n) :: slices (offset + n) l

/-- `params[start:end]`. -/
def slice {α : Type} (params : List α) (p : ℕ × ℕ) : List α := (params.drop p.1).take (p.2 - p.1)

/-- The parameter arrays `create_circuit_from_parameters` puts into the circuit (`jax/coupling_circuit.py:99-120`). -/
def splitParameters {α : Type} (lengths : List ℕ) (params : List α) : List (List α) :=
  (slices 0 lengths).map (slice params)

/-- `number_of_trainable_parameters` (`jax/inner_layer.py:179-186`), which `CouplingCircuit.validate` compares with the output
length of the conditioner (`jax/coupling_circuit.py:137-142`). -/
def numberOfParameters (lengths : List ℕ) : ℕ := lengths.sum

end PM.Jax
