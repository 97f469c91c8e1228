import Verif.Learn.ConfigFit
import Verif.Learn.Preprocess

/-!
# Learning a tree from a data frame
-/

namespace PM.Learn.Jpt

open Classical

/-- The entry of the preprocessed array in column `i` and row `r`; `nan` is `none`. -/
noncomputable def entry (M : List (List (Option ℝ))) (i r : ℕ) : Option ℝ := do (← (← M[i]?)[r]?)

/-- A row of the preprocessed array, as `data[:, index]` hands its entries to the fits of the columns (`learning/jpt/jpt.py:266-288`):
an entry of the column of a discrete variable is a float that is an integer. -/
noncomputable def rowAt (M : List (List (Option ℝ))) (r : ℕ) : Row where
  real i := (entry M i r).getD 0
  int i := ⌊(entry M i r).getD 0⌋

/-- `fit(data)` (`learning/jpt/jpt.py:190-211`).  Simplification: what the numerical code does with `nan` is not modelled; data with
`nan` is an error here. -/
noncomputable def Config.fitFrame (c : Config) (ix : TreeVar → Var) (hash : ℤ → ℤ) (cap : ℝ) (make : ImpurityArgs → Impurity)
    (F : Frame) (queue : List Task) : List Task × Except PyErr State :=
  match preprocess c.vars F with
  | .error e => (queue, .error e)
  | .ok M =>
    if ∀ i < c.vars.length, ∀ r < F.rows, entry M i r ≠ none then c.fit ix hash cap make ((List.range F.rows).map (rowAt M)) queue
    else (queue, .error .valueError)

end PM.Learn.Jpt
