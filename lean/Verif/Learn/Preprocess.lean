import Verif.Learn.Config

/-!
# Data frames: preprocessing and inferred variables

`preprocess_data` (`learning/jpt/jpt.py:169-188`) and `infer_variables_from_dataframe` (`learning/jpt/variables.py:10-68`).
A data frame is a list of named columns of the same length; missing values are not modelled.  Floats are reals, `none` is `nan` or
an infinity.
-/

namespace PM.Learn.Jpt

open Classical

/-- The data of a column, by its `dtype`: numeric but not `int`, `int`, `object` (strings only), or another one, for example `bool`
or dates. -/
inductive Cells where
  | floats (xs : List ℝ)
  | ints (xs : List ℤ)
  | objects (xs : List String)
  | other (n : ℕ)

/-- The number of rows of a column. -/
def Cells.length : Cells → ℕ
  | .floats xs => xs.length
  | .ints xs => xs.length
  | .objects xs => xs.length
  | .other n => n

/-- A data frame. -/
structure Frame where
  rows : ℕ
  columns : List (String × Cells)

/-- `(value - mean) / std` (`learning/jpt/variables.py:169-170`); a division by zero gives `nan` or an infinity. -/
noncomputable def encodeCell (mean std : Option ℝ) (x : ℝ) : Option ℝ :=
  match mean, std with
  | some m, some s => if s = 0 then none else some ((x - m) / s)
  | _, _ => none

/-- `{element.name: index for index, element in enumerate(variable.domain.all_elements)}[x]` (`learning/jpt/jpt.py:183-184`).
`all_elements` is in the order of the domain. -/
noncomputable def elementIndex (domain : List (String × ℤ)) (x : String) : Except PyErr (Option ℝ) :=
  match (domain.zipIdx.foldl (fun d ei => Dict.set d ei.1.1 ei.2) ([] : Dict String ℕ)).lookup x with
  | some i => .ok (some i)
  | none => .error .keyError

/-- The body of the loop of `preprocess_data` (`learning/jpt/jpt.py:180-184`) for one column, and the conversion to floats by the
assignment (`:185`).  Strings that look like numbers are not modelled: assigning strings is a `ValueError`. -/
noncomputable def encodeColumn (v : TreeVar) (c : Cells) : Except PyErr (List (Option ℝ)) :=
  match v.kind, c with
  | .scaled mean std _ _ _, .floats xs => .ok (xs.map (encodeCell mean std))
  | .scaled mean std _ _ _, .ints xs => .ok (xs.map fun x : ℤ => encodeCell mean std (x : ℝ))
  | .scaled _ _ _ _ _, _ => .error .typeError
  | .symbolic domain, .objects xs => xs.mapM (elementIndex domain)
  | .symbolic _, c => if c.length = 0 then .ok [] else .error .keyError
  | _, .floats xs => .ok (xs.map some)
  | _, .ints xs => .ok (xs.map fun x : ℤ => some (x : ℝ))
  | _, _ => .error .valueError

/-- `preprocess_data` (`learning/jpt/jpt.py:169-188`): the columns of the array, which is made of zeros with the shape of the data
frame; the column of a variable is written at the index of the variable. -/
noncomputable def preprocess (vars : List TreeVar) (F : Frame) : Except PyErr (List (List (Option ℝ))) :=
  vars.zipIdx.foldlM (fun result vi => do
    let cells ← field (F.columns.lookup vi.1.name)
    let column ← encodeColumn vi.1 cells
    if vi.2 < result.length then .ok (result.set vi.2 column) else .error .indexError)
    (List.replicate F.columns.length (List.replicate F.rows (some 0)))

/-- `Series.mean()`. -/
noncomputable def mean (xs : List ℝ) : Option ℝ := if xs = [] then none else some (xs.sum / xs.length)

/-- `Series.std()`, the square root of the unbiased variance. -/
noncomputable def std (xs : List ℝ) : Option ℝ :=
  if xs.length ≤ 1 then none
  else some (Real.sqrt ((xs.map fun x => (x - xs.sum / xs.length) ^ 2).sum / ((xs.length : ℝ) - 1)))

/-- `np.sort(unique_values)`. -/
noncomputable def sortedUnique {α : Type} [LinearOrder α] (xs : List α) : List α := xs.toFinset.sort (· ≤ ·)

/-- `np.diff`. -/
noncomputable def diff (l : List ℝ) : List ℝ := List.zipWith (fun a b => b - a) l l.tail

/-- `minimal_distance_between_values` (`learning/jpt/variables.py:31-34`); `min` of an empty array is a `ValueError`. -/
noncomputable def minimalDistance (xs : List ℝ) : Except PyErr ℝ :=
  if (sortedUnique xs).length = 1 then .ok 1
  else match (diff (sortedUnique xs)).min? with
    | some d => .ok d
    | none => .error .valueError

/-- The body of the loop of `infer_variables_from_dataframe` (`learning/jpt/variables.py:26-64`).  Names that `IntEnum` does not
accept as the names of its elements are not modelled. -/
noncomputable def inferVariable (scale : Bool) (improvement : ℝ) (samples : ℤ) (column : String × Cells) : Except PyErr TreeVar :=
  match column.2 with
  | .floats xs => do
    let distance ← minimalDistance xs
    .ok ⟨column.1, if scale then .scaled (mean xs) (std xs) distance improvement samples
      else .continuous (mean xs) (std xs) distance improvement samples⟩
  | .ints xs => .ok ⟨column.1, .integer (mean (xs.map fun x : ℤ => (x : ℝ))) (std (xs.map fun x : ℤ => (x : ℝ)))⟩
  | .objects xs => .ok ⟨column.1, .symbolic ((sortedUnique xs).zipIdx.map fun vi => (vi.1, (vi.2 : ℤ)))⟩
  | .other _ => .error .valueError

/-- `infer_variables_from_dataframe` (`learning/jpt/variables.py:10-68`). -/
noncomputable def inferVariables (F : Frame) (scale : Bool) (improvement : ℝ) (samples : ℤ) : Except PyErr (List TreeVar) :=
  F.columns.mapM (inferVariable scale improvement samples)

end PM.Learn.Jpt
