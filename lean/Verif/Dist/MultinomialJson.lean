import Verif.Dist.MultinomialLemmas

/-!
# JSON, copies and `==` of multinomial distributions
-/

namespace PM

/-- A nested list of floats, as in JSON. -/
inductive Nested where
  | num (x : ℝ)
  | arr (l : List Nested)

namespace NdArray

/-- `np.ndarray.tolist()` of the array with the given shape and entries. -/
def nest : List ℕ → (List ℕ → ℝ) → Nested
  | [], f => .num (f [])
  | n :: s, f => .arr ((List.range n).map fun i => nest s fun j => f (i :: j))

/-- `a.tolist()`. -/
def tolist (a : NdArray) : Nested := nest a.shape a.get

/-- Entry `(i, *j)` of the array whose rows are `l`. -/
def stackGet (l : List NdArray) : List ℕ → ℝ
  | [] => 0
  | i :: j => match l[i]? with
    | some a => a.get j
    | none => 0

/-- Stack the arrays read from the entries of a list: all of them must have the same shape, otherwise numpy raises
`ValueError` (inhomogeneous shape). -/
def stack : List NdArray → Except PyErr NdArray
  | [] => .ok ⟨[0], fun _ => 0⟩
  | a :: as => if as.all fun b => b.shape == a.shape then .ok ⟨(as.length + 1) :: a.shape, stackGet (a :: as)⟩ else .error .valueError

mutual
/-- `np.array(data)` of nested lists of floats. -/
def ofNested : Nested → Except PyErr NdArray
  | .num x => .ok ⟨[], fun _ => x⟩
  | .arr l => do stack (← ofNestedList l)
/-- The entries of a list, from left to right. -/
def ofNestedList : List Nested → Except PyErr (List NdArray)
  | [] => .ok []
  | a :: l => do
    let x ← ofNested a
    let xs ← ofNestedList l
    return x :: xs
end

end NdArray

/-- The dictionary of `MultinomialDistribution.to_json`.  The JSON of a variable is that of `random_events` and stands for
the variable. -/
structure MultinomialJson where
  vars : List SymVar
  probabilities : Nested

namespace Multinomial

open NdArray

/-- `MultinomialDistribution.to_json` (`distributions/multinomial.py:230-233`). -/
def toJson (T : Multinomial) : MultinomialJson := ⟨T.vars, T.probs.tolist⟩

/-- `MultinomialDistribution._from_json` (`distributions/multinomial.py:235-239`). -/
def fromJson (j : MultinomialJson) : Except PyErr Multinomial := do
  let a ← ofNested j.probabilities
  make j.vars a

/-- `MultinomialDistribution.__copy__` (`distributions/multinomial.py:89-93`).  The array is shared; no method writes into
it. -/
def copy (T : Multinomial) : Except PyErr Multinomial := make T.vars T.probs

open Classical in
/-- `np.allclose(a, b)` for arrays of the same shape: `|a - b| <= atol + rtol * |b|` in every entry, with the default
tolerances `rtol = 1e-05` and `atol = 1e-08`. -/
noncomputable def allclose (a b : NdArray) : Bool :=
  decide (∀ i ∈ cells a.shape, |a.get i - b.get i| ≤ 1 / 10 ^ 8 + 1 / 10 ^ 5 * |b.get i|)

open Classical in
/-- `MultinomialDistribution.__eq__` (`distributions/multinomial.py:95-104`). -/
noncomputable def eq (T U : Multinomial) : Bool :=
  decide (T.vars = U.vars) && decide (T.probs.shape = U.probs.shape) && allclose T.probs U.probs

end Multinomial
end PM
