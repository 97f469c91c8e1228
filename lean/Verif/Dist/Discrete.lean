import Verif.Dist.Leaf
import Mathlib.Data.List.Sort
import Mathlib.Data.List.Dedup

/-!
# Dictionaries of probabilities: reading, writing, fitting, cumulating
-/

namespace PM

open Classical

/-- A Python `dict` as an insertion-ordered association list. -/
abbrev Dict (κ ν : Type) := List (κ × ν)

namespace Dict

variable {κ ν : Type}

/-- `d[k] = v`: overwrite in place if the key exists, append otherwise. -/
noncomputable def set (d : Dict κ ν) (k : κ) (v : ν) : Dict κ ν :=
  if k ∈ d.map Prod.fst then d.map fun p => if p.1 = k then (k, v) else p else d ++ [(k, v)]

/-- `d[k]` of a `dict` subclass: a missing key calls `__missing__`, which may change the dictionary. -/
noncomputable def getitem (missing : Dict κ ν → κ → Dict κ ν × ν) (d : Dict κ ν) (k : κ) : Dict κ ν × ν :=
  match d.find? (fun p => decide (p.1 = k)) with
  | some p => (d, p.2)
  | none => missing d k

/-- `MissingDict.__missing__` (`utils.py:43-44`): return `default_factory()`. -/
def missingDict (default : ν) (d : Dict κ ν) (_ : κ) : Dict κ ν × ν := (d, default)

/-- `collections.defaultdict.__missing__`, which `MissingDict` overrides: also store the default. -/
def defaultDict (default : ν) (d : Dict κ ν) (k : κ) : Dict κ ν × ν := (d ++ [(k, default)], default)

/-- An operation of a caller on the dictionary. -/
inductive Op (κ ν : Type) where
  | read (k : κ)
  | write (k : κ) (v : ν)

/-- Run operations, collecting what the reads return. -/
noncomputable def run (missing : Dict κ ν → κ → Dict κ ν × ν) : Dict κ ν → List (Op κ ν) → Dict κ ν × List ν
  | d, [] => (d, [])
  | d, .read k :: ops =>
    let (d', v) := getitem missing d k
    let (d'', vs) := run missing d' ops
    (d'', v :: vs)
  | d, .write k v :: ops => run missing (d.set k v) ops

end Dict

/-- CPython's `hash` of an `int` (also of `np.int64` and of a `float` with integral value): the remainder of the absolute
value modulo `2^61 - 1` with the sign, and `-2` instead of `-1`. -/
def pyHash (k : ℤ) : ℤ :=
  let h := k.sign * (k.natAbs % (2 ^ 61 - 1) : ℕ)
  if h = -1 then -2 else h

/-- `np.unique(data, return_counts=True)`: the distinct values in increasing order with their numbers of occurrences. -/
noncomputable def npUnique {α : Type} [LinearOrder α] (data : List α) : List (α × ℕ) :=
  (data.dedup.insertionSort (· ≤ ·)).map fun v => (v, data.count v)

namespace Leaf

/-- `DiscreteDistribution.fit` (`distributions/distributions.py:282-287`): the new probability dictionary.  (For empty
data it is empty; `len(data)` is never divided by.) -/
noncomputable def fitDiscrete (data : List ℤ) : List (ℤ × ℝ) :=
  (npUnique data).foldl (fun d vc => Dict.set d (pyHash vc.1) ((vc.2 : ℝ) / data.length)) []

/-- `SymbolicDistribution.fit` (`distributions/distributions.py:418-425`): the key is the hash of the domain element; a
value outside of the domain raises `IndexError` (`[...][0]`).  `domain` lists the elements with their hashes. -/
noncomputable def fitSymbolic {α : Type} [LinearOrder α] (domain : List (α × ℤ)) (data : List α) :
    Except PyErr (List (ℤ × ℝ)) :=
  (npUnique data).foldlM (fun d vc =>
    match domain.filter (fun e => decide (e.1 = vc.1)) with
    | [] => .error .indexError
    | e :: _ => .ok (Dict.set d e.2 ((vc.2 : ℝ) / data.length))) []

/-- The loop of `IntegerDistribution.cdf` (`distributions/distributions.py:464-468`): `result[x >= value] += p` for all rows,
`break` at the first key larger than the largest row. -/
noncomputable def cdfLoop (xs : List ℝ) (maximum : ℝ) : List (ℤ × ℝ) → List ℝ → List ℝ
  | [], result => result
  | (k, p) :: rest, result =>
    if (k : ℝ) > maximum then result
    else cdfLoop xs maximum rest (List.zipWith (fun x r => if x ≥ (k : ℝ) then r + p else r) xs result)

/-- `IntegerDistribution.cdf` on an array of rows (`distributions/distributions.py:461-470`); `max` of an empty array raises
`ValueError`. -/
noncomputable def integerCdfArray (probs : List (ℤ × ℝ)) : List ℝ → Except PyErr (List ℝ)
  | [] => .error .valueError
  | x :: xs => .ok (cdfLoop (x :: xs) (xs.foldl max x) probs (List.replicate (xs.length + 1) 0))

end Leaf
end PM
