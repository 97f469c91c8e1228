import Verif.Circuit.Query
import Verif.Dist.Batch
import Mathlib.Data.Finset.Sort

/-!
# Queries on arrays of events

`log_likelihood` and `cdf` of a circuit take a two-dimensional array: one row per event, one column per variable in the
order of `circuit.variables`.
-/

namespace PM

open Classical

/-- A two-dimensional array of numbers: `shape[1]` and the rows.  (In a numpy array every row has `shape[1]` entries; what
a row holds beyond them is never read, and missing entries would read as `0`.) -/
structure EventTable where
  columns : Nat
  rows : List (List ℝ)

/-- `events[:, [index]]` (`nx/probabilistic_circuit.py:808, 820`): an index out of range is an `IndexError`, also without
rows. -/
def EventTable.column (T : EventTable) (index : Nat) : Except PyErr (List ℝ) :=
  if index < T.columns then .ok (T.rows.map fun row => row.getD index 0) else .error .indexError

/-- `variable_to_index_map[variable]` (`nx/probabilistic_circuit.py:753-755`): the position in the sorted set of the
variables; a missing variable is a `KeyError`. -/
def columnIndex (vs : Finset Var) (v : Var) : Except PyErr Nat :=
  if v ∈ vs then .ok ((vs.sort (· ≤ ·)).idxOf v) else .error .keyError

/-- Arrays of the subcircuits stacked by numpy and read row by row (`axis=0` in `nx/probabilistic_circuit.py:400-406,
648-653`).  Arrays of different lengths cannot be combined (`ValueError`).  Simplification: for no arrays numpy returns the
number `0.0` instead of an array (and `logsumexp` raises `ValueError`); it is a `ValueError` here. -/
def stackRows {V : Type} [Inhabited V] : List (List V) → Except PyErr (List (List V))
  | [] => .error .valueError
  | c :: cs =>
    if cs.all (fun c' => c'.length == c.length) then
      .ok ((List.range c.length).map fun i => (c :: cs).map fun c' => c'.getD i default)
    else .error .valueError

namespace Graph

noncomputable instance : Inhabited LogP := ⟨.negInf⟩

/-- A query on an array: leaves read their column and store one number per row; inner units combine the arrays of their
subcircuits row by row. -/
def batchAlg {V : Type} [Inhabited V] (vs : Finset Var) (T : EventTable) (leaf : Leaf → List ℝ → Except PyErr (List V))
    (sum : List (LogP × V) → V) (prod : List V → V) : Alg Leaf (List V) where
  leaf d := do
    let index ← columnIndex vs d.var
    let column ← T.column index
    leaf d column
  sum l := do
    let rows ← stackRows (l.map Prod.snd)
    pure (rows.map fun row => sum ((l.map Prod.fst).zip row))
  prod l := do
    let rows ← stackRows l
    pure (rows.map prod)

/-- `ProbabilisticCircuit.log_likelihood` (`nx/probabilistic_circuit.py:802-812`) with `SumUnit.log_forward` (`:403-406`,
`logsumexp(…, axis=0)`) and `ProductUnit.log_forward` (`:651-653`, `np.sum(…, axis=0)`). -/
noncomputable def logLikelihoodBatch (g : Circuit) (m : Mem (List LogP)) (T : EventTable) :
    Mem (List LogP) × Except PyErr (List LogP) :=
  match g.circuitVars with
  | .error e => (m, .error e)
  | .ok vs => g.query (batchAlg vs T Leaf.logLikBatch (fun l => LogP.logsumexp (l.map fun wv => wv.1 + wv.2))
      (fun l => l.foldr (· + ·) 0)) m

/-- `ProbabilisticModel.likelihood` (`probabilistic_model.py:64-82`): `np.exp` of every entry. -/
noncomputable def likelihoodBatch (g : Circuit) (m : Mem (List LogP)) (T : EventTable) : Except PyErr (List ℝ) :=
  (g.logLikelihoodBatch m T).2.map fun l => l.map LogP.exp

/-- `ProbabilisticCircuit.cdf` (`nx/probabilistic_circuit.py:814-824`) with `SumUnit.forward` (`:399-401`,
`np.sum([exp(weight) * result …], axis=0)`) and `ProductUnit.forward` (`:647-649`, `math.prod`). -/
noncomputable def cdfBatch (g : Circuit) (m : Mem (List ℝ)) (T : EventTable) : Mem (List ℝ) × Except PyErr (List ℝ) :=
  match g.circuitVars with
  | .error e => (m, .error e)
  | .ok vs => g.query (batchAlg vs T Leaf.cdfBatch (fun l => (l.map fun wv => wv.1.exp * wv.2).sum) List.prod) m

end Graph
end PM
