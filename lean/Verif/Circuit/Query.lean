import Verif.Graph.Pass
import Verif.Dist.Leaf
import Mathlib.Data.Finset.Union

/-!
# The numeric queries of `ProbabilisticCircuit`
-/

namespace PM

open Classical

/-- A `ProbabilisticCircuit` over the modelled leaf distributions. -/
abbrev Circuit := Graph Leaf

namespace Graph

/-- `unit.variables`: leaf (`nx/probabilistic_circuit.py:226-228`), sum unit: those of the first subcircuit (`:368-370`,
`IndexError` without subcircuits), product unit: union (`:657-662`).  Python's recursion is bounded by `fuel`. -/
noncomputable def varsOf (g : Circuit) : Nat → Node → Except PyErr (Finset Var)
  | 0, _ => .error .recursionError
  | fuel + 1, n =>
    match g.kind? n with
    | none => .error .networkXError
    | some (.leaf d) => .ok {d.var}
    | some .sum =>
      match g.succ n with
      | [] => .error .indexError
      | c :: _ => varsOf g fuel c
    | some .prod => do
      let vs ← (g.succ n).mapM (varsOf g fuel)
      pure (vs.foldr (· ∪ ·) ∅)

/-- `ProbabilisticCircuit.variables` (`nx/probabilistic_circuit.py:749-751`). -/
noncomputable def circuitVars (g : Circuit) : Except PyErr (Finset Var) :=
  match g.root with
  | .error e => .error e
  | .ok r => g.varsOf (g.nodes.length + 1) r

/-- Rules of `log_likelihood` for one row: leaves read their column (`nx/probabilistic_circuit.py:806-808`,
`KeyError` if the leaf's variable is not a variable of the circuit), `SumUnit.log_forward` (`:403-406`; `logsumexp` of
an empty list raises `ValueError`), `ProductUnit.log_forward` (`:651-653`).  A row is given as a function from
variables to values; column `i` of the array is the `i`-th variable in sorted order. -/
noncomputable def logLikAlg (vs : Finset Var) (x : Var → ℝ) : Alg Leaf LogP where
  leaf d := if d.var ∈ vs then .ok (d.logLik (x d.var)) else .error .keyError
  sum l := if l = [] then .error .valueError else .ok (LogP.logsumexp (l.map fun wv => wv.1 + wv.2))
  prod l := .ok (l.foldr (· + ·) 0)

/-- `ProbabilisticCircuit.log_likelihood` for one row (`nx/probabilistic_circuit.py:802-812`). -/
noncomputable def logLikelihood (g : Circuit) (m : Mem LogP) (x : Var → ℝ) : Mem LogP × Except PyErr LogP :=
  match g.circuitVars with
  | .error e => (m, .error e)
  | .ok vs => g.query (logLikAlg vs x) m

/-- `ProbabilisticModel.likelihood` for one row (`probabilistic_model.py:64-82`). -/
noncomputable def likelihood (g : Circuit) (m : Mem LogP) (x : Var → ℝ) : Except PyErr ℝ :=
  (g.logLikelihood m x).2.map LogP.exp

/-- `SumUnit.forward` (`nx/probabilistic_circuit.py:399-401`) and `ProductUnit.forward` (`:647-649`) with the given rule
at the leaves. -/
noncomputable def forwardAlg (leaf : Leaf → Except PyErr ℝ) : Alg Leaf ℝ where
  leaf := leaf
  sum l := .ok (l.map fun wv => wv.1.exp * wv.2).sum
  prod l := .ok l.prod

/-- `ProbabilisticCircuit.probability_of_simple_event` (`nx/probabilistic_circuit.py:826-835`). -/
noncomputable def probabilityOfSimpleEvent (g : Circuit) (m : Mem ℝ) (E : SimpleEvent) : Mem ℝ × Except PyErr ℝ :=
  g.query (forwardAlg fun d => d.probEvent E) m

/-- `ProbabilisticCircuit.cdf` for one row (`nx/probabilistic_circuit.py:814-824`). -/
noncomputable def cdf (g : Circuit) (m : Mem ℝ) (x : Var → ℝ) : Mem ℝ × Except PyErr ℝ :=
  match g.circuitVars with
  | .error e => (m, .error e)
  | .ok vs => g.query (forwardAlg fun d => if d.var ∈ vs then d.cdf (x d.var) else .error .keyError) m

end Graph
end PM
