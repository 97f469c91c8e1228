import Verif.Learn.Nyga
import Verif.Learn.FrameFit

/-!
# Fitting an object that was used before

`Learn.Nyga.fit` and `Learn.Jpt.fit` are the fits of new objects.  Here the circuit of the object is an argument, and the circuit that
is left behind is part of the result also if the call raises.
-/

namespace PM.Learn

open Classical

/-- `SumUnit(self)` and `UnivariateContinuousLeaf(distribution, self)`: a new unit in the circuit, without parents
(`nx/probabilistic_circuit.py:46-52`). -/
def addUnit (g : Circuit) (k : Kind Leaf) : Circuit := ⟨g.nodes ++ [(if g.nodes = [] then 0 else g.fresh, k)], g.edges⟩

/-- The circuit of `NygaDistribution(…)` and of `JPT(…)` (`learning/nyga_distribution.py:341-346`, `learning/jpt/jpt.py:79-96`). -/
def emptyCircuit : Circuit := ⟨[], []⟩

namespace Nyga

/-- The loop over the queue (`learning/nyga_distribution.py:390-393`), with the circuit that is left behind.  An `induce` that raises
has not changed the circuit. -/
noncomputable def loopOn (P : Params) (A : Arrays) : ℕ → List Step → Circuit → Circuit × Except PyErr Unit
  | _, [], g => (g, .ok ())
  | 0, _ :: _, g => (g, .error .recursionError)
  | fuel + 1, s :: q, g =>
    match induce P A s g with
    | .error e => (g, .error e)
    | .ok (new, g') => loopOn P A fuel (q ++ new) g'

/-- `self.normalize()` (`learning/nyga_distribution.py:395`).  Simplification: what is left behind if it raises is not modelled (the circuit
stays as it was). -/
noncomputable def finishOn : Circuit × Except PyErr Unit → Circuit × Except PyErr Unit
  | (g, .error e) => (g, .error e)
  | (g, .ok ()) => match g.normalize with
    | .error e => (g, .error e)
    | .ok g' => (g', .ok ())

/-- `NygaDistribution.fit` (`learning/nyga_distribution.py:348-396`) of an object with the circuit `g`. -/
noncomputable def fitOn (P : Params) (cap : ℝ) (data : List ℝ) (weights : Option (List ℝ)) (g : Circuit) : Circuit × Except PyErr Unit :=
  let unique := (npUnique data).map Prod.fst
  match unique with
  | [x] => (addUnit g (.leaf (.dirac P.var x cap)), .ok ())
  | _ =>
    let ws := weights.getD ((npUnique data).map fun vc => (vc.2 : ℝ))
    let A : Arrays := ⟨unique, cumsum ws, cumsum (ws.map Real.log)⟩
    finishOn (loopOn P A (2 * unique.length) [⟨0, unique.length⟩] (addUnit g .sum))

end Nyga

namespace Jpt

/-- `while self.c45queue: self.c45(*self.c45queue.popleft())` (`learning/jpt/jpt.py:208-209`), with the circuit that is left behind.  A `c45`
that raises has not changed the circuit. -/
noncomputable def loopOn (S : Settings) (I : Impurity) (total : ℕ) : ℕ → State → List Task → Circuit × List Task × Except PyErr State
  | _, st, [] => (st.circuit, [], .ok st)
  | 0, st, t :: q => (st.circuit, t :: q, .error .recursionError)
  | fuel + 1, st, t :: q =>
    match c45 S I total st t with
    | .error e => (st.circuit, q, .error e)
    | .ok (st', new) => loopOn S I total fuel st' (q ++ new)

/-- `fit` (`learning/jpt/jpt.py:198-211`) of a `JPT` with the circuit `g`, on data that `preprocess_data` accepts.  The sum unit is
there before (`:197`). -/
noncomputable def fitRows (S : Settings) (I : Impurity) (data : List Row) (queue : List Task) (g : Circuit) :
    Circuit × List Task × Except PyErr State :=
  let q := queue ++ [⟨data, 0, data.length, 0⟩]
  loopOn S I data.length (rounds q) ⟨List.range data.length, 0, g, []⟩ q

/-- `fit` (`learning/jpt/jpt.py:190-211`) of a `JPT` with the circuit `g`: the new sum unit, then `preprocess_data`.  `prepare` is
what `preprocess_data` gives for the data frame: rows, or the exception it raises (`Learn.Jpt.preprocess`). -/
noncomputable def fitOn (S : Settings) (I : Impurity) (prepare : Except PyErr (List Row)) (queue : List Task) (g : Circuit) :
    Circuit × List Task × Except PyErr State :=
  match prepare with
  | .error e => (addUnit g .sum, queue, .error e)
  | .ok data => fitRows S I data queue (addUnit g .sum)

end Jpt

end PM.Learn
