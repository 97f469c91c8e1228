import Verif.Circuit.UniformMeasure
import Verif.Circuit.DetSum
import Verif.Circuit.Marginal
import Verif.Learn.NygaMixture

/-!
# The marginal of a joint probability tree
-/

namespace PM.Learn.Jpt

open Graph

/-- The second half of `JPT.marginal` (`learning/jpt/jpt.py:430-443`), for the marginal circuit `g` of the base class.  `result.variables`
are the sorted variables.  `uni` is `simplify_if_univariate`.  The discrete distribution becomes the only unit of a new circuit.
Variables that are neither continuous, integer nor symbolic (`NotImplementedError`) do not occur in learned trees. -/
noncomputable def simplifyUnivariate (types : Var → VarType) (uni : Bool) (g : Circuit) (m : Mem Event) (m' : Mem ℝ) :
    Except PyErr Circuit := do
  let vs ← g.circuitVars
  if 1 < vs.card ∨ uni = false then .ok g
  else match vs.sort (· ≤ ·) with
    | [] => .error .indexError
    | v :: _ => match types v with
      | .continuous => Nyga.fromUniformMixture g m'
      | _ => (g.fromMixture (fun v => types v = .symbolic) m m').map fun d => newUnit 0 (.leaf d)

/-- `JPT.marginal` (`learning/jpt/jpt.py:417-443`): `none` is `None`.  The marginal of the base class works on a copy of the circuit
(`nx/probabilistic_circuit.py:943-945`).  `m` and `m'` are what the units remember from earlier queries. -/
noncomputable def marginal (types : Var → VarType) (g : Circuit) (vs : Finset Var) (uni : Bool) (m : Mem Event) (m' : Mem ℝ) :
    Except PyErr (Option Circuit) := do
  let r ← g.marginalInPlace vs
  match r with
  | none => .ok none
  | some g' => (simplifyUnivariate types uni g' m m').map some

end PM.Learn.Jpt
