import Verif.Dist.Moment
import Verif.Circuit.Query

/-!
# Moments of circuits
-/

namespace PM

open Classical

/-- `distribution.moment(order, center)` (`distributions/uniform.py:48-53`, `distributions/gaussian.py:72-80, 199-211`,
`distributions/distributions.py:486-490, 563-566`): the entry of the own variable; a variable missing in one of the maps
is a `KeyError`.  Maps are partial functions. -/
noncomputable def Leaf.momentMap (d : Leaf) (order : Var → Option ℕ) (center : Var → Option ℝ) : Except PyErr ℝ :=
  match d with
  | .symbolic .. => .error .notImplementedError
  | d =>
    match order d.var, center d.var with
    | some k, some c => d.moment k c
    | _, _ => .error .keyError

namespace Graph

/-- Rules of `moment`: `LeafUnit.moment` stores a vector with the moment in the own column and zeros elsewhere
(`nx/probabilistic_circuit.py:264-269`), `SumUnit.moment` is `forward` (`:399-407`), `ProductUnit.moment` is
`log_forward`, the sum of the vectors (`:651-655`).  A vector is a function on the variables. -/
noncomputable def momentAlg (vs : Finset Var) (order : Var → Option ℕ) (center : Var → Option ℝ) :
    Alg Leaf (Var → ℝ) where
  leaf d := do
    let x ← d.momentMap order center
    if d.var ∈ vs then .ok (fun v => if v = d.var then x else 0) else .error .keyError
  sum l := .ok (fun v => (l.map fun wv => wv.1.exp * wv.2 v).sum)
  prod l := .ok (fun v => (l.map fun f => f v).sum)

/-- `ProbabilisticCircuit.moment` (`nx/probabilistic_circuit.py:966-970`): a map with one entry per variable. -/
noncomputable def moment (g : Circuit) (m : Mem (Var → ℝ)) (order : Var → Option ℕ) (center : Var → Option ℝ) :
    Mem (Var → ℝ) × Except PyErr (Var → Option ℝ) :=
  match g.circuitVars with
  | .error e => (m, .error e)
  | .ok vs =>
    ((g.query (momentAlg vs order center) m).1,
      (g.query (momentAlg vs order center) m).2.map fun res v => if v ∈ vs then some (res v) else none)

/-- `ProbabilisticModel.expectation(variables)` (`probabilistic_model.py:226-239`).  The default argument `None` stands
for the list of all continuous and integer variables of the model. -/
noncomputable def expectation (g : Circuit) (m : Mem (Var → ℝ)) (vars : List Var) :
    Mem (Var → ℝ) × Except PyErr (Var → Option ℝ) :=
  g.moment m (fun v => if v ∈ vars then some 1 else none) (fun v => if v ∈ vars then some 0 else none)

/-- `ProbabilisticModel.variance(variables)` (`probabilistic_model.py:241-254`). -/
noncomputable def variance (g : Circuit) (m : Mem (Var → ℝ)) (vars : List Var) :
    Mem (Var → ℝ) × Except PyErr (Var → Option ℝ) :=
  match g.expectation m vars with
  | (m', .error e) => (m', .error e)
  | (m', .ok center) => g.moment m' (fun v => if v ∈ vars then some 2 else none) center

end Graph
end PM
