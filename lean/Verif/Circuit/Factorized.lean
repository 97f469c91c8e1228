import Verif.Circuit.UniformMeasure

/-!
# `fully_factorized` (`nx/helper.py`)
-/

namespace PM.Graph

/-- The body of the loop of `fully_factorized` (`nx/helper.py:89-101`): a normal distribution whose *scale* is the given variance, or a
symbolic distribution with equal probabilities; integer variables are not supported.  `symbols v` are the hashes of the elements of the
domain.  Simplified: the two dictionaries are total or partial functions. -/
noncomputable def factorLeaf (ty : Var → VarType) (symbols : Var → List ℤ) (means variances : Var → Option ℝ) (v : Var) :
    Except PyErr Leaf :=
  match ty v with
  | .continuous =>
    match means v, variances v with
    | some μ, some s => .ok (.gaussian v μ s)
    | _, _ => .error .keyError
  | .symbolic => .ok (.symbolic v ((symbols v).foldl (fun d k => Dict.set d k (1 / ((symbols v).length : ℝ))) []))
  | .integer => .error .notImplementedError

/-- `fully_factorized` (`nx/helper.py:73-104`).  Simplified: all leaves are made before the first is mounted. -/
noncomputable def fullyFactorized (ty : Var → VarType) (symbols : Var → List ℤ) (means variances : Var → Option ℝ) (vars : List Var) :
    Except PyErr Circuit := do
  let ds ← vars.mapM (factorLeaf ty symbols means variances)
  .ok ((newUnit 0 .prod).attachAll 0 (ds.map fun d => (newUnit 0 (.leaf d), 0, none)))

end PM.Graph
