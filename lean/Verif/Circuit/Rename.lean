import Verif.Circuit.Transform

/-!
# `update_variables`
-/

namespace PM

/-- `self.variable = variable`. -/
def Leaf.setVar (w : Var) : Leaf → Leaf
  | uniform _ lo hi l r => uniform w lo hi l r
  | dirac _ loc cap => dirac w loc cap
  | symbolic _ probs => symbolic w probs
  | integer _ probs => integer w probs
  | gaussian _ μ σ => gaussian w μ σ
  | truncGaussian _ I μ σ => truncGaussian w I μ σ

/-- `new_variables[variable]` of a `VariableMap` if `variable in new_variables`. -/
def newName (ρ : List (Var × Var)) (v : Var) : Option Var := (ρ.find? fun p => p.1 == v).map Prod.snd

/-- The loop body of `Unit.update_variables` (`nx/probabilistic_circuit.py:102-105`).  Simplification: the leaves do not share
distribution objects. -/
def Leaf.updateVariable (ρ : List (Var × Var)) (d : Leaf) : Leaf :=
  match newName ρ d.var with
  | some w => d.setVar w
  | none => d

/-- `ProbabilisticCircuit.update_variables` (`nx/probabilistic_circuit.py:1058-1064`), `Unit.update_variables`
(`:96-105`): every leaf below the root. -/
def Graph.updateVariables (g : Circuit) (ρ : List (Var × Var)) : Except PyErr Circuit :=
  g.changeLeaves fun d => .ok (d.updateVariable ρ)

end PM
