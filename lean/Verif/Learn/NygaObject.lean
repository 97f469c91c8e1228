import Verif.Learn.Refit
import Verif.Circuit.Json

/-!
# Quantile distributions as objects: parameters, copies and JSON
-/

namespace PM.Learn.Nyga

open Classical

/-- A `NygaDistribution` (`learning/nyga_distribution.py:316-346`): a circuit and the parameters; `variable` may be `None`. -/
structure Object where
  variable' : Option Var
  minSamples : ℤ
  minImprovement : ℝ
  circuit : Circuit

/-- `NygaDistribution(variable, min_samples_per_quantile, min_likelihood_improvement)` (`learning/nyga_distribution.py:341-346`). -/
def Object.new (v : Option Var) (minSamples : ℤ) (minImprovement : ℝ) : Object := ⟨v, minSamples, minImprovement, emptyCircuit⟩

/-- `NygaDistribution.empty_copy` (`learning/nyga_distribution.py:411-412`). -/
def Object.emptyCopy (o : Object) : Object := .new o.variable' o.minSamples o.minImprovement

/-- `ProbabilisticCircuit.__copy__` (`nx/probabilistic_circuit.py:1007-1017`) of a quantile distribution: the units are copied into the
empty copy. -/
def Object.copy (o : Object) : Object := { o.emptyCopy with circuit := o.circuit.copy }

/-- `{**data, …}`: the new entries behind the old ones.  Simplification: the keys are different. -/
def extend (j : Json) (l : List (JKey × Json)) : Json := match j with
  | .obj old => .obj (old ++ l)
  | j => j

/-- `NygaDistribution.to_json` (`learning/nyga_distribution.py:405-409`); a variable is represented by its number.  Without a variable,
`None.to_json()` is an `AttributeError`.  Simplification: the type name that `super().to_json()` writes is that of a circuit; it selects the
class in `from_json` and is not used further. -/
noncomputable def Object.toJson (o : Object) : Except PyErr Json :=
  match o.variable' with
  | none => .error .attributeError
  | some v => .ok (extend o.circuit.toJson [(.name "variable", .int v), (.name "min_samples_per_quantile", .int o.minSamples),
      (.name "min_likelihood_improvement", .num (o.minImprovement : ℝ))])

/-- `NygaDistribution.parameters_from_json` (`learning/nyga_distribution.py:398-403`). -/
noncomputable def parametersFromJson (j : Json) : Except PyErr Object := do
  let v ← (← j.get "variable").asInt
  let s ← (← j.get "min_samples_per_quantile").asInt
  let i ← (← j.get "min_likelihood_improvement").asNum
  .ok (.new (some v.toNat) s i.toReal)

/-- `ProbabilisticCircuit._from_json` (`nx/probabilistic_circuit.py:1040-1056`) of a quantile distribution. -/
noncomputable def Object.fromJson (base : Nat) (j : Json) : Except PyErr Object := do
  let o ← parametersFromJson j
  let g ← Graph.fromJson base j
  .ok { o with circuit := g }

/-- `NygaDistribution.fit` (`learning/nyga_distribution.py:348-396`) as a method of the object; the result is the object afterwards.
Simplification: only for objects with a variable; without one the code builds leaves over `None`. -/
noncomputable def Object.fit (o : Object) (cap : ℝ) (data : List ℝ) (weights : Option (List ℝ)) : Object × Except PyErr Unit :=
  match o.variable' with
  | none => (o, .error .attributeError)
  | some v =>
    ({ o with circuit := (fitOn ⟨v, o.minSamples, o.minImprovement⟩ cap data weights o.circuit).1 },
      (fitOn ⟨v, o.minSamples, o.minImprovement⟩ cap data weights o.circuit).2)

end PM.Learn.Nyga
