import Verif.Circuit.Query

/-!
# `probability` of arbitrary events
-/

namespace PM

namespace SimpleEvent

/-- The variables of a simple event (the keys of the dictionary). -/
def keys (E : SimpleEvent) : List Var := E.map Prod.fst

/-- `SimpleEvent.fill_missing_variables(variables)` of `random_events`: every variable that is not a key yet gets its
whole domain.  `vs` is the sorted list of the variables, `dom` the domain of each variable. -/
def fillMissing (dom : Var → VSet) (vs : List Var) (E : SimpleEvent) : SimpleEvent :=
  E ++ (vs.filter fun v => !E.keys.contains v).map fun v => (v, dom v)

end SimpleEvent

/-- `random_events.product_algebra.Event`: a disjoint union of simple events. -/
abbrev Event := List SimpleEvent

namespace Graph

/-- The sum over the simple sets (`probabilistic_model.py:118-119`); every call is a pass over the circuit and leaves
its results in the units. -/
noncomputable def probabilityLoop (g : Circuit) : List SimpleEvent → ℝ → Mem ℝ → Mem ℝ × Except PyErr ℝ
  | [], acc, m => (m, .ok acc)
  | E :: Es, acc, m =>
    match g.probabilityOfSimpleEvent m E with
    | (m', .error e) => (m', .error e)
    | (m', .ok p) => probabilityLoop g Es (acc + p) m'

/-- `ProbabilisticModel.probability` (`probabilistic_model.py:110-119`).  The variables are those of the circuit; the
caller's event is changed in place by `fill_missing_variables`, which is not observable here. -/
noncomputable def probability (g : Circuit) (m : Mem ℝ) (dom : Var → VSet) (E : Event) : Mem ℝ × Except PyErr ℝ :=
  match g.circuitVars with
  | .error e => (m, .error e)
  | .ok vs => g.probabilityLoop (E.map (SimpleEvent.fillMissing dom (vs.sort (· ≤ ·)))) 0 m

/-- `ProbabilisticModel.universal_simple_event` (`probabilistic_model.py:256-260`). -/
noncomputable def universalSimpleEvent (g : Circuit) (dom : Var → VSet) : Except PyErr SimpleEvent :=
  match g.circuitVars with
  | .error e => .error e
  | .ok vs => .ok ((vs.sort (· ≤ ·)).map fun v => (v, dom v))

end Graph
end PM
