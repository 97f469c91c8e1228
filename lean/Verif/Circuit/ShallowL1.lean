import Verif.Circuit.Subgraph
import Verif.Circuit.Support
import Verif.Circuit.Probability

/-!
# The L1 metric of shallow circuits

`ShallowProbabilisticCircuit.l1` (`nx/probabilistic_circuit.py:1385-1438`).
-/

namespace PM

open Classical

/-- `SimpleInterval.center` of `random_events`, for bounded intervals. -/
noncomputable def SimpleInterval.center (I : SimpleInterval) : ℝ := (I.lower.toReal + I.upper.toReal) / 2

/-- `assignment.simple_sets[0].center()` (`nx/probabilistic_circuit.py:1401`) with the variable: the elements of symbolic variables have no
`center`. -/
noncomputable def centerOfEntry (p : Var × VSet) : Except PyErr (Var × ℝ) :=
  match p.2 with
  | .interval [] => .error .indexError
  | .interval (I :: _) => .ok (p.1, I.center)
  | .symbols _ => .error .attributeError

/-- `np.array([assignment.simple_sets[0].center() for variable, assignment in intersection.simple_sets[0].items()]).reshape(1, -1)`
(`nx/probabilistic_circuit.py:1401-1402`).  `random_events` keeps no empty simple events, so the first one is the first that is not empty.
The row lists the values in the order of the variables; here it is the assignment of the values to the variables. -/
noncomputable def Event.center (Es : Event) : Except PyErr (Var → ℝ) :=
  match Es.filter fun E => ¬ E.IsEmpty with
  | [] => .error .indexError
  | E :: _ => do
    let cs ← E.mapM centerOfEntry
    .ok fun v => match cs.find? fun c => c.1 == v with
      | some c => c.2
      | none => 0

namespace Graph

/-- `events_of_higher_density_product` (`nx/probabilistic_circuit.py:1385-1411`).  The result is given as a set of points. -/
noncomputable def higherProduct (p q : Circuit) (tolerance : ℝ) (own other : Node) : Except PyErr (Set (Var → ℝ)) := do
  let ownSupport ← ((p.subgraphOf own).support freshMem).2
  let otherSupport ← ((q.subgraphOf other).support freshMem).2
  let intersection := ownSupport.inter otherSupport
  if intersection.IsEmpty then return ∅
  let center ← intersection.center
  let likelihoodOwn ← p.likelihood freshMem center
  let likelihoodOther ← q.likelihood freshMem center
  if likelihoodOwn - likelihoodOther > tolerance then return {x | intersection.Mem x} else return ∅

/-- The loop of `events_of_higher_density_sum` (`nx/probabilistic_circuit.py:1421-1423`). -/
noncomputable def higherLoop (p q : Circuit) (tolerance : ℝ) : List (Node × Node) → Set (Var → ℝ) → Except PyErr (Set (Var → ℝ))
  | [], result => .ok result
  | c :: cs, result => do
    let e ← p.higherProduct q tolerance c.1 c.2
    p.higherLoop q tolerance cs (result ∪ e)

/-- `events_of_higher_density_sum` (`nx/probabilistic_circuit.py:1413-1424`), as a set of points: difference and union of events belong to
`random_events`. -/
noncomputable def higherSum (p q : Circuit) (tolerance : ℝ) : Except PyErr (Set (Var → ℝ)) := do
  let r ← p.root
  let r' ← q.root
  let own ← (p.support freshMem).2
  let other ← (q.support freshMem).2
  p.higherLoop q tolerance ((p.succ r).product (q.succ r')) ({x | own.Mem x} \ {x | other.Mem x})

/-- `l1` (`nx/probabilistic_circuit.py:1426-1438`).  `represent` gives the event of `random_events` for a set of points. -/
noncomputable def shallowL1 (dom : Var → VSet) (represent : Set (Var → ℝ) → Event) (p q : Circuit) (tolerance : ℝ) : Except PyErr ℝ := do
  let e ← p.higherSum q tolerance
  let pe ← (p.probability freshMem dom (represent e)).2
  let qe ← (q.probability freshMem dom (represent e)).2
  return 2 * (pe - qe)

end Graph

end PM
