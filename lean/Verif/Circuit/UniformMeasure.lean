import Verif.Circuit.Neat
import Verif.Circuit.Conditional
import Verif.Dist.Discrete

/-!
# Uniform measures of events

`uniform_measure_of_simple_event` and `uniform_measure_of_event` (`nx/helper.py`).
-/

namespace PM

open Classical

/-- The class of a variable (`random_events.variable`). -/
inductive VarType where
  | continuous | symbolic | integer
  deriving DecidableEq, Repr

namespace Graph

/-- `u = UniformDistribution(variable, interval)` and the weight `1 / u.pdf_value()` with which it is added
(`nx/helper.py:47-48`, `distributions/uniform.py:36-40`: `pdf_value = exp(-log(upper - lower))`).  For an interval without length
`log` is `-inf`, `exp` is `inf` and the weight is `0`.  For an infinite border Python goes on with `inf` and gets `nan` in
`normalize`; here this is an error. -/
noncomputable def uniformPart (v : Var) (I : SimpleInterval) : Except PyErr (Leaf × LogP) :=
  if I.lower = ⊥ ∨ I.lower = ⊤ ∨ I.upper = ⊥ ∨ I.upper = ⊤ then .error .valueError
  else .ok (.uniform v I.lower.toReal I.upper.toReal I.left I.right,
    .fin (if I.upper.toReal = I.lower.toReal then 0 else 1 / Real.exp (-Real.log (I.upper.toReal - I.lower.toReal))))

/-- The key `value.lower` of a simple interval (`nx/helper.py:60`); keys that are no integers are not modelled. -/
noncomputable def lowerKey (I : SimpleInterval) : Except PyErr ℤ :=
  if I.lower = ((⌊I.lower.toReal⌋ : ℝ) : EReal) then .ok ⌊I.lower.toReal⌋ else .error .valueError

/-- The body of the loop over the variables (`nx/helper.py:41-68`): for a continuous variable a normalized sum of uniform
distributions with the weights of `uniformPart` (`:44-49`), for a symbolic one a leaf with equal probabilities for the symbols
(`:52-55`), for an integer one a leaf with equal probabilities for the lower borders (`:58-62`). -/
noncomputable def uniformComponent (ty : Var → VarType) (p : Var × VSet) : Except PyErr (Circuit × Node × Option LogP) :=
  match ty p.1, p.2 with
  | .continuous, .interval I => do
    let ps ← I.mapM (uniformPart p.1)
    let g ← (leafMix 0 (ps.zipIdx.map fun q => (q.2 + 1, q.1.1, q.1.2))).normalizeUnit 0
    .ok (g, 0, none)
  | .symbolic, .symbols S => .ok (newUnit 0 (.leaf (.symbolic p.1 (S.map fun k => (k, 1 / (S.length : ℝ))))), 0, none)
  | .integer, .interval I => do
    let ks ← I.mapM lowerKey
    .ok (newUnit 0 (.leaf (.integer p.1 (ks.foldl (fun d k => Dict.set d k (1 / (I.length : ℝ))) []))), 0, none)
  | _, _ => .error .attributeError

/-- `uniform_measure_of_simple_event` (`nx/helper.py:30-70`). -/
noncomputable def uniformOfSimple (ty : Var → VarType) (E : SimpleEvent) : Except PyErr Circuit := do
  let parts ← E.mapM (uniformComponent ty)
  .ok ((newUnit 0 .prod).attachAll 0 parts)

/-- `uniform_measure_of_event` (`nx/helper.py:12-28`).  `Event.bounding_box` belongs to `random_events` and is a parameter. -/
noncomputable def uniformOfEvent (ty : Var → VarType) (dom : Var → VSet) (boundingBox : Event → SimpleEvent) (Es : Event) :
    Except PyErr (Option Circuit) := do
  let model ← uniformOfSimple ty (boundingBox Es)
  let res ← model.conditional dom Es
  .ok res.1

end Graph
end PM
