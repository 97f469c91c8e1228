import Verif.Circuit.Support
import Verif.Dist.Mode

/-!
# `log_mode` and `mode`
-/

namespace PM

open Classical

/-- `max(…)` of a list of log numbers; `ValueError` for an empty one. -/
noncomputable def LogP.maxOf : List LogP → Except PyErr LogP
  | [] => .error .valueError
  | a :: l => .ok (l.foldl (fun m x => if m ≤ x then x else m) a)

namespace Graph

/-- `arg_log_maxima[0] | arg_log_maxima[1] | …`; `IndexError` for an empty list. -/
def unionAll : List Event → Except PyErr Event
  | [] => .error .indexError
  | a :: l => .ok (l.foldl Event.union a)

/-- Rules of `log_mode`: leaf (`nx/probabilistic_circuit.py:290-291`, `distributions/distributions.py:41-43`), sum unit
(`nx/probabilistic_circuit.py:611-620`), product unit (`:692-698`; `fill_missing_variables` adds entries that allow every
value, an absent entry means the same here). -/
noncomputable def modeAlg (next : ℝ → Bool → ℝ) : Alg Leaf (Event × LogP) where
  leaf d := do
    let (A, l) ← d.logMode next
    .ok ([[(d.var, A)]], l)
  sum l := do
    let M ← LogP.maxOf (l.map fun wv => wv.1 + wv.2.2)
    let E ← unionAll ((l.filter fun wv => wv.1 + wv.2.2 = M).map fun wv => wv.2.1)
    .ok (E, M)
  prod l := match l with
    | [] => .error .indexError
    | a :: l => .ok (l.foldl (fun acc b => (acc.1.inter b.1, acc.2 + b.2)) a)

/-- `ProbabilisticCircuit.log_mode(check_determinism)` (`nx/probabilistic_circuit.py:837-842`).  `m` holds the results of earlier
queries when the supports are computed, `m'` what the units hold when the modes are. -/
noncomputable def logMode (g : Circuit) (next : ℝ → Bool → ℝ) (check : Bool) (m : Mem Event) (m' : Mem (Event × LogP)) :
    Except PyErr (Event × LogP) :=
  if check then
    match (g.isDeterministic m).2 with
    | .error e => .error e
    | .ok false => .error .intractableError
    | .ok true => (g.query (modeAlg next) m').2
  else (g.query (modeAlg next) m').2

/-- `ProbabilisticModel.mode` (`probabilistic_model.py:137-151`). -/
noncomputable def mode (g : Circuit) (next : ℝ → Bool → ℝ) (m : Mem Event) (m' : Mem (Event × LogP)) : Except PyErr (Event × ℝ) :=
  (g.logMode next true m m').map fun p => (p.1, p.2.exp)

end Graph
end PM
