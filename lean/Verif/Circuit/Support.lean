import Verif.Events.Sets
import Verif.Circuit.Normalize

/-!
# `support` and `is_deterministic`
-/

namespace PM.Graph

open Classical

/-- Rules of `support`: leaf (`nx/probabilistic_circuit.py:251-252`, `distributions/distributions.py:30-31`), sum unit: union of
the children, `IndexError` without any (`nx/probabilistic_circuit.py:409-413`), product unit: intersection (`:664-671`).
Simplified: `fill_missing_variables` on the first child's result adds entries for the product's variables that allow every
value; an absent entry means the same here.  (The pass of the model also reads the weights of a sum unit; with weights on all
edges this has no effect.) -/
noncomputable def supportAlg : Alg Leaf Event where
  leaf d := .ok [[(d.var, d.support)]]
  sum l := match l with
    | [] => .error .indexError
    | a :: l => .ok (l.foldl (fun s wv => s.union wv.2) a.2)
  prod l := match l with
    | [] => .error .indexError
    | a :: l => .ok (l.foldl Event.inter a)

/-- `ProbabilisticCircuit.support` (`nx/probabilistic_circuit.py:979-982`). -/
noncomputable def support (g : Circuit) (m : Mem Event) : Mem Event × Except PyErr Event := g.query supportAlg m

/-- The inner loop of `SumUnit.is_deterministic`: one result against the later ones. -/
noncomputable def disjointFrom (m : Mem Event) (A : Event) : List Node → Except PyErr Bool
  | [] => .ok true
  | b :: bs => do
    let B ← readResult m b
    if (A.inter B).IsEmpty then disjointFrom m A bs else .ok false

/-- `SumUnit.is_deterministic` (`nx/probabilistic_circuit.py:597-609`) on the results of the children. -/
noncomputable def pairwiseDisjoint (m : Mem Event) : List Node → Except PyErr Bool
  | [] => .ok true
  | a :: as => do
    let A ← readResult m a
    if ← disjointFrom m A as then pairwiseDisjoint m as else .ok false

/-- `all(node.is_deterministic() for node in …)`, which stops at the first `False`. -/
noncomputable def allDeterministic (g : Circuit) (m : Mem Event) : List Node → Except PyErr Bool
  | [] => .ok true
  | n :: ns => do
    if ← pairwiseDisjoint m (g.succ n) then g.allDeterministic m ns else .ok false

/-- `ProbabilisticCircuit.is_deterministic` (`nx/probabilistic_circuit.py:1097-1106`). -/
noncomputable def isDeterministic (g : Circuit) (m : Mem Event) : Mem Event × Except PyErr Bool :=
  match g.support m with
  | (m', .error e) => (m', .error e)
  | (m', .ok _) => (m', g.allDeterministic m' g.sumNodes)

end PM.Graph
