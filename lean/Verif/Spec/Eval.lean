import Verif.Graph.Pass

/-!
# Specification: the value of a unit

`Eval g A n v`: the unit `n` of the circuit has the value `v`, by recursion over its subcircuits.  No memory, no
layers, no visiting order.  It is a relation, so it says nothing about units that have no value (a sum with a missing
weight, a rule that raises).
-/

namespace PM.Spec

variable {D V : Type}

inductive Eval (g : Graph D) (A : Alg D V) : Node → V → Prop
  | leaf {n : Node} {d : D} {v : V} : g.kind? n = some (.leaf d) → A.leaf d = .ok v → Eval g A n v
  | sum {n : Node} {v : V} (child : Node → V) : g.kind? n = some .sum →
      (∀ c ∈ g.succ n, Eval g A c (child c)) → (∀ e ∈ g.outEdges n, e.weight.isSome) →
      A.sum ((g.outEdges n).map fun e => (e.weight.getD 0, child e.dst)) = .ok v → Eval g A n v
  | prod {n : Node} {v : V} (child : Node → V) : g.kind? n = some .prod →
      (∀ c ∈ g.succ n, Eval g A c (child c)) → A.prod ((g.succ n).map child) = .ok v → Eval g A n v

end PM.Spec
