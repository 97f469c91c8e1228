import Verif.Circuit.Equality

/-!
# Specification: what two circuits have in common
-/

namespace PM.Spec

/-- The units `n` of `g` and `m` of `h` stand at the same place below `r` and `s`: they are reached by the same sequence
of positions among the subcircuits. -/
inductive SamePlace {D : Type} (g h : Graph D) (r s : Node) : Node → Node → Prop
  | here : SamePlace g h r s r s
  | child {n m c d : Node} {i : ℕ} : SamePlace g h r s n m → (g.succ n)[i]? = some c → (h.succ m)[i]? = some d →
      SamePlace g h r s c d

/-- The variable of the distribution is numeric and continuous. -/
def OverContinuous : Leaf → Prop
  | .uniform .. | .dirac .. | .gaussian .. | .truncGaussian .. => True
  | .symbolic .. | .integer .. => False

/-- Two units look alike: both are leaves, over a continuous variable or not, or both are products, or both are sums with
the same list of weights. -/
inductive Alike (g h : Circuit) (n m : Node) : Prop
  | leaf (d e : Leaf) : g.kind? n = some (.leaf d) → h.kind? m = some (.leaf e) → (OverContinuous d ↔ OverContinuous e) →
      Alike g h n m
  | prod : g.kind? n = some .prod → h.kind? m = some .prod → Alike g h n m
  | sum : g.kind? n = some .sum → h.kind? m = some .sum → (g.outEdges n).map Edge.weight = (h.outEdges m).map Edge.weight →
      Alike g h n m

/-- Below `r` and `s` the circuits have the same shape: units at the same place look alike and have as many
subcircuits. -/
def SameShape (g h : Circuit) (r s : Node) : Prop :=
  ∀ n m, SamePlace g h r s n m → Alike g h n m ∧ (g.succ n).length = (h.succ m).length

/-- Leaves at the same place below `r` and `s` have distributions related by `P`. -/
def LeavesMatch (P : Leaf → Leaf → Prop) (g h : Circuit) (r s : Node) : Prop :=
  ∀ n m d e, SamePlace g h r s n m → g.kind? n = some (.leaf d) → h.kind? m = some (.leaf e) → P d e

end PM.Spec
