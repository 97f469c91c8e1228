import Verif.Graph.Basic

/-!
# Specification: the same circuit with other unit identities
-/

namespace PM.Spec

/-- `g'` is `g` with the identity of every unit `n` replaced by `φ n`: the same units in the same order with the same kinds
and distributions, and every unit has the same children in the same order with the same weights. -/
structure Renamed {D : Type} (g g' : Graph D) (φ : Node → Node) : Prop where
  inj : ∀ a ∈ g.ids, ∀ b ∈ g.ids, φ a = φ b → a = b
  nodes : g'.nodes = g.nodes.map fun p => (φ p.1, p.2)
  out : ∀ n ∈ g.ids, g'.outEdges (φ n) = (g.outEdges n).map fun e => ⟨φ e.src, φ e.dst, e.weight⟩
  src : ∀ e ∈ g'.edges, e.src ∈ g'.ids

end PM.Spec
