import Verif.Heap.Basic

/-! # Which objects a circuit uses -/

namespace PM.Spec

/-- The distribution objects the leaves of a circuit refer to. -/
def refs (g : RefCircuit) : List ℕ := g.nodes.filterMap fun p => match p.2 with
  | .leaf r => some r
  | _ => none

/-- All references lead to objects that exist, and no distribution object is used by two circuits.  (Within a circuit leaves may share
an object; dictionaries may be shared by anything.) -/
structure Separate (w : World) : Prop where
  dicts : ∀ r < w.heap.nextObj, ∀ s v k, w.heap.obj r = .discrete s v k → k < w.heap.nextDict
  known : ∀ g ∈ w.circuits, ∀ r ∈ refs g, r < w.heap.nextObj
  disjoint : ∀ (i j : ℕ) (g g' : RefCircuit) (r : ℕ), w.circuits[i]? = some g → w.circuits[j]? = some g' → r ∈ refs g → r ∈ refs g' → i = j

/-- The call is not an in-place edit of circuit `i`. -/
def Call.spares (i : ℕ) : Call → Prop
  | .edit j _ => j ≠ i
  | _ => True

/-- The call is not `leaf.distribution.normalize()`. -/
def Call.keepsDicts : Call → Prop
  | .edit _ (.normalizeLeaf _) => False
  | _ => True

end PM.Spec
