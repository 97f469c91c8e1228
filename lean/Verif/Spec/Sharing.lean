import Verif.Spec.Integral

/-!
# Specification: shared units
-/

namespace PM.Spec

variable {D : Type}

/-- Every unit has at most one parent. -/
def TreeShaped (g : Graph D) : Prop := ∀ e ∈ g.edges, ∀ e' ∈ g.edges, e.dst = e'.dst → e.src = e'.src

/-- A product unit with at least two children, or a sum unit with at least two children all of whose parents are product
units with at least two children. -/
def SafeParent (g : Graph D) (p : Node) : Prop :=
  2 ≤ (g.succ p).length ∧ (g.kind? p = some .prod ∨ (g.kind? p = some .sum ∧
    ∀ e ∈ g.edges, e.dst = p → g.kind? e.src = some .prod ∧ 2 ≤ (g.succ e.src).length))

/-- Where units are shared, `simplify` has nothing to do: each parent of a unit with several parents is a `SafeParent`, and
the shared unit is a leaf or has at least two children; a shared sum unit is not below a sum unit.  Trees have no shared
units, and circuits in which sum and product units alternate and have at least two children satisfy it. -/
def SafeSharing (g : Graph D) : Prop :=
  ∀ e ∈ g.edges, ∀ e' ∈ g.edges, e.dst = e'.dst → e.src ≠ e'.src → SafeParent g e.src ∧
    ((∃ d, g.kind? e.dst = some (.leaf d)) ∨
      2 ≤ (g.succ e.dst).length ∧ (g.kind? e.dst = some .sum → g.kind? e.src = some .prod))

theorem TreeShaped.safeSharing {g : Graph D} (h : TreeShaped g) : SafeSharing g :=
  fun e he e' he' hd hne => absurd (h e he e' he' hd) hne

/-- No edge of a sum unit has weight zero (`log_weight = -inf`). -/
def PositiveWeights (g : Graph D) : Prop :=
  ∀ n, g.kind? n = some .sum → ∀ e ∈ g.outEdges n, ∃ x, e.weight = some (.fin x)

end PM.Spec
