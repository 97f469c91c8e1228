import Verif.Spec.Integral
import Verif.Dist.Conditional

/-!
# Specification: conditioning on proper sets
-/

namespace PM.Spec

/-- Conditioning the leaf on the set cuts out no single points: the leaf is discrete, or it has a density and no simple
interval of the set meets its support in a singleton. -/
def ProperOn : Leaf → VSet → Prop
  | .symbolic .., _ | .integer .., _ => True
  | .dirac .., _ => False
  | d, .interval I => ∀ s, d.support = .interval [s] → ∀ i ∈ I, ¬ (s.inter i).IsSingleton
  | _, .symbols _ => True

/-- The event cuts no single points out of the continuous leaves of the circuit, and neither do the domains of its
variables. -/
structure ProperEvent (g : Circuit) (dom : Var → VSet) (E : SimpleEvent) : Prop where
  event : ∀ p ∈ E, ∀ n d, g.kind? n = some (.leaf d) → d.var = p.1 → ProperOn d p.2
  domain : ∀ n d, g.kind? n = some (.leaf d) → ProperOn d (dom d.var)

/-- Conditioning the leaf on the set leaves a single interval: the leaf is discrete, or its support meets the set in at most
one simple interval. -/
def OneIntervalOn : Leaf → VSet → Prop
  | .symbolic .., _ | .integer .., _ => True
  | d, A => ∀ L, d.support.inter A = .interval L → L.length ≤ 1

/-- The same for every leaf of the circuit and its entry in the event or, where it has none, the domain of its variable. -/
structure OneInterval (g : Circuit) (dom : Var → VSet) (E : SimpleEvent) : Prop where
  event : ∀ p ∈ E, ∀ n d, g.kind? n = some (.leaf d) → d.var = p.1 → OneIntervalOn d p.2
  domain : ∀ n d, g.kind? n = some (.leaf d) → OneIntervalOn d (dom d.var)

/-- For the probabilities `P` of the units: at every possible sum unit exactly one child is possible, or all children have the
same probability.  Then the weights of the sum units need no update. -/
def Balanced (g : Circuit) (P : Node → ℝ) : Prop := ∀ n, g.kind? n = some .sum → P n ≠ 0 →
  (∃ e₀ ∈ g.outEdges n, ∀ e ∈ g.outEdges n, P e.dst ≠ 0 → e = e₀) ∨ ∀ e ∈ g.outEdges n, P e.dst = P n

end PM.Spec
