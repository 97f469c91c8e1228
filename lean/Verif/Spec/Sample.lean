import Verif.Circuit.Sample
import Verif.Circuit.SampleRandom
import Verif.Spec.Value
import Verif.Spec.Density

/-! # Possible outcomes of the random choices of `sample` -/

namespace PM.Spec
open Graph

/-- Multinomial counts have one entry for every subcircuit, sum to the amount and are zero where the probability is zero; shuffling
permutes. -/
structure Possible (g : Circuit) (draws : Outcomes) : Prop where
  length : ∀ n k a, g.kind? n = some .sum → (draws.counts n k a).length = (g.outEdges n).length
  sum : ∀ n k a, g.kind? n = some .sum → (draws.counts n k a).sum = a
  zero : ∀ n k a (i : ℕ) e, g.kind? n = some .sum → (g.outEdges n)[i]? = some e → linWeight e = 0 → (draws.counts n k a)[i]? = some 0
  order : ∀ n k, g.kind? n = some .sum → (draws.order n k).Perm (List.range (g.outEdges n).length)

/-- The samples of a leaf lie in its support. -/
def InSupport (g : Circuit) (draws : Outcomes) : Prop :=
  ∀ n d k a i, g.kind? n = some (.leaf d) → i < a → 0 < leafDensity d (draws.value n k a i)

/-- Row `ρ` of the array is completely filled and satisfies the event. -/
def RowIn (vs : Finset Var) (E : SimpleEvent) (log : List Write) (ρ : ℕ) : Prop :=
  ∃ x : Var → ℝ, (∀ v ∈ vs, cell log ρ v = some (x v)) ∧ E.Mem x

open Classical in
/-- The probability that the computation succeeds with a result that has the property. -/
noncomputable def chance {α : Type} (d : Rand (Except PyErr α)) (P : α → Prop) : ℝ :=
  d fun res => if ∃ a, res = .ok a ∧ P a then 1 else 0

end PM.Spec
