import Verif.Spec.Conditioning
import Verif.Spec.Sharing
import Verif.Circuit.Conditional
import Verif.Events.Algebra

/-!
# Specification: evidence that arrives step by step
-/

namespace PM.Spec

open Graph

/-- One open interval of the real line. -/
def OneOpen (A : VSet) : Prop := ∃ lo hi, A = .interval [⟨lo, hi, .opn, .opn⟩]

/-- The leaf has a density. -/
def HasDensity : Leaf → Prop
  | .uniform .. | .gaussian .. | .truncGaussian .. => True
  | _ => False

/-- A normalized, smooth and decomposable tree without zero weights and without Dirac leaves, whose continuous variables range over an open interval
(in the library: over the real line). -/
structure EvidenceModel (g : Circuit) (r : Node) (sc : Node → Finset Var) (dom : Var → VSet) : Prop where
  layered : Layered g r
  smooth : Scoped g sc
  decomposable : Decomposable g sc
  valid : ∀ n d, g.kind? n = some (.leaf d) → d.Valid
  positive : PositiveWeights g
  normalized : NormalizedSums g
  leaves : ∀ n d, g.kind? n = some (.leaf d) → d.Normalized
  tree : TreeShaped g
  domain : DomainFor g dom
  noDirac : ∀ n d, g.kind? n = some (.leaf d) → ∀ v l c, d ≠ .dirac v l c
  line : ∀ n d, g.kind? n = some (.leaf d) → HasDensity d → OneOpen (dom d.var)

/-- A simple event about variables of the circuit that says of a continuous variable that it lies in an open interval. -/
structure EvidenceFor (g : Circuit) (vars : Finset Var) (E : SimpleEvent) : Prop where
  event : EventFor g vars E
  opens : ∀ p ∈ E, ∀ n d, g.kind? n = some (.leaf d) → d.var = p.1 → HasDensity d → OneOpen p.2

/-- No factor of the root has variables of both events. -/
def DifferentFactors (g : Circuit) (r : Node) (sc : Node → Finset Var) (E F : SimpleEvent) : Prop :=
  ∀ c ∈ g.succ r, (∀ v ∈ sc c, v ∉ E.keys) ∨ ∀ v ∈ sc c, v ∉ F.keys

/-- A program that conditions a model on one simple event after the other, each time going on with the model it got.  `none` means
that some call returned `None`. -/
noncomputable def observe (dom : Var → VSet) (g : Circuit) : List SimpleEvent → Except PyErr (Option Circuit)
  | [] => .ok (some g)
  | E :: Es => match g.conditional dom [E] with
    | .error e => .error e
    | .ok (none, _) => .ok none
    | .ok (some g', _) => observe dom g' Es

/-- All observations and `F` together, as one simple event. -/
noncomputable def together (Es : List SimpleEvent) (F : SimpleEvent) : SimpleEvent := Es.foldr SimpleEvent.inter F

end PM.Spec
