import Verif.Spec.Value
import Verif.Circuit.Shallow

/-!
# Specification: circuits as trees, shallow circuits
-/

namespace PM.Spec

/-- A circuit as an expression: leaf units with their distribution, sum (`true`) and product (`false`) units with their weighted
subcircuits (product edges have no weight).  Every unit has its number. -/
inductive UTree (D : Type) where
  | leaf (n : Node) (d : D)
  | inner (n : Node) (isSum : Bool) (cs : List (Option LogP × UTree D))

namespace UTree

variable {D : Type}

/-- The number of the outermost unit. -/
def root : UTree D → Node
  | leaf n _ => n
  | inner n _ _ => n

/-- Is the outermost unit a sum unit? -/
def isSum : UTree D → Bool
  | leaf _ _ => false
  | inner _ b _ => b

theorem size_lt {n : Node} {b : Bool} {cs : List (Option LogP × UTree D)} {c : Option LogP × UTree D} (h : c ∈ cs) :
    sizeOf c.2 < sizeOf (inner n b cs) := by
  have h1 := List.sizeOf_lt_of_mem h
  have h2 : sizeOf c.2 < sizeOf c := by cases c; simp
  simp only [inner.sizeOf_spec]
  omega

/-- The inner units. -/
def inn : UTree D → List Node
  | leaf _ _ => []
  | inner n _ cs => n :: cs.flatMap fun c => c.2.inn
decreasing_by all_goals exact size_lt ‹_›

/-- The leaf units. -/
def lvs : UTree D → List (Node × D)
  | leaf n d => [(n, d)]
  | inner _ _ cs => cs.flatMap fun c => c.2.lvs
decreasing_by all_goals exact size_lt ‹_›

def height : UTree D → ℕ
  | leaf _ _ => 0
  | inner _ _ cs => (cs.map fun c => c.2.height).foldr max 0 + 1
decreasing_by all_goals exact size_lt ‹_›

/-- The value with the weights. -/
noncomputable def value (ℓ : D → ℝ) : UTree D → ℝ
  | leaf _ d => ℓ d
  | inner _ true cs => (cs.map fun c => (c.1.getD 0).exp * c.2.value ℓ).sum
  | inner _ false cs => (cs.map fun c => c.2.value ℓ).prod
decreasing_by all_goals exact size_lt ‹_›

/-- The value if all weights were `1`. -/
noncomputable def total (ℓ : D → ℝ) : UTree D → ℝ
  | leaf _ d => ℓ d
  | inner _ true cs => (cs.map fun c => c.2.total ℓ).sum
  | inner _ false cs => (cs.map fun c => c.2.total ℓ).prod
decreasing_by all_goals exact size_lt ‹_›

/-- The value the shallow circuit has: below the outermost unit all weights are `1`, and everything is multiplied with `e`. -/
noncomputable def shallowed (ℓ : D → ℝ) : UTree D → ℝ
  | leaf _ d => ℓ d
  | inner _ true cs => Real.exp 1 * (cs.map fun c => (c.1.getD 0).exp * c.2.total ℓ).sum
  | inner _ false cs => Real.exp 1 * (cs.map fun c => c.2.total ℓ).prod

end UTree

variable {D : Type}

/-- The units of the expression are in the graph, with their classes and their edges in order. -/
inductive Drawn (g : Graph D) : UTree D → Prop
  | leaf {n d} : g.kind? n = some (.leaf d) → g.succ n = [] → Drawn g (.leaf n d)
  | inner {n b cs} : g.kind? n = some (if b then .sum else .prod) →
      (g.outEdges n).map (fun e => (e.dst, e.weight)) = cs.map (fun c => (c.2.root, c.1)) →
      (∀ c ∈ cs, Drawn g c.2) → Drawn g (.inner n b cs)

/-- The conditions on the units: sum units have at least one subcircuit, and weights; different subcircuits of a product have different
leaves, and no weights. -/
inductive WellBuilt : UTree D → Prop
  | leaf {n d} : WellBuilt (.leaf n d)
  | sum {n cs} : cs ≠ [] → (∀ c ∈ cs, ∃ x, c.1 = some (.fin x)) → (∀ c ∈ cs, WellBuilt c.2) → WellBuilt (.inner n true cs)
  | prod {n cs} : (cs.Pairwise fun a b => ∀ l ∈ a.2.lvs, ∀ l' ∈ b.2.lvs, l.1 ≠ l'.1) → (∀ c ∈ cs, c.1 = none) →
      (∀ c ∈ cs, WellBuilt c.2) → WellBuilt (.inner n false cs)

/-- The circuit is the expression `t`; inner units are not shared, leaf units may be. -/
structure IsTree (g : Graph D) (t : UTree D) : Prop where
  wf : g.WF
  drawn : Drawn g t
  inn : t.inn.Nodup
  all : ∀ n ∈ g.ids, n ∈ t.inn ∨ n ∈ t.lvs.map Prod.fst
  built : WellBuilt t

/-- A sum unit of product units of leaf units. -/
def ShallowForm (g : Graph D) (r : Node) : Prop :=
  g.root = .ok r ∧ g.kind? r = some .sum ∧ (∀ n ∈ g.ids, n = r ∨ n ∈ g.succ r ∨ ∃ c ∈ g.succ r, n ∈ g.succ c) ∧
    ∀ c ∈ g.succ r, g.kind? c = some .prod ∧ ∀ l ∈ g.succ c, ∃ d, g.kind? l = some (.leaf d)

end PM.Spec
