import Verif.Props.Examples
import Verif.Spec.Sharing

/-!
# Checking the hypotheses of concrete circuits

Each hypothesis about all units follows from a statement about the (finite) list of units.
-/

namespace PM.Ex

open Spec Graph

theorem leafTerminal_of {D : Type} {g : Graph D} (h : ∀ p ∈ g.nodes, ∀ d, p.2 = .leaf d → g.succ p.1 = []) :
    g.LeafTerminal := fun n d hk => forall_kind (P := fun n k => ∀ d, k = .leaf d → g.succ n = []) h n _ hk d rfl

theorem weighted_of {D : Type} {g : Graph D} (h : ∀ p ∈ g.nodes, p.2 = .sum → ∀ e ∈ g.outEdges p.1, e.weight.isSome) :
    Weighted g := fun n hk => forall_kind (P := fun n k => k = .sum → ∀ e ∈ g.outEdges n, e.weight.isSome) h n _ hk rfl

theorem positive_of {D : Type} {g : Graph D}
    (h : ∀ p ∈ g.nodes, p.2 = .sum → ∀ e ∈ g.outEdges p.1, ∃ x, e.weight = some (.fin x)) :
    PositiveWeights g :=
  fun n hk => forall_kind (P := fun n k => k = .sum → ∀ e ∈ g.outEdges n, ∃ x, e.weight = some (.fin x)) h n _ hk rfl

theorem normalized_of {D : Type} {g : Graph D}
    (h : ∀ p ∈ g.nodes, p.2 = .sum → ((g.outEdges p.1).map linWeight).sum = 1) : NormalizedSums g :=
  fun n hk => forall_kind (P := fun n k => k = .sum → ((g.outEdges n).map linWeight).sum = 1) h n _ hk rfl

theorem valid_of {g : Circuit} (h : ∀ p ∈ g.nodes, ∀ d, p.2 = .leaf d → d.Valid) :
    ∀ n d, g.kind? n = some (.leaf d) → d.Valid :=
  fun n d hk => forall_kind (P := fun _ k => ∀ d, k = .leaf d → d.Valid) h n _ hk d rfl

theorem scoped_of {g : Circuit} {sc : Node → Finset Var}
    (h1 : ∀ p ∈ g.nodes, ∀ d, p.2 = .leaf d → sc p.1 = {d.var})
    (h2 : ∀ p ∈ g.nodes, p.2 = .sum → g.succ p.1 ≠ [] ∧ ∀ c ∈ g.succ p.1, sc c = sc p.1)
    (h3 : ∀ p ∈ g.nodes, p.2 = .prod → ∀ v, v ∈ sc p.1 ↔ ∃ c ∈ g.succ p.1, v ∈ sc c) : Scoped g sc where
  leaf n d hk := forall_kind (P := fun n k => ∀ d, k = .leaf d → sc n = {d.var}) h1 n _ hk d rfl
  sumNe n hk :=
    (forall_kind (P := fun n k => k = .sum → g.succ n ≠ [] ∧ ∀ c ∈ g.succ n, sc c = sc n) h2 n _ hk rfl).1
  sum n hk :=
    (forall_kind (P := fun n k => k = .sum → g.succ n ≠ [] ∧ ∀ c ∈ g.succ n, sc c = sc n) h2 n _ hk rfl).2
  prod n hk := forall_kind (P := fun n k => k = .prod → ∀ v, v ∈ sc n ↔ ∃ c ∈ g.succ n, v ∈ sc c) h3 n _ hk rfl

theorem decomposable_of {g : Circuit} {sc : Node → Finset Var}
    (h : ∀ p ∈ g.nodes, p.2 = .prod → (g.succ p.1).Pairwise fun a b => Disjoint (sc a) (sc b)) : Decomposable g sc :=
  fun n hk => forall_kind (P := fun n k => k = .prod → (g.succ n).Pairwise fun a b => Disjoint (sc a) (sc b)) h n _ hk rfl

theorem value_of {D : Type} {g : Graph D} {ℓ : D → ℝ} {f : Node → ℝ}
    (h1 : ∀ p ∈ g.nodes, ∀ d, p.2 = .leaf d → f p.1 = ℓ d)
    (h2 : ∀ p ∈ g.nodes, p.2 = .sum → f p.1 = ((g.outEdges p.1).map fun e => linWeight e * f e.dst).sum)
    (h3 : ∀ p ∈ g.nodes, p.2 = .prod → f p.1 = ((g.outEdges p.1).map fun e => f e.dst).prod) : CircuitValue g ℓ f where
  leaf n d hk := forall_kind (P := fun n k => ∀ d, k = .leaf d → f n = ℓ d) h1 n _ hk d rfl
  sum n hk := forall_kind (P := fun n k => k = .sum → f n = ((g.outEdges n).map fun e => linWeight e * f e.dst).sum)
    h2 n _ hk rfl
  prod n hk := forall_kind (P := fun n k => k = .prod → f n = ((g.outEdges n).map fun e => f e.dst).prod) h3 n _ hk rfl

theorem uniform_inside {v : Var} {a b x : ℝ} (h1 : a ≤ x) (h2 : x ≤ b) :
    leafDensity (.uniform v a b .closed .closed) x = (b - a)⁻¹ := by
  rw [leafDensity, if_pos, one_div]
  exact ⟨EReal.coe_le_coe_iff.2 h1, EReal.coe_le_coe_iff.2 h2⟩

theorem uniform_outside {v : Var} {a b x : ℝ} (h : x < a ∨ b < x) :
    leafDensity (.uniform v a b .closed .closed) x = 0 := by
  rw [leafDensity, if_neg]
  rintro ⟨h1, h2⟩
  have h1 := EReal.coe_le_coe_iff.1 h1
  have h2 := EReal.coe_le_coe_iff.1 h2
  rcases h with h | h <;> linarith

/-- The edge weight `log q`. -/
noncomputable def lw (q : ℝ) : Option LogP := some (.fin (Real.log q))

theorem linWeight_lw {q : ℝ} (h : 0 < q) (a b : Node) : linWeight ⟨a, b, lw q⟩ = q := by
  simp [linWeight, lw, Real.exp_log h]

theorem lw_isSome (q : ℝ) : (lw q).isSome := rfl
theorem lw_fin (q : ℝ) : ∃ x, lw q = some (.fin x) := ⟨_, rfl⟩

end PM.Ex
