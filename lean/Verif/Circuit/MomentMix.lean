import Verif.Circuit.MomentValue

/-! Helper lemmas: values of circuits without product units lie between the values of the leaves. -/

namespace PM
namespace Graph
open Spec Classical

variable {g : Circuit} {r : Node} {sc : Node → Finset Var}

theorem mix_between {es : List Edge} {F : Node → ℝ} {a b : ℝ} (h1 : (es.map linWeight).sum = 1)
    (h : ∀ e ∈ es, a ≤ F e.dst ∧ F e.dst ≤ b) :
    a ≤ (es.map fun e => linWeight e * F e.dst).sum ∧ (es.map fun e => linWeight e * F e.dst).sum ≤ b := by
  have hsum : ∀ c : ℝ, (es.map fun e => linWeight e * c).sum = c := fun c => by rw [List.sum_map_mul_right, h1, one_mul]
  constructor
  · rw [← hsum a]
    exact List.sum_le_sum fun e he => mul_le_mul_of_nonneg_left (h e he).1 (linWeight_nonneg e)
  · rw [← hsum b]
    exact List.sum_le_sum fun e he => mul_le_mul_of_nonneg_left (h e he).2 (linWeight_nonneg e)

/-- A mixture of values between two numbers is between them. -/
theorem value_between (hw : g.WF) (ha : g.Acyclic) (hsn : NormalizedSums g) (hno : ∀ n, g.kind? n ≠ some .prod) {ℓ : Leaf → ℝ} {F : Node → ℝ}
    (hF : CircuitValue g ℓ F) {a b : ℝ} (hℓ : ∀ n d, g.kind? n = some (.leaf d) → a ≤ ℓ d ∧ ℓ d ≤ b) :
    ∀ n, n ∈ g.ids → a ≤ F n ∧ F n ≤ b := by
  refine ha.induct ?_
  intro n ih hn
  obtain ⟨k, hk⟩ := exists_kind? hn
  cases k with
  | leaf d => rw [hF.leaf n d hk]; exact hℓ n d hk
  | prod => exact absurd hk (hno n)
  | sum =>
    rw [hF.sum n hk]
    exact mix_between (hsn n hk) fun e he => ih _ (dst_mem_succ he) (succ_mem_ids hw (dst_mem_succ he))

/-- A mixture of positive values is positive. -/
theorem value_positive (hw : g.WF) (ha : g.Acyclic) (hsn : NormalizedSums g) (hno : ∀ n, g.kind? n ≠ some .prod) {ℓ : Leaf → ℝ} {F : Node → ℝ}
    (hF : CircuitValue g ℓ F) (hℓ : ∀ n d, g.kind? n = some (.leaf d) → 0 < ℓ d) : ∀ n, n ∈ g.ids → 0 < F n := by
  refine ha.induct ?_
  intro n ih hn
  obtain ⟨k, hk⟩ := exists_kind? hn
  cases k with
  | leaf d => rw [hF.leaf n d hk]; exact hℓ n d hk
  | prod => exact absurd hk (hno n)
  | sum =>
    rw [hF.sum n hk]
    have hpos : ∀ e ∈ g.outEdges n, 0 < F e.dst := fun e he => ih _ (dst_mem_succ he) (succ_mem_ids hw (dst_mem_succ he))
    have h1 := hsn n hk
    have h0 : 0 ≤ ((g.outEdges n).map fun e => linWeight e * F e.dst).sum := List.sum_nonneg fun x hx => by
      obtain ⟨e, he, rfl⟩ := List.mem_map.1 hx
      exact mul_nonneg (linWeight_nonneg e) (hpos e he).le
    refine lt_of_le_of_ne h0 fun hz => ?_
    have hall : ∀ e ∈ g.outEdges n, linWeight e = 0 := by
      intro e he
      by_contra hne
      have hlt : 0 < linWeight e * F e.dst := mul_pos (lt_of_le_of_ne (linWeight_nonneg e) (Ne.symm hne)) (hpos e he)
      have := List.single_le_sum (l := (g.outEdges n).map fun e => linWeight e * F e.dst) (fun x hx => by
        obtain ⟨e, he, rfl⟩ := List.mem_map.1 hx
        exact mul_nonneg (linWeight_nonneg e) (hpos e he).le) _ (List.mem_map.2 ⟨e, he, rfl⟩)
      linarith
    have : ((g.outEdges n).map linWeight).sum = 0 := List.sum_eq_zero fun x hx => by
      obtain ⟨e, he, rfl⟩ := List.mem_map.1 hx
      exact hall e he
    rw [this] at h1
    exact zero_ne_one h1

end Graph
end PM
