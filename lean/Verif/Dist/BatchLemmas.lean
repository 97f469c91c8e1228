import Verif.Dist.Batch
import Verif.Props.LeafDiscrete

/-! Helper lemmas: masked arrays row by row. -/

namespace PM

open Classical ProbabilityTheory

theorem maskSelect_map {α : Type} (c : α → Bool) (xs : List α) : maskSelect (xs.map c) xs = xs.filter c := by
  induction xs with
  | nil => rfl
  | cons x xs ih =>
    unfold maskSelect at ih ⊢
    cases h : c x <;> simp [h, ih]

theorem count_true_map {α : Type} (c : α → Bool) (xs : List α) : (xs.map c).count true = (xs.filter c).length := by
  induction xs with
  | nil => rfl
  | cons x xs ih =>
    cases h : c x <;> simp [h, ih]

theorem maskWrite_map {α β : Type} (c : α → Bool) (f h : α → β) (xs : List α) :
    maskWrite (xs.map c) ((xs.filter c).map f) (xs.map h) = xs.map fun x => if c x then f x else h x := by
  induction xs with
  | nil => rfl
  | cons x xs ih =>
    cases hc : c x <;> simp [hc, maskWrite, ih]

/-- Select, compute, write back: every row is computed or left as it was. -/
theorem maskAssign_map {α β : Type} (c : α → Bool) (f h : α → β) (xs : List α) :
    maskAssign (xs.map c) ((maskSelect (xs.map c) xs).map f) (xs.map h)
      = .ok (xs.map fun x => if c x then f x else h x) := by
  rw [maskSelect_map, maskAssign, if_pos (by rw [count_true_map, List.length_map]), maskWrite_map]

theorem fillWhere_map {α β : Type} (c : α → Bool) (v : β) (h : α → β) (xs : List α) :
    fillWhere (xs.map c) v (xs.map h) = xs.map fun x => if c x then v else h x := by
  induction xs with
  | nil => rfl
  | cons x xs ih =>
    unfold fillWhere at ih ⊢
    simp only [List.map_cons, List.zipWith_cons_cons, ih]

theorem replicate_map {α β : Type} (v : β) (xs : List α) : List.replicate xs.length v = xs.map fun _ => v := by
  rw [List.map_const']

theorem fold_fillWhere (probs : List (ℤ × ℝ)) (xs : List ℝ) (h : ℝ → LogP) :
    probs.foldl (fun result kp => fillWhere (xs.map fun x => decide (x = (kp.1 : ℝ))) (LogP.log kp.2) result) (xs.map h)
      = xs.map fun x => probs.foldl (fun acc kp => if x = (kp.1 : ℝ) then LogP.log kp.2 else acc) (h x) := by
  induction probs generalizing h with
  | nil => simp
  | cons kp probs ih =>
    simp only [List.foldl_cons]
    rw [fillWhere_map, ih]
    simp

/-- The masked code computes every row on its own. -/
theorem logLikBatch_eq (d : Leaf) (xs : List ℝ) : d.logLikBatch xs = .ok (xs.map d.logLik) := by
  cases d with
  | uniform v lo hi l r =>
    simp only [Leaf.logLikBatch]
    rw [replicate_map, maskAssign_map]
    simp [Leaf.logLik]
  | dirac v loc cap =>
    simp only [Leaf.logLikBatch]
    rw [replicate_map, fillWhere_map]
    simp [Leaf.logLik]
  | symbolic v probs =>
    simp only [Leaf.logLikBatch]
    rw [replicate_map, fold_fillWhere]
    rfl
  | integer v probs =>
    simp only [Leaf.logLikBatch]
    rw [replicate_map, fold_fillWhere]
    rfl
  | gaussian v μ σ => rfl
  | truncGaussian v I μ σ =>
    simp only [Leaf.logLikBatch]
    rw [replicate_map, maskAssign_map]
    simp [Leaf.logLik]

/-- The same for `cdf`, for integer distributions with increasing keys and at least one row. -/
theorem cdfBatch_eq {d : Leaf} (hs : ∀ v probs, d = .integer v probs → (probs.map Prod.fst).Pairwise (· < ·)) {F : ℝ → ℝ}
    (hF : ∀ x, d.cdf x = .ok (F x)) {xs : List ℝ} (hx : xs ≠ []) : d.cdfBatch xs = .ok (xs.map F) := by
  have hF' : ∀ x, .ok (F x) = d.cdf x := fun x => (hF x).symm
  cases d with
  | uniform v lo hi l r =>
    simp only [Leaf.cdfBatch]
    congr 1
    apply List.map_congr_left
    intro x _
    have := hF x
    simp only [Leaf.cdf, Leaf.uniformCdf, EReal.coe_ne_bot, EReal.coe_ne_top, if_false, EReal.toReal_coe,
      Except.ok.injEq] at this
    exact this
  | dirac v loc cap =>
    simp only [Leaf.cdfBatch]
    rw [replicate_map, fillWhere_map]
    congr 1
    apply List.map_congr_left
    intro x _
    have := hF x
    simp only [Leaf.cdf, Except.ok.injEq] at this
    rw [← this]
    simp
  | symbolic v probs => exact absurd (hF 0) (by simp [Leaf.cdf])
  | integer v probs =>
    simp only [Leaf.cdfBatch]
    rw [Props.C30_cdf_sorted_partial (hs v probs rfl) hx]
    congr 1
    apply List.map_congr_left
    intro x _
    have h1 := Props.C30_cdf_sorted_partial (hs v probs rfl) (xs := [x]) (by simp)
    rw [Props.cdfArray_single] at h1
    simp only [List.map_cons, List.map_nil, Except.ok.injEq, List.cons.injEq, and_true] at h1
    have := hF x
    simp only [Leaf.cdf, Except.ok.injEq] at this
    rw [← this, h1]
  | gaussian v μ σ =>
    simp only [Leaf.cdfBatch]
    congr 1
    apply List.map_congr_left
    intro x _
    simpa [Leaf.cdf] using hF x
  | truncGaussian v I μ σ =>
    simp only [Leaf.cdfBatch]
    rw [replicate_map, maskAssign_map]
    simp only [bind, Except.bind, pure, Except.pure, List.map_map]
    congr 1
    apply List.map_congr_left
    intro x _
    have := hF x
    simp only [Leaf.cdf, Leaf.truncCdf, Except.ok.injEq] at this
    rw [← this]
    simp

end PM
