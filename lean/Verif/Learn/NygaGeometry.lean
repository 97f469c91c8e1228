import Mathlib.Algebra.Order.BigOperators.Group.List
import Verif.Learn.NygaFit

/-!
# Where the quantiles of a fit lie
-/

namespace PM.Learn.Nyga

open Classical Graph Spec

section unique

theorem npUnique_sorted (data : List ℝ) : ((npUnique data).map Prod.fst).Pairwise (· < ·) := by
  have h1 := npUnique_nodup data
  have h2 : ((npUnique data).map Prod.fst).Pairwise (· ≤ ·) := by
    unfold npUnique
    rw [List.map_map]
    have : (Prod.fst ∘ fun v => (v, data.count v)) = (id : ℝ → ℝ) := rfl
    rw [this, List.map_id]
    exact List.pairwise_insertionSort _ _
  exact (h2.and h1).imp fun h => lt_of_le_of_ne h.1 h.2

theorem mem_unique {data : List ℝ} {x : ℝ} : x ∈ (npUnique data).map Prod.fst ↔ x ∈ data := by
  rw [List.mem_map]
  constructor
  · rintro ⟨vc, h, rfl⟩
    exact (mem_npUnique.1 h).1
  · intro h
    exact ⟨(x, data.count x), mem_npUnique.2 ⟨h, rfl⟩, rfl⟩

theorem unique_length (data : List ℝ) : ((npUnique data).map Prod.fst).length = data.dedup.length := by
  simp [npUnique]

theorem two_le_unique {data : List ℝ} (h2 : ∃ x ∈ data, ∃ y ∈ data, x ≠ y) : 2 ≤ ((npUnique data).map Prod.fst).length := by
  obtain ⟨x, hx, y, hy, hxy⟩ := h2
  rw [← mem_unique] at hx hy
  match h : (npUnique data).map Prod.fst with
  | [] => rw [h] at hx; simp at hx
  | [a] => rw [h] at hx hy; simp at hx hy; exact absurd (hx.trans hy.symm) hxy
  | a :: b :: l => simp

/-- The weights a fit uses. -/
noncomputable def weightsOf (data : List ℝ) (weights : Option (List ℝ)) : List ℝ :=
  weights.getD ((npUnique data).map fun vc => (vc.2 : ℝ))

theorem fine_of {data : List ℝ} {weights : Option (List ℝ)} (h2 : ∃ x ∈ data, ∃ y ∈ data, x ≠ y)
    (hw : ∀ ws, weights = some ws → ws.length = data.dedup.length ∧ ∀ w ∈ ws, 0 < w) :
    Fine ((npUnique data).map Prod.fst) (weightsOf data weights) := by
  refine ⟨npUnique_sorted data, two_le_unique h2, ?_, ?_⟩
  · cases weights with
    | none => simp [weightsOf]
    | some ws => rw [unique_length]; exact (hw ws rfl).1
  · cases weights with
    | none =>
      intro w hwm
      simp only [weightsOf, Option.getD_none, List.mem_map] at hwm
      obtain ⟨vc, hvc, rfl⟩ := hwm
      obtain ⟨h3, h4⟩ := mem_npUnique.1 hvc
      have : 0 < vc.2 := by rw [h4]; exact List.count_pos_iff.2 h3
      exact_mod_cast this
    | some ws => exact (hw ws rfl).2

theorem fit_eq {P : Params} {cap : ℝ} {data : List ℝ} {weights : Option (List ℝ)} (h2 : ∃ x ∈ data, ∃ y ∈ data, x ≠ y) :
    fit P cap data weights = (do
      let g ← loop P (arrays ((npUnique data).map Prod.fst) (weightsOf data weights)) (2 * ((npUnique data).map Prod.fst).length)
        [⟨0, ((npUnique data).map Prod.fst).length⟩] (newUnit 0 .sum)
      g.normalize) := by
  have hl := two_le_unique h2
  unfold fit
  simp only []
  match h : (npUnique data).map Prod.fst with
  | [] => rw [h] at hl; simp at hl
  | [a] => rw [h] at hl; simp at hl
  | a :: b :: l => rfl

end unique

variable {data ws : List ℝ} {v : Var} {E : List (Node × (ℕ × ℕ))}

/-- The points of a quantile. -/
def InSeg (data : List ℝ) (s : ℕ × ℕ) (x : ℝ) : Prop :=
  border data s.1 ≤ x ∧ (x < border data s.2 ∨ s.2 = data.length ∧ x = border data s.2)

theorem quantile_mem {s : ℕ × ℕ} {x : ℝ} :
    (SimpleInterval.mk (border data s.1) (border data s.2) .closed (if s.2 = data.length then .closed else .opn)).Mem x ↔
      InSeg data s x := by
  unfold SimpleInterval.Mem InSeg
  by_cases h : s.2 = data.length
  · simp only [h, if_true, SimpleInterval.leftOK, SimpleInterval.rightOK, EReal.coe_le_coe_iff, true_and]
    rw [le_iff_lt_or_eq (a := x)]
  · simp only [h, if_false, SimpleInterval.leftOK, SimpleInterval.rightOK, EReal.coe_le_coe_iff, EReal.coe_lt_coe_iff, false_and,
      or_false]

theorem intervalOf_eq (hE : FreshIds 0 (E.map fun x => entry v data ws x.1 x.2)) {x : Node × (ℕ × ℕ)} (hx : x ∈ E) :
    intervalOf (leafMix 0 (E.map fun x => entry v data ws x.1 x.2)) x.1 = {t | InSeg data x.2 t} := by
  have hk : (leafMix 0 (E.map fun x => entry v data ws x.1 x.2)).kind? x.1 = some (.leaf (quantile v data x.2)) :=
    hE.kindLeaf (List.mem_map_of_mem (f := fun x => entry v data ws x.1 x.2) hx)
  ext t
  constructor
  · rintro ⟨v', lo, hi, l, r, h1, h2⟩
    rw [hk] at h1
    simp only [quantile, Option.some.injEq, Kind.leaf.injEq, Leaf.uniform.injEq] at h1
    obtain ⟨rfl, rfl, rfl, rfl, rfl⟩ := h1
    exact quantile_mem.1 h2
  · intro ht
    exact ⟨_, _, _, _, _, hk, quantile_mem.2 ht⟩

/-- A data point lies in a quantile exactly if its index lies in the range. -/
theorem inSeg_data (h : Fine data ws) {s : ℕ × ℕ} (hs1 : s.1 < s.2) (hs2 : s.2 ≤ data.length) {i : ℕ} (hi : i < data.length) :
    InSeg data s (data.getD i 0) ↔ s.1 ≤ i ∧ i < s.2 := by
  have h2 := h.two
  unfold InSeg
  rw [cut_le h.sorted hi (by omega)]
  refine and_congr_right fun hsi => ?_
  by_cases hn : s.2 = data.length
  · simp only [hn, hi, true_and, iff_true]
    rw [cut_last (by intro h0; simp [h0] at h2)]
    rw [← le_iff_lt_or_eq]
    exact getD_le h.sorted (by omega) (by omega)
  · rw [lt_cut h.sorted hi (by omega)]
    simp [hn]

theorem inSeg_cover {a : ℕ} {ch : List (ℕ × ℕ)} (hc : Segs a data.length ch) {x : ℝ}
    (hne : a < data.length) (h1 : border data a ≤ x) (h2 : x ≤ border data data.length) : ∃ s ∈ ch, InSeg data s x := by
  generalize hn : data.length = n at hc hne h2
  induction hc with
  | nil => omega
  | cons hab hbc ih =>
    rename_i a b c l
    by_cases hx : x < border data b
    · exact ⟨(a, b), by simp, h1, .inl hx⟩
    · by_cases hbn : b < data.length
      · obtain ⟨s, hs, hs'⟩ := ih (not_lt.1 hx) hn (by omega) h2
        exact ⟨s, by simp [hs], hs'⟩
      · have := hbc.le
        have hbc' : b = c := by omega
        refine ⟨(a, b), by simp, h1, .inr ⟨by omega, ?_⟩⟩
        rw [hbc'] at hx ⊢
        exact le_antisymm h2 (not_lt.1 hx)

theorem inSeg_bounds (h : Fine data ws) {s : ℕ × ℕ} (hs1 : s.1 < s.2) (hs2 : s.2 ≤ data.length) {x : ℝ} (hx : InSeg data s x) :
    border data 0 ≤ x ∧ x ≤ border data data.length := by
  refine ⟨(border_mono h.sorted h.two (Nat.zero_le _) (by omega)).trans hx.1, ?_⟩
  rcases hx.2 with h1 | ⟨h1, h2⟩
  · exact h1.le.trans (border_mono h.sorted h.two hs2 le_rfl)
  · rw [h2, h1]

theorem inSeg_disjoint (h : Fine data ws) {s t : ℕ × ℕ} (hst : s.2 ≤ t.1) (ht1 : t.1 < t.2) (ht2 : t.2 ≤ data.length) (x : ℝ) :
    ¬ (InSeg data s x ∧ InSeg data t x) := by
  rintro ⟨h1, h2⟩
  have h3 := border_mono h.sorted h.two hst (by omega)
  rcases h1.2 with h4 | ⟨h4, _⟩
  · have := h2.1; linarith
  · omega

theorem segs_disjoint (h : Fine data ws) {ch : List (ℕ × ℕ)} (hc : Segs 0 data.length ch) :
    ch.Pairwise fun s t => ∀ x, ¬ (InSeg data s x ∧ InSeg data t x) :=
  hc.pairwise.imp_of_mem fun _ ht hst => inSeg_disjoint h hst (hc.bounds _ ht).2.1 (hc.bounds _ ht).2.2

theorem weightIn_eq (S : Set ℝ) : ∀ (data ws : List ℝ), ws.length = data.length →
    weightIn data ws S = ∑ i ∈ Finset.range data.length, if data.getD i 0 ∈ S then ws.getD i 0 else 0
  | [], ws, _ => by simp [weightIn]
  | x :: data, [], h => by simp at h
  | x :: data, w :: ws, h => by
    have ih := weightIn_eq S data ws (by simpa using h)
    rw [List.length_cons, Finset.sum_range_succ']
    simp only [List.getD_cons_succ, List.getD_cons_zero]
    rw [← ih]
    unfold weightIn
    rw [List.zip_cons_cons, List.filter_cons]
    by_cases hx : x ∈ S
    · simp [hx, add_comm]
    · simp [hx]

theorem weightIn_seg (h : Fine data ws) {s : ℕ × ℕ} (hs1 : s.1 < s.2) (hs2 : s.2 ≤ data.length) :
    weightIn data ws {t | InSeg data s t} = massOf ws s.1 s.2 := by
  rw [weightIn_eq _ _ _ h.len, massOf, ← Finset.sum_filter]
  apply Finset.sum_congr ?_ fun _ _ => rfl
  ext i
  simp only [Finset.mem_filter, Finset.mem_range, Finset.mem_Ico, Set.mem_ofPred_eq]
  constructor
  · rintro ⟨hi, hi2⟩; exact (inSeg_data h hs1 hs2 hi).1 hi2
  · intro hi; exact ⟨by omega, (inSeg_data h hs1 hs2 (by omega)).2 hi⟩

theorem weightIn_counts (data : List ℝ) (S : Set ℝ) :
    weightIn ((npUnique data).map Prod.fst) ((npUnique data).map fun vc => (vc.2 : ℝ)) S = (data.countP fun x => decide (x ∈ S)) := by
  have h1 : ((npUnique data).map Prod.fst).zip ((npUnique data).map fun vc => (vc.2 : ℝ))
      = (npUnique data).map fun vc => (vc.1, (vc.2 : ℝ)) := by
    induction npUnique data with
    | nil => rfl
    | cons a l ih => simp [ih]
  unfold weightIn
  rw [h1, ← List.sum_map_count_dedup_filter_eq_countP]
  unfold npUnique
  rw [List.map_map, List.filter_map, List.map_map]
  have h2 : ((data.dedup.insertionSort (· ≤ ·)).filter
      ((fun p : ℝ × ℝ => decide (p.1 ∈ S)) ∘ ((fun vc : ℝ × ℕ => (vc.1, (vc.2 : ℝ))) ∘ fun v => (v, data.count v)))).Perm
      (data.dedup.filter fun x => decide (x ∈ S)) := (List.perm_insertionSort _ _).filter _
  rw [(h2.map _).sum_eq]
  induction data.dedup.filter (fun x => decide (x ∈ S)) with
  | nil => simp
  | cons a l ih => simp [ih]

end PM.Learn.Nyga
