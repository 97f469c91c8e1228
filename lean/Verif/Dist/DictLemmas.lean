import Verif.Dist.Discrete
import Verif.Dist.DiscreteLemmas

/-! Lemmas about `Dict.set`, `npUnique` and the fitted dictionaries. -/

namespace PM

open Classical Leaf

namespace Dict

variable {κ ν : Type}

theorem set_new {d : Dict κ ν} {k : κ} (h : k ∉ d.map Prod.fst) (v : ν) : d.set k v = d ++ [(k, v)] := by
  rw [set, if_neg h]

theorem foldl_set {α : Type} (f : α → κ) (g : α → ν) (l : List α) (d : Dict κ ν)
    (hn : (d.map Prod.fst ++ l.map f).Nodup) :
    l.foldl (fun d a => Dict.set d (f a) (g a)) d = d ++ l.map fun a => (f a, g a) := by
  induction l generalizing d with
  | nil => simp
  | cons a l ih =>
    have hnot : f a ∉ d.map Prod.fst := by
      intro h
      rw [List.nodup_append] at hn
      exact hn.2.2 _ h _ (by simp) rfl
    rw [List.foldl_cons, set_new hnot, ih]
    · simp
    · simpa using hn

theorem getitem_missingDict (c : ν) (d : Dict κ ν) (k : κ) :
    getitem (missingDict c) d k = (d, ((d.find? fun p => decide (p.1 = k)).map Prod.snd).getD c) := by
  unfold getitem missingDict
  cases d.find? (fun p => decide (p.1 = k)) <;> rfl

end Dict

section unique
variable {α : Type} [LinearOrder α]

theorem mem_npUnique {data : List α} {vc : α × ℕ} : vc ∈ npUnique data ↔ vc.1 ∈ data ∧ vc.2 = data.count vc.1 := by
  unfold npUnique
  rw [List.mem_map]
  constructor
  · rintro ⟨v, hv, rfl⟩
    rw [List.mem_insertionSort, List.mem_dedup] at hv
    exact ⟨hv, rfl⟩
  · rintro ⟨h1, h2⟩
    refine ⟨vc.1, by rw [List.mem_insertionSort, List.mem_dedup]; exact h1, ?_⟩
    rw [← h2]

theorem npUnique_nodup (data : List α) : ((npUnique data).map Prod.fst).Nodup := by
  unfold npUnique
  rw [List.map_map]
  have : (Prod.fst ∘ fun v => (v, data.count v)) = (id : α → α) := rfl
  rw [this, List.map_id]
  exact (List.perm_insertionSort _ _).nodup_iff.2 (List.nodup_dedup data)

theorem npUnique_sum (data : List α) : ((npUnique data).map fun vc => vc.2).sum = data.length := by
  unfold npUnique
  rw [List.map_map]
  have h : ((fun vc : α × ℕ => vc.2) ∘ fun v => (v, data.count v)) = fun v => data.count v := rfl
  rw [h, ((List.perm_insertionSort (· ≤ ·) data.dedup).map _).sum_eq, List.sum_map_count_dedup_eq_length]

theorem npUnique_real_sum (data : List α) (c : ℝ) :
    ((npUnique data).map fun vc => (vc.2 : ℝ) / c).sum = data.length / c := by
  rw [← npUnique_sum data]
  induction npUnique data with
  | nil => simp
  | cons a l ih => simp [ih, add_div]

end unique

theorem pyHash_eq {k : ℤ} (h1 : k ≠ -1) (h2 : k.natAbs < 2 ^ 61 - 1) : pyHash k = k := by
  unfold pyHash
  rw [Nat.mod_eq_of_lt h2, Int.sign_mul_natAbs]
  simp [h1]

theorem fold_cdfLoop (xs : List ℝ) (m : ℝ) (probs : List (ℤ × ℝ)) (f : ℝ → ℝ) :
    cdfLoop xs m probs (xs.map f) = xs.map fun x =>
      f x + massIn (probs.takeWhile fun kp => (kp.1 : ℝ) ≤ m) (Set.Iic x) := by
  induction probs generalizing f with
  | nil => simp [cdfLoop, massIn]
  | cons a l ih =>
    obtain ⟨k, p⟩ := a
    unfold cdfLoop
    by_cases hk : (k : ℝ) > m
    · rw [if_pos hk, List.takeWhile_cons_of_neg (by simpa using hk)]
      simp [massIn]
    · have hz : List.zipWith (fun x r => if x ≥ (k : ℝ) then r + p else r) xs (xs.map f)
          = xs.map fun x => if x ≥ (k : ℝ) then f x + p else f x := by
        rw [List.zipWith_map_right, List.zipWith_self]
      rw [if_neg hk, hz, ih, List.takeWhile_cons_of_pos (by simpa using hk)]
      apply List.map_congr_left
      intro x _
      rw [massIn_eq_indicator, massIn_eq_indicator]
      simp only [List.map_cons, List.sum_cons]
      by_cases hx : x ≥ (k : ℝ)
      · rw [if_pos hx, Set.indicator_of_mem (show (k : ℝ) ∈ Set.Iic x from hx)]
        ring
      · rw [if_neg hx, Set.indicator_of_notMem (show (k : ℝ) ∉ Set.Iic x from hx)]
        ring

end PM
