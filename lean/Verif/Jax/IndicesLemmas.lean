import Verif.Jax.Indices
import Verif.Spec.Indices
import Mathlib.Tactic.Linarith

/-! Helper lemmas about index arrays. -/

namespace PM.Jax

open Spec

theorem npRepeat_ok {α : Type} {xs : List α} {ns : List ℕ} (h : xs.length = ns.length) :
    npRepeat xs ns = .ok ((xs.zip ns).flatMap fun p => List.replicate p.2 p.1) := if_pos h

/-- The rows of cells, numbered from `r`. -/
def cellsFrom : ℕ → List ℕ → List (ℕ × ℤ)
  | _, [] => []
  | r, n :: l => ((List.range n).map fun (c : ℕ) => (r, (c : ℤ))) ++ cellsFrom (r + 1) l

/-- What the code computes, row by row: `prev` is the length of the row before, `S` the number of cells before. -/
def rowsFrom : ℕ → ℕ → ℕ → List ℕ → List (ℕ × ℤ)
  | _, _, _, [] => []
  | r, prev, S, n :: l => ((List.range n).map fun (c : ℕ) => (r, ((S + c : ℕ) : ℤ) - (prev : ℤ))) ++ rowsFrom (r + 1) n (S + n) l

theorem zip_repeat_eq : ∀ (l : List ℕ) (r prev S : ℕ),
    (((List.range' r l.length).zip l).flatMap fun p => List.replicate p.2 p.1).zip
      (List.zipWith (fun (a b : ℕ) => (a : ℤ) - (b : ℤ)) (List.range' S l.sum)
        (((prev :: l.dropLast).zip l).flatMap fun p => List.replicate p.2 p.1)) = rowsFrom r prev S l
  | [], r, prev, S => by simp [rowsFrom]
  | n :: l, r, prev, S => by
    have ih := zip_repeat_eq l (r + 1) n (S + n)
    have hd : (((prev :: (n :: l).dropLast).zip (n :: l)).flatMap fun p => List.replicate p.2 p.1) =
        List.replicate n prev ++ (((n :: l.dropLast).zip l).flatMap fun p => List.replicate p.2 p.1) := by
      cases l with
      | nil => simp
      | cons k l => simp
    rw [hd]
    have h1 : (((List.range' r (n :: l).length).zip (n :: l)).flatMap fun p => List.replicate p.2 p.1) =
        List.replicate n r ++ (((List.range' (r + 1) l.length).zip l).flatMap fun p => List.replicate p.2 p.1) := by
      rw [List.length_cons, List.range'_succ]; simp
    rw [h1, List.sum_cons, ← List.range'_append_1, List.zipWith_append (by simp), List.zip_append (by simp), ih, rowsFrom]
    congr 1
    rw [List.range_eq_range']
    apply List.ext_getElem
    · simp
    · intro i h1 h2
      simp

theorem bcooIndices_eq {l : List ℕ} (h : l ≠ []) : bcooIndices l = .ok (rowsFrom 0 0 0 l) := by
  have hl : (0 :: l.dropLast).length = l.length := by
    have := List.length_pos_of_ne_nil h
    simp; omega
  unfold bcooIndices
  rw [npRepeat_ok (by simp), npRepeat_ok hl]
  simp only [bind, Except.bind]
  rw [← zip_repeat_eq, List.range_eq_range', List.range_eq_range']

theorem length_rowsFrom : ∀ (l : List ℕ) (r prev S : ℕ), (rowsFrom r prev S l).length = l.sum
  | [], _, _, _ => rfl
  | n :: l, r, prev, S => by simp [rowsFrom, length_rowsFrom l]

theorem rowsFrom_eq_cells : ∀ (l : List ℕ) (r prev S : ℕ), rowsFrom r prev S l = cellsFrom r l ↔
    ∀ i (h : i < l.length), 0 < l[i] → S + (l.take i).sum = (prev :: l)[i]'(by simp; omega)
  | [], _, _, _ => by simp [rowsFrom, cellsFrom]
  | n :: l, r, prev, S => by
    rw [rowsFrom, cellsFrom]
    have hlen : ((List.range n).map fun (c : ℕ) => (r, ((S + c : ℕ) : ℤ) - (prev : ℤ))).length =
        ((List.range n).map fun (c : ℕ) => (r, (c : ℤ))).length := by simp
    have hiff : ∀ {x y : List (ℕ × ℤ)}, ((List.range n).map fun (c : ℕ) => (r, ((S + c : ℕ) : ℤ) - (prev : ℤ))) ++ x =
        ((List.range n).map fun (c : ℕ) => (r, (c : ℤ))) ++ y ↔
        ((List.range n).map fun (c : ℕ) => (r, ((S + c : ℕ) : ℤ) - (prev : ℤ))) =
        ((List.range n).map fun (c : ℕ) => (r, (c : ℤ))) ∧ x = y :=
      ⟨fun h => List.append_inj h hlen, fun h => by rw [h.1, h.2]⟩
    rw [hiff, rowsFrom_eq_cells l (r + 1) n (S + n)]
    constructor
    · rintro ⟨h1, h2⟩ i hi hp
      rcases i with _ | i
      · have h0 : 0 < n := by simpa using hp
        have := congrArg (fun k => k[0]?) h1
        simp [h0] at this
        simp
        omega
      · have := h2 i (by simpa using hi) (by simpa using hp)
        simp only [List.take_succ_cons, List.sum_cons, List.getElem_cons_succ] at this ⊢
        omega
    · intro h
      constructor
      · apply List.map_congr_left
        intro c hc
        have hn : 0 < n := by have := List.mem_range.1 hc; omega
        have := h 0 (by simp) (by simpa using hn)
        simp at this
        simp [this]
      · intro i hi hp
        have := h (i + 1) (by simpa using hi) (by simpa using hp)
        simp only [List.take_succ_cons, List.sum_cons, List.getElem_cons_succ] at this ⊢
        omega

theorem mem_cellsFrom : ∀ (l : List ℕ) (r a : ℕ) (c : ℤ), (a, c) ∈ cellsFrom r l ↔ ∃ i k : ℕ, ∃ h : i < l.length, a = r + i ∧ c = k ∧ k < l[i]
  | [], _, _, _ => by simp [cellsFrom]
  | n :: l, r, a, c => by
    rw [cellsFrom, List.mem_append, mem_cellsFrom l (r + 1)]
    constructor
    · rintro (h | ⟨i, k, h, rfl, rfl, hk⟩)
      · obtain ⟨k, hk, he⟩ := List.mem_map.1 h
        injection he with h1 h2
        exact ⟨0, k, by simp, by simp [h1], h2.symm, by simpa using hk⟩
      · exact ⟨i + 1, k, by simpa using h, by omega, rfl, by simpa using hk⟩
    · rintro ⟨i, k, h, rfl, rfl, hk⟩
      rcases i with _ | i
      · exact Or.inl (List.mem_map.2 ⟨k, by simpa using hk, by simp⟩)
      · exact Or.inr ⟨i, k, by simpa using h, by omega, rfl, by simpa using hk⟩

theorem cellsFrom_sorted : ∀ (l : List ℕ) (r : ℕ), (cellsFrom r l).Pairwise CellLT
  | [], _ => List.Pairwise.nil
  | n :: l, r => by
    rw [cellsFrom, List.pairwise_append]
    refine ⟨?_, cellsFrom_sorted l (r + 1), ?_⟩
    · rw [List.pairwise_map]
      refine List.pairwise_lt_range.imp ?_
      intro a b h
      exact Or.inr ⟨rfl, Int.ofNat_lt.2 h⟩
    · rintro ⟨a, c⟩ ha ⟨b, d⟩ hb
      obtain ⟨k, _, he⟩ := List.mem_map.1 ha
      obtain ⟨i, _, _, rfl, _⟩ := (mem_cellsFrom l (r + 1) b d).1 hb
      injection he with h1
      left
      show a < r + 1 + i
      omega

theorem enumerates_cells (l : List ℕ) : Enumerates l (cellsFrom 0 l) where
  sorted := cellsFrom_sorted l 0
  mem a c := by
    rw [mem_cellsFrom]
    constructor
    · rintro ⟨i, k, h, rfl, rfl, hk⟩; exact ⟨k, by simpa using h, rfl, by simpa using hk⟩
    · rintro ⟨k, h, rfl, hk⟩; exact ⟨a, k, h, by simp, rfl, hk⟩

theorem Enumerates.unique {l : List ℕ} {a b : List (ℕ × ℤ)} (ha : Enumerates l a) (hb : Enumerates l b) : a = b := by
  have hirr : ∀ x y : ℕ × ℤ, CellLT x y → x ≠ y := by
    rintro x y (h | h) rfl
    · exact absurd h (lt_irrefl _)
    · exact absurd h.2 (lt_irrefl _)
  have hna : a.Nodup := ha.sorted.imp (hirr _ _)
  have hnb : b.Nodup := hb.sorted.imp (hirr _ _)
  have hp : a.Perm b := (List.perm_ext_iff_of_nodup hna hnb).2 fun x => (ha.mem x.1 x.2).trans (hb.mem x.1 x.2).symm
  refine hp.eq_of_pairwise (le := CellLT) ?_ ha.sorted hb.sorted
  intro x y _ _ h1 h2
  rcases h1 with h1 | h1 <;> rcases h2 with h2 | h2 <;> omega

theorem getElem_cumsum : ∀ (l : List ℕ) (acc i : ℕ) (h : i < (cumsum acc l).length), (cumsum acc l)[i] = acc + (l.take (i + 1)).sum
  | [], _, _, h => by simp [cumsum] at h
  | n :: l, acc, 0, _ => by simp [cumsum]
  | n :: l, acc, i + 1, h => by
    simp only [cumsum, List.getElem_cons_succ]
    rw [getElem_cumsum l]
    simp [Nat.add_assoc]

theorem length_cumsum : ∀ (l : List ℕ) (acc : ℕ), (cumsum acc l).length = l.length
  | [], _ => rfl
  | n :: l, acc => by simp [cumsum, length_cumsum l]

/-! Compaction of index arrays. -/

theorem sort_ge {s : Finset ℤ} (h : ∀ z ∈ s, 0 ≤ z) (i : ℕ) (hi : i < (s.sort (· ≤ ·)).length) : (i : ℤ) ≤ (s.sort (· ≤ ·))[i] := by
  induction i with
  | zero => simpa using h _ ((Finset.mem_sort _).1 (List.getElem_mem hi))
  | succ i ih =>
    have h1 := ih (by omega)
    have h2 : (s.sort (· ≤ ·))[i] < (s.sort (· ≤ ·))[i + 1] :=
      (List.pairwise_iff_getElem.1 s.sortedLT_sort.pairwise) i (i + 1) (by omega) hi (by omega)
    push_cast
    omega

/-- The effect of the inner loop on one entry. -/
def stepEntry (z : ℤ) (p : ℤ × ℕ) : ℤ := if z = p.1 then (p.2 : ℤ) else z

theorem foldl_replaceCol (dim : ℕ) : ∀ (ps : List (ℤ × ℕ)) (rows : List Row),
    ps.foldl (replaceCol dim) rows = rows.map fun r => Function.update r dim (ps.foldl stepEntry (r dim))
  | [], rows => by simp
  | p :: ps, rows => by
    rw [List.foldl_cons, foldl_replaceCol dim ps, replaceCol, List.map_map]
    apply List.map_congr_left
    intro r _
    simp only [Function.comp, List.foldl_cons, stepEntry]
    by_cases h : r dim = p.1
    · rw [if_pos h]; simp [h]
    · rw [if_neg h]; simp [h]

/-- After the inner loop over the sorted distinct entries `u`, an entry is its position in `u`. -/
theorem foldl_stepEntry {u : List ℤ} (hs : u.Pairwise (· < ·)) (hg : ∀ i (h : i < u.length), (i : ℤ) ≤ u[i]) {k : ℕ} (hk : k < u.length) :
    u.zipIdx.foldl stepEntry u[k] = k := by
  have key : ∀ (v : List ℤ) (j : ℕ), u.drop j = v → j ≤ u.length →
      (∀ z : ℤ, 0 ≤ z → z < j → (v.zipIdx j).foldl stepEntry z = z) ∧
      (∀ i (h : i < u.length), j ≤ i → (v.zipIdx j).foldl stepEntry u[i] = i) := by
    intro v
    induction v with
    | nil =>
      intro j hj hjl
      have : u.length ≤ j := by simpa using hj
      exact ⟨fun z _ _ => by simp, fun i h hji => by omega⟩
    | cons a v ih =>
      intro j hj hjl
      have hjl' : j < u.length := by
        by_contra hc
        rw [List.drop_eq_nil_of_le (by omega)] at hj
        cases hj
      have hu := List.drop_eq_getElem_cons hjl'
      rw [hj] at hu
      injection hu with h1 h2
      obtain ⟨ih1, ih2⟩ := ih (j + 1) h2.symm (by omega)
      have hgj := hg j hjl'
      refine ⟨fun z hz hzj => ?_, fun i h hji => ?_⟩
      · rw [List.zipIdx_cons, List.foldl_cons, stepEntry, if_neg (by rw [h1]; show z ≠ _; omega)]
        exact ih1 z hz (by push_cast; omega)
      · rw [List.zipIdx_cons, List.foldl_cons, stepEntry]
        by_cases hij : i = j
        · subst hij
          rw [if_pos h1.symm]
          exact ih1 _ (by simp) (by simp)
        · have hlt : u[j] < u[i] := List.pairwise_iff_getElem.1 hs j i hjl' h (by omega)
          rw [if_neg (by rw [h1]; exact hlt.ne')]
          exact ih2 i h (by omega)
  exact (key u 0 (by simp) (by simp)).2 k hk (by omega)

/-- The new index of an entry `z` of a column with entries `s`: its position among the sorted distinct entries. -/
def newIndex (s : Finset ℤ) (z : ℤ) : ℤ := (s.sort (· ≤ ·)).zipIdx.foldl stepEntry z

theorem newIndex_spec {s : Finset ℤ} (h : ∀ z ∈ s, 0 ≤ z) :
    (∀ a ∈ s, ∀ b ∈ s, newIndex s a ≤ newIndex s b ↔ a ≤ b) ∧ ∀ z, (∃ a ∈ s, newIndex s a = z) ↔ 0 ≤ z ∧ z < s.card := by
  have hs := s.sortedLT_sort.pairwise
  have hg := sort_ge h
  have hpos : ∀ k (hk : k < (s.sort (· ≤ ·)).length), newIndex s (s.sort (· ≤ ·))[k] = k := fun k hk => foldl_stepEntry hs hg hk
  have hget : ∀ a ∈ s, ∃ k, ∃ hk : k < (s.sort (· ≤ ·)).length, (s.sort (· ≤ ·))[k] = a := fun a ha =>
    List.getElem_of_mem ((Finset.mem_sort _).2 ha)
  have hcard : (s.sort (· ≤ ·)).length = s.card := Finset.length_sort _
  constructor
  · intro a ha b hb
    obtain ⟨i, hi, rfl⟩ := hget a ha
    obtain ⟨j, hj, rfl⟩ := hget b hb
    rw [hpos, hpos]
    constructor
    · intro hij
      rcases Nat.lt_or_ge i j with h' | h'
      · exact (List.pairwise_iff_getElem.1 hs i j hi hj h').le
      · have : i = j := by omega
        subst this; exact le_rfl
    · intro hle
      by_contra hc
      have : j < i := by omega
      exact absurd (List.pairwise_iff_getElem.1 hs j i hj hi this) (not_lt.2 hle)
  · intro z
    constructor
    · rintro ⟨a, ha, rfl⟩
      obtain ⟨i, hi, rfl⟩ := hget a ha
      rw [hpos]
      omega
    · rintro ⟨h0, h1⟩
      obtain ⟨k, rfl⟩ := Int.eq_ofNat_of_zero_le h0
      have hk : k < (s.sort (· ≤ ·)).length := by omega
      exact ⟨_, (Finset.mem_sort _).1 (List.getElem_mem hk), hpos k hk⟩

theorem shrinkCol_eq (index result : List Row) (dim : ℕ) :
    shrinkCol index result dim = result.map fun r => Function.update r dim (newIndex (index.map fun r => r dim).toFinset (r dim)) :=
  foldl_replaceCol dim _ _

theorem shrinkIndexArray_eq (width : ℕ) (index : List Row) : shrinkIndexArray width index =
    index.map fun r d => if d < width then newIndex (index.map fun r => r d).toFinset (r d) else r d := by
  unfold shrinkIndexArray
  induction width with
  | zero => simp
  | succ w ih =>
    rw [List.range_succ, List.foldl_append, ih, List.foldl_cons, List.foldl_nil, shrinkCol_eq, List.map_map]
    apply List.map_congr_left
    intro r _
    funext d
    simp only [Function.comp]
    rcases lt_trichotomy d w with h | h | h
    · rw [Function.update_of_ne h.ne, if_pos h, if_pos (by omega)]
    · subst h; simp
    · rw [Function.update_of_ne h.ne', if_neg (by omega), if_neg (by omega)]

theorem foldl_max_spec : ∀ (l : List ℤ) (a : ℤ), (∀ z ∈ a :: l, z ≤ l.foldl max a) ∧ l.foldl max a ∈ a :: l
  | [], a => by simp
  | b :: l, a => by
    obtain ⟨h1, h2⟩ := foldl_max_spec l (max a b)
    rw [List.foldl_cons]
    constructor
    · intro z hz
      have h0 := h1 (max a b) (by simp)
      rcases List.mem_cons.1 hz with rfl | hz
      · exact le_trans (le_max_left _ _) h0
      · rcases List.mem_cons.1 hz with rfl | hz
        · exact le_trans (le_max_right _ _) h0
        · exact h1 z (List.mem_cons_of_mem _ hz)
    · rcases List.mem_cons.1 h2 with h | h
      · rw [h]
        rcases max_choice a b with h | h <;> rw [h] <;> simp
      · exact List.mem_cons_of_mem _ (List.mem_cons_of_mem _ h)

theorem splitParameters_from {α : Type} : ∀ (l : List ℕ) (offset : ℕ) (params : List α), params.length = offset + l.sum →
    ((slices offset l).map (slice params)).flatten = params.drop offset ∧
    ((slices offset l).map (slice params)).map List.length = l
  | [], offset, params, h => by simp at h; simp [slices, h]
  | n :: l, offset, params, h => by
    rw [List.sum_cons] at h
    obtain ⟨h1, h2⟩ := splitParameters_from l (offset + n) params (by omega)
    simp only [slices, List.map_cons, List.flatten_cons, h1, h2, slice]
    constructor
    · rw [show offset + n - offset = n by omega, ← List.drop_drop, List.take_append_drop]
    · simp; omega

end PM.Jax
