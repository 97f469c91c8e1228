import Mathlib.Data.List.GetD
import Verif.Learn.Nyga
import Verif.Circuit.LeafMix
import Verif.Dist.DictLemmas
import Verif.Spec.Nyga

namespace PM.Learn.Nyga

open Classical Graph Spec

theorem pyGet_nat {l : List ℝ} {i : ℕ} (h : i < l.length) : pyGet l (i : ℤ) = .ok (l.getD i 0) := by
  unfold pyGet
  have h0 : ¬ ((i : ℤ) < 0) := by omega
  simp only [h0, if_false, Int.toNat_natCast, List.getElem?_eq_getElem h, List.getD_eq_getElem _ _ h]

theorem pyGet_nat_sub {l : List ℝ} {i : ℕ} (h0 : 0 < i) (h : i - 1 < l.length) :
    pyGet l ((i : ℤ) - 1) = .ok (l.getD (i - 1) 0) := by
  rw [← pyGet_nat h]
  congr 1
  omega

theorem pyGet_last {l : List ℝ} (h : 0 < l.length) : pyGet l (-1) = .ok (l.getD (l.length - 1) 0) := by
  unfold pyGet
  have h1 : ((-1 : ℤ) < 0) := by omega
  have h2 : ¬ ((-1 : ℤ) + (l.length : ℤ) < 0) := by omega
  have h3 : ((-1 : ℤ) + (l.length : ℤ)).toNat = l.length - 1 := by omega
  have h4 : l.length - 1 < l.length := by omega
  simp only [h1, h2, if_true, if_false, h3, List.getElem?_eq_getElem h4, List.getD_eq_getElem _ _ h4]

theorem length_cumsum (l : List ℝ) : (cumsum l).length = l.length + 1 := by simp [cumsum]

theorem scanl_getD (l : List ℝ) : ∀ (a : ℝ) (i : ℕ), i ≤ l.length → (l.scanl (· + ·) a).getD i 0 = a + (l.take i).sum := by
  induction l with
  | nil => intro a i hi; simp at hi; subst hi; simp
  | cons x l ih =>
    intro a i hi
    cases i with
    | zero => simp
    | succ i =>
      rw [List.scanl_cons, List.getD_cons_succ, ih (a + x) i (by simpa using hi)]
      simp [add_assoc]

theorem cumsum_getD {l : List ℝ} {i : ℕ} (hi : i ≤ l.length) : (cumsum l).getD i 0 = (l.take i).sum := by
  rw [cumsum, scanl_getD l 0 i hi, zero_add]

/-- The sum of the entries from `i` up to (not including) `j`. -/
noncomputable def seg (l : List ℝ) (i j : ℕ) : ℝ := (l.take j).sum - (l.take i).sum

theorem sumFrom_cumsum {l : List ℝ} {i j : ℕ} (hi : i ≤ l.length) (hj : j ≤ l.length) :
    sumFrom (cumsum l) i j = .ok (seg l i j) := by
  unfold sumFrom
  rw [pyGet_nat (by rw [length_cumsum]; omega), pyGet_nat (by rw [length_cumsum]; omega), cumsum_getD hi, cumsum_getD hj]
  rfl

theorem seg_add (l : List ℝ) (i j k : ℕ) : seg l i j + seg l j k = seg l i k := by unfold seg; ring

theorem seg_eq {l : List ℝ} {i j : ℕ} (h : i ≤ j) : seg l i j = ((l.take j).drop i).sum := by
  unfold seg
  have h1 : (l.take j).sum = ((l.take j).take i).sum + ((l.take j).drop i).sum := by
    rw [← List.sum_append, List.take_append_drop]
  rw [h1, List.take_take, min_eq_left h]
  ring

theorem seg_pos {l : List ℝ} (hl : ∀ x ∈ l, 0 < x) {i j : ℕ} (h : i < j) (hj : j ≤ l.length) : 0 < seg l i j := by
  rw [seg_eq h.le]
  apply List.sum_pos
  · intro x hx
    exact hl x (List.mem_of_mem_take (List.mem_of_mem_drop hx))
  · intro h0
    have := congrArg List.length h0
    simp only [List.length_drop, List.length_take, List.length_nil] at this
    omega

theorem seg_all (l : List ℝ) : seg l 0 l.length = l.sum := by simp [seg]

variable {A : Arrays}

theorem leftPoint_eq {i : ℕ} (h : i < A.data.length) : leftPoint A i = .ok (border A.data i) := by
  unfold leftPoint border
  by_cases h0 : i = 0
  · subst h0
    rw [if_neg (by simp), if_pos rfl, pyGet_nat h]
  · rw [if_pos (by omega), if_neg h0, if_pos h, pyGet_nat_sub (by omega) (by omega), pyGet_nat h]
    rfl

theorem rightPoint_eq {i : ℕ} (h0 : 0 < i) (h : i ≤ A.data.length) : rightPoint A i = .ok (border A.data i) := by
  unfold rightPoint border
  rw [if_neg (by omega : ¬ i = 0)]
  by_cases h1 : i < A.data.length
  · rw [if_pos (by exact_mod_cast h1), if_pos h1, pyGet_nat_sub (by omega) (by omega), pyGet_nat h1]
    simp only [bind, Except.bind]
    rw [add_comm]
  · rw [if_neg (by exact_mod_cast h1), if_neg h1, pyGet_nat_sub h0 (by omega)]
    congr 3
    omega

theorem getD_lt {data : List ℝ} (hs : data.Pairwise (· < ·)) {i j : ℕ} (hij : i < j) (hj : j < data.length) :
    data.getD i 0 < data.getD j 0 := by
  rw [List.getD_eq_getElem _ _ (by omega), List.getD_eq_getElem _ _ hj]
  exact List.pairwise_iff_getElem.1 hs i j (by omega) hj hij

theorem getD_le {data : List ℝ} (hs : data.Pairwise (· < ·)) {i j : ℕ} (hij : i ≤ j) (hj : j < data.length) :
    data.getD i 0 ≤ data.getD j 0 := by
  rcases Nat.lt_or_eq_of_le hij with h | rfl
  · exact (getD_lt hs h hj).le
  · rfl

/-- A data point lies to the right of a border exactly if its index does. -/
theorem cut_le {data : List ℝ} (hs : data.Pairwise (· < ·)) {i k : ℕ} (hi : i < data.length) (hk : k < data.length) :
    border data k ≤ data.getD i 0 ↔ k ≤ i := by
  unfold border
  by_cases h0 : k = 0
  · subst h0
    simp only [if_true, Nat.zero_le, iff_true]
    exact getD_le hs (Nat.zero_le _) hi
  · rw [if_neg h0, if_pos hk]
    have h1 := getD_lt hs (i := k - 1) (j := k) (by omega) hk
    constructor
    · intro h
      by_contra hki
      have := getD_le hs (i := i) (j := k - 1) (by omega) (by omega)
      linarith
    · intro h
      have := getD_le hs h hi
      linarith

theorem lt_cut {data : List ℝ} (hs : data.Pairwise (· < ·)) {i k : ℕ} (hi : i < data.length) (hk : k < data.length) :
    data.getD i 0 < border data k ↔ i < k := by
  rw [← not_le, cut_le hs hi hk, not_le]

theorem cut_last {data : List ℝ} (h : data ≠ []) : border data data.length = data.getD (data.length - 1) 0 := by
  unfold border
  rw [if_neg (by simpa using h), if_neg (lt_irrefl _)]

theorem border_lt_succ {data : List ℝ} (hs : data.Pairwise (· < ·)) (h2 : 2 ≤ data.length) {i : ℕ} (hi : i < data.length) :
    border data i < border data (i + 1) := by
  by_cases hi1 : i + 1 < data.length
  · have h1 : border data i ≤ data.getD i 0 := (cut_le hs hi hi).2 le_rfl
    have h3 : data.getD i 0 < border data (i + 1) := (lt_cut hs hi hi1).2 (by omega)
    linarith
  · have : i + 1 = data.length := by omega
    rw [this, cut_last (by intro h; simp [h] at h2)]
    have h1 := (lt_cut hs (i := i - 1) (k := i) (by omega) hi).2 (by omega)
    unfold border
    rw [if_neg (by omega), if_pos hi]
    have h3 := getD_lt hs (i := i - 1) (j := i) (by omega) hi
    have h4 : data.length - 1 = i := by omega
    rw [h4]
    linarith

theorem border_lt {data : List ℝ} (hs : data.Pairwise (· < ·)) (h2 : 2 ≤ data.length) {i j : ℕ} (hij : i < j)
    (hj : j ≤ data.length) : border data i < border data j := by
  induction j with
  | zero => omega
  | succ j ih =>
    rcases Nat.lt_or_eq_of_le (Nat.lt_succ_iff.1 hij) with h | rfl
    · exact (ih h (by omega)).trans (border_lt_succ hs h2 (by omega))
    · exact border_lt_succ hs h2 (by omega)

theorem border_mono {data : List ℝ} (hs : data.Pairwise (· < ·)) (h2 : 2 ≤ data.length) {i j : ℕ} (hij : i ≤ j)
    (hj : j ≤ data.length) : border data i ≤ border data j := by
  rcases Nat.lt_or_eq_of_le hij with h | rfl
  · exact (border_lt hs h2 h hj).le
  · rfl

/-! ### The best split -/

/-- One round of the search. -/
noncomputable def pick (f : ℤ → ℝ) (best : LogP × Option ℤ) (k : ℤ) : LogP × Option ℤ :=
  if exceeds (f k) best.1 then (.fin (f k), some k) else best

theorem pick_foldl (f : ℤ → ℝ) (l : List ℤ) :
    (l = [] ∧ l.foldl (pick f) (.negInf, none) = (.negInf, none)) ∨
      ∃ k ∈ l, l.foldl (pick f) (.negInf, none) = (.fin (f k), some k) ∧ ∀ j ∈ l, f j ≤ f k := by
  induction l using List.reverseRecOn with
  | nil => exact .inl ⟨rfl, rfl⟩
  | append_singleton l a ih =>
    refine .inr ?_
    rw [List.foldl_append, List.foldl_cons, List.foldl_nil]
    rcases ih with ⟨rfl, h⟩ | ⟨k, hk, h, hmax⟩
    · refine ⟨a, by simp, ?_, by simp⟩
      rw [h]
      exact if_pos trivial
    · rw [h]
      by_cases hgt : f a > f k
      · refine ⟨a, by simp, if_pos hgt, ?_⟩
        intro j hj
        rcases List.mem_append.1 hj with hj | hj
        · exact (hmax j hj).trans hgt.le
        · rw [List.mem_singleton.1 hj]
      · refine ⟨k, by simp [hk], if_neg hgt, ?_⟩
        intro j hj
        rcases List.mem_append.1 hj with hj | hj
        · exact hmax j hj
        · rw [List.mem_singleton.1 hj]; exact not_lt.1 hgt

theorem foldlM_pick {F : LogP × Option ℤ → ℤ → Except PyErr (LogP × Option ℤ)} {f : ℤ → ℝ} (l : List ℤ)
    (hF : ∀ k ∈ l, ∀ b, F b k = .ok (pick f b k)) (b : LogP × Option ℤ) : l.foldlM F b = .ok (l.foldl (pick f) b) := by
  induction l generalizing b with
  | nil => rfl
  | cons k l ih =>
    rw [List.foldlM_cons, hF k (by simp) b]
    exact ih (fun j hj => hF j (by simp [hj])) _

theorem mem_pyRange {a b k : ℤ} : k ∈ pyRange a b ↔ a ≤ k ∧ k < b := by
  unfold pyRange
  simp only [List.mem_map, List.mem_range]
  constructor
  · rintro ⟨i, hi, rfl⟩; omega
  · intro h; exact ⟨(k - a).toNat, by omega, by omega⟩

/-! ### The scores -/

theorem massOf_eq {l : List ℝ} {i j : ℕ} (h : i ≤ j) (hj : j ≤ l.length) : massOf l i j = seg l i j := by
  unfold massOf
  induction j, h using Nat.le_induction with
  | base => simp [seg]
  | succ j hij ih =>
    rw [Finset.sum_Ico_succ_top hij, ih (by omega), seg, seg, List.take_add_one, List.sum_append,
      List.getD_eq_getElem _ _ (by omega), List.getElem?_eq_getElem (by omega)]
    simp
    ring

theorem uniformScore_eq {data ws : List ℝ} (hws : ∀ w ∈ ws, 0 < w) {share : ℝ} (hsh : 0 < share) {i j : ℕ} (h : i ≤ j)
    (hj : j ≤ ws.length) (hb : border data i < border data j) :
    uniformScore data ws share i j
      = ((j - i : ℤ) : ℝ) * (Real.log share - Real.log (border data j - border data i)) + seg (ws.map Real.log) i j := by
  have hc : 0 < share / (border data j - border data i) := div_pos hsh (by linarith)
  unfold uniformScore
  have h1 : ∀ t ∈ Finset.Ico i j, Real.log (ws.getD t 0 * (share / (border data j - border data i)))
      = (Real.log share - Real.log (border data j - border data i)) + (ws.map Real.log).getD t 0 := by
    intro t ht
    have ht' := (Finset.mem_Ico.1 ht).2
    rw [List.getD_eq_getElem _ _ (by omega), List.getD_eq_getElem _ _ (by rw [List.length_map]; omega), List.getElem_map,
      Real.log_mul (hws _ (List.getElem_mem _)).ne' hc.ne', Real.log_div hsh.ne' (by linarith)]
    ring
  rw [Finset.sum_congr rfl h1, Finset.sum_add_distrib, Finset.sum_const, Nat.card_Ico]
  have h2 := massOf_eq (l := ws.map Real.log) h (by rw [List.length_map]; exact hj)
  unfold massOf at h2
  rw [h2, nsmul_eq_mul, Nat.cast_sub h]
  push_cast
  ring

/-- The arrays a fit works with: sorted distinct data, positive weights. -/
structure Fine (data ws : List ℝ) : Prop where
  sorted : data.Pairwise (· < ·)
  two : 2 ≤ data.length
  len : ws.length = data.length
  pos : ∀ w ∈ ws, 0 < w

/-- `InductionStep` fields for data and weights. -/
noncomputable def arrays (data ws : List ℝ) : Arrays := ⟨data, cumsum ws, cumsum (ws.map Real.log)⟩

variable {data ws : List ℝ}

theorem mid_eq {k : ℕ} (h0 : 0 < k) (hk : k < data.length) :
    (data.getD (k - 1) 0 + data.getD k 0) / 2 = border data k := by
  unfold border
  rw [if_neg (by omega), if_pos hk]

theorem splitSide_left (h : Fine data ws) {b k e : ℕ} (hbk : b < k) (hke : k < e) (he : e ≤ data.length) :
    splitSide (arrays data ws) ⟨b, e⟩ k (border data b)
      = .ok (uniformScore data ws (massOf ws b k / massOf ws b e) b k) := by
  have hb := border_lt h.sorted h.two hbk (by omega)
  have hl := h.len
  have hm := h.pos
  have hp1 := seg_pos h.pos hbk (by omega)
  have hp2 := seg_pos h.pos (hbk.trans hke) (by omega)
  unfold splitSide
  simp only [arrays, bind, Except.bind]
  rw [pyGet_nat_sub (by omega) (by omega), pyGet_nat (by omega)]
  simp only [mid_eq (data := data) (by omega : 0 < k) (by omega)]
  have hd : border data k - border data b > 0 := by linarith
  simp only [hd, if_true]
  rw [sumFrom_cumsum (by omega) (by omega), sumFrom_cumsum (by omega) (by omega),
    sumFrom_cumsum (by rw [List.length_map]; omega) (by rw [List.length_map]; omega)]
  simp only []
  rw [massOf_eq (by omega) (by omega), massOf_eq (by omega) (by omega),
    uniformScore_eq h.pos (div_pos hp1 hp2) hbk.le (by omega) hb, abs_of_pos hd, Real.log_div hp1.ne' hp2.ne']

theorem splitSide_right (h : Fine data ws) {b k e : ℕ} (hbk : b < k) (hke : k < e) (he : e ≤ data.length) :
    splitSide (arrays data ws) ⟨b, e⟩ k (border data e)
      = .ok (uniformScore data ws (massOf ws k e / massOf ws b e) k e) := by
  have hb := border_lt h.sorted h.two hke he
  have hl := h.len
  have hp1 := seg_pos h.pos hke (by omega)
  have hp2 := seg_pos h.pos (hbk.trans hke) (by omega)
  unfold splitSide
  simp only [arrays, bind, Except.bind]
  rw [pyGet_nat_sub (by omega) (by omega), pyGet_nat (by omega)]
  simp only [mid_eq (data := data) (by omega : 0 < k) (by omega)]
  have hd : ¬ (border data k - border data e > 0) := by linarith
  simp only [hd, if_false]
  rw [sumFrom_cumsum (by omega) (by omega), sumFrom_cumsum (by omega) (by omega),
    sumFrom_cumsum (by rw [List.length_map]; omega) (by rw [List.length_map]; omega)]
  simp only []
  rw [massOf_eq (by omega) (by omega), massOf_eq (by omega) (by omega),
    uniformScore_eq h.pos (div_pos hp1 hp2) hke.le (by omega) hb, abs_of_nonpos (by linarith),
    Real.log_div hp1.ne' hp2.ne', neg_sub]

theorem withoutSplit_eq (h : Fine data ws) {b e : ℕ} (hbe : b < e) (he : e ≤ data.length) :
    withoutSplit (arrays data ws) ⟨b, e⟩ = .ok (uniformScore data ws 1 b e) := by
  have hl := h.len
  unfold withoutSplit
  simp only [bind, Except.bind]
  rw [rightPoint_eq (A := arrays data ws) (by omega) he, leftPoint_eq (A := arrays data ws) (lt_of_lt_of_le hbe he)]
  simp only [arrays]
  rw [sumFrom_cumsum (by rw [List.length_map]; omega) (by rw [List.length_map]; omega),
    uniformScore_eq h.pos one_pos hbe.le (by omega) (border_lt h.sorted h.two hbe he)]
  simp only [Real.log_one, zero_sub]
  rw [add_comm]

/-- `compute_best_split` finds a split with the largest score. -/
theorem computeBestSplit_eq (h : Fine data ws) {P : Params} (hm : 1 ≤ P.minSamples) {b e : ℕ} (hbe : b < e)
    (he : e ≤ data.length) :
    ((e : ℤ) - b < 2 * P.minSamples ∧ computeBestSplit P (arrays data ws) ⟨b, e⟩ = .ok (.negInf, none)) ∨
      ∃ k : ℕ, b + P.minSamples ≤ k ∧ k + P.minSamples ≤ e ∧
        computeBestSplit P (arrays data ws) ⟨b, e⟩ = .ok (.fin (splitScore data ws b e k), some (k : ℤ)) ∧
        ∀ j : ℕ, b + P.minSamples ≤ j → j + P.minSamples ≤ e → splitScore data ws b e j ≤ splitScore data ws b e k := by
  have hl := h.len
  have hfold : computeBestSplit P (arrays data ws) ⟨b, e⟩
      = .ok ((pyRange (b + P.minSamples) (e - P.minSamples + 1)).foldl
          (pick fun k => splitScore data ws b e k.toNat) (LogP.negInf, none)) := by
    unfold computeBestSplit
    simp only [bind, Except.bind]
    rw [rightPoint_eq (A := arrays data ws) (by omega) he, leftPoint_eq (A := arrays data ws) (lt_of_lt_of_le hbe he)]
    simp only []
    refine foldlM_pick _ ?_ _
    intro k hk best
    rw [mem_pyRange] at hk
    obtain ⟨k, rfl⟩ : ∃ k' : ℕ, k = (k' : ℤ) := ⟨k.toNat, by omega⟩
    have h1 := splitSide_left h (b := b) (k := k) (e := e) (by omega) (by omega) he
    have h2 := splitSide_right h (b := b) (k := k) (e := e) (by omega) (by omega) he
    simp only [arrays] at h1 h2 ⊢
    rw [h1, h2]
    simp only [pick, splitScore, Int.toNat_natCast]
    by_cases hx : exceeds (uniformScore data ws (massOf ws b k / massOf ws b e) b k +
        uniformScore data ws (massOf ws k e / massOf ws b e) k e) best.1
    · simp only [hx, if_true]
    · simp only [hx, if_false]
  rw [hfold]
  rcases pick_foldl (fun k => splitScore data ws b e k.toNat) (pyRange (b + P.minSamples) (e - P.minSamples + 1)) with
    ⟨h0, h1⟩ | ⟨k, hk, h1, h2⟩
  · left
    refine ⟨?_, by rw [h1]⟩
    by_contra hlt
    have : (b : ℤ) + P.minSamples ∈ pyRange (b + P.minSamples) (e - P.minSamples + 1) := mem_pyRange.2 ⟨le_rfl, by omega⟩
    rw [h0] at this
    simp at this
  · right
    rw [mem_pyRange] at hk
    obtain ⟨k, rfl⟩ : ∃ k' : ℕ, k = (k' : ℤ) := ⟨k.toNat, by omega⟩
    refine ⟨k, by omega, by omega, ?_, ?_⟩
    · rw [h1]; simp only [Int.toNat_natCast]
    · intro j hj1 hj2
      have := h2 j (mem_pyRange.2 ⟨by omega, by omega⟩)
      simpa using this

/-! ### One step -/

/-- The leaf of a quantile. -/
noncomputable def quantile (v : Var) (data : List ℝ) (s : ℕ × ℕ) : Leaf :=
  .uniform v (border data s.1) (border data s.2) .closed (if s.2 = data.length then .closed else .opn)

/-- Its weight. -/
noncomputable def quantileWeight (ws : List ℝ) (s : ℕ × ℕ) : LogP := LogP.log (massOf ws s.1 s.2 / ws.sum)

theorem createUniform_eq {P : Params} {b e : ℕ} (hbe : b < e) (he : e ≤ data.length) :
    createUniform P (arrays data ws) ⟨b, e⟩ = .ok (quantile P.var data (b, e)) := by
  unfold createUniform
  simp only [bind, Except.bind]
  rw [rightPoint_eq (A := arrays data ws) (by omega) he, leftPoint_eq (A := arrays data ws) (lt_of_lt_of_le hbe he)]
  simp only [quantile]
  by_cases h : e = data.length
  · rw [if_pos h]
    exact if_pos (by simp only [arrays]; exact_mod_cast h)
  · rw [if_neg h]
    exact if_neg (by simp only [arrays]; exact_mod_cast h)

theorem total_eq : pyGet (arrays data ws).cumulative (-1) = .ok ws.sum := by
  simp only [arrays]
  rw [pyGet_last (by rw [length_cumsum]; omega), length_cumsum, Nat.add_sub_cancel, cumsum_getD le_rfl, List.take_length]

/-- What a step does: split at the best index, or add the quantile to the mixture. -/
theorem induce_eq (h : Fine data ws) {P : Params} (hm : 1 ≤ P.minSamples) (ht : 0 ≤ P.minImprovement) {b e : ℕ} (hbe : b < e)
    (he : e ≤ data.length) {g : Circuit} {r : Node} (hr : g.root = .ok r) :
    (∃ k : ℕ, b + P.minSamples ≤ k ∧ k + P.minSamples ≤ e ∧
      induce P (arrays data ws) ⟨b, e⟩ g = .ok ([⟨b, k⟩, ⟨k, e⟩], g) ∧
      (∀ j : ℕ, b + P.minSamples ≤ j → j + P.minSamples ≤ e → splitScore data ws b e j ≤ splitScore data ws b e k) ∧
      P.minImprovement < Real.exp (splitScore data ws b e k - uniformScore data ws 1 b e)) ∨
    (induce P (arrays data ws) ⟨b, e⟩ g = .ok ([], g.addSubcircuit (newUnit g.fresh (.leaf (quantile P.var data (b, e)))) r
        g.fresh (some (quantileWeight ws (b, e)))) ∧
      ∀ j : ℕ, b + P.minSamples ≤ j → j + P.minSamples ≤ e →
        Real.exp (splitScore data ws b e j - uniformScore data ws 1 b e) ≤ P.minImprovement) := by
  have hl := h.len
  have hleaf : ∀ best, computeBestSplit P (arrays data ws) ⟨b, e⟩ = .ok best →
      ¬ ((best.1 - LogP.fin (uniformScore data ws 1 b e)).exp > P.minImprovement) →
      induce P (arrays data ws) ⟨b, e⟩ g = .ok ([], g.addSubcircuit (newUnit g.fresh (.leaf (quantile P.var data (b, e)))) r
        g.fresh (some (quantileWeight ws (b, e)))) := by
    intro best hb hn
    unfold induce goodEnough
    simp only [bind, Except.bind]
    rw [hb, withoutSplit_eq h hbe he]
    simp only []
    rw [if_neg hn, total_eq, createUniform_eq hbe he, hr]
    simp only [arrays]
    rw [sumFrom_cumsum (by omega) (by omega)]
    simp only [quantileWeight]
    rw [massOf_eq hbe.le (by omega)]
  rcases computeBestSplit_eq h hm hbe he with ⟨hlt, hb⟩ | ⟨k, hk1, hk2, hb, hmax⟩
  · right
    refine ⟨hleaf _ hb ?_, fun j h1 h2 => by omega⟩
    simpa using ht
  · by_cases hgood : Real.exp (splitScore data ws b e k - uniformScore data ws 1 b e) > P.minImprovement
    · left
      refine ⟨k, hk1, hk2, ?_, hmax, hgood⟩
      unfold induce goodEnough
      simp only [bind, Except.bind]
      rw [hb, withoutSplit_eq h hbe he]
      simp only []
      exact if_pos hgood
    · right
      refine ⟨hleaf _ hb hgood, fun j h1 h2 => ?_⟩
      have := hmax j h1 h2
      refine le_trans (Real.exp_le_exp.2 (by linarith)) (not_lt.1 hgood)

end PM.Learn.Nyga
