import Verif.Circuit.DetSumLemmas
import Verif.Dist.LeafLemmas
import Verif.Dist.DiscreteLemmas
import Mathlib.MeasureTheory.Measure.Lebesgue.Basic
import Mathlib.Analysis.SpecialFunctions.Pow.Real

/-! # Relative frequencies make data most likely: helper lemmas for C113 -/

namespace PM

open Leaf

theorem prod_le_exp : ∀ {ts : List ℝ}, (∀ t ∈ ts, 0 ≤ t) →
    ts.prod ≤ Real.exp (ts.map (· - 1)).sum ∧ ((∃ t ∈ ts, t ≠ 1) → ts.prod < Real.exp (ts.map (· - 1)).sum)
  | [], _ => by simp
  | t :: ts, h => by
    obtain ⟨h1, h2⟩ := prod_le_exp fun s hs => h s (List.mem_cons_of_mem _ hs)
    have ht := h t (by simp)
    have hp : 0 ≤ ts.prod := List.prod_nonneg fun s hs => h s (List.mem_cons_of_mem _ hs)
    have hle : t ≤ Real.exp (t - 1) := by have := Real.add_one_le_exp (t - 1); linarith
    rw [List.prod_cons, List.map_cons, List.sum_cons, Real.exp_add]
    refine ⟨mul_le_mul hle h1 hp (Real.exp_pos _).le, fun hne => ?_⟩
    by_cases h0 : t = 1
    · have : ∃ s ∈ ts, s ≠ 1 := by
        obtain ⟨s, hs, hs1⟩ := hne
        rcases List.mem_cons.1 hs with rfl | hs
        · exact absurd h0 hs1
        · exact ⟨s, hs, hs1⟩
      rw [h0]
      simpa using h2 this
    · have hlt : t < Real.exp (t - 1) := by
        have := Real.add_one_lt_exp (x := t - 1) (fun h => h0 (by linarith))
        linarith
      exact (mul_le_mul_of_nonneg_left h1 ht).trans_lt (mul_lt_mul_of_pos_right hlt (Real.exp_pos _))

theorem prod_div_map {α : Type} (p q : α → ℝ) (data : List α) (hp : ∀ x ∈ data, p x ≠ 0) :
    (data.map q).prod = (data.map fun x => q x / p x).prod * (data.map p).prod := by
  induction data with
  | nil => simp
  | cons a l ih =>
    rw [List.map_cons, List.map_cons, List.map_cons, List.prod_cons, List.prod_cons, List.prod_cons,
      ih fun x hx => hp x (List.mem_cons_of_mem _ hx)]
    have := hp a (by simp)
    field_simp

/-- If the mean of the quotients `q / p` over the data is at most one, the data is at least as likely under `p` as under `q`. -/
theorem likeliest {α : Type} {data : List α} {p q : α → ℝ} (hp : ∀ x ∈ data, 0 < p x) (hq : ∀ x ∈ data, 0 ≤ q x)
    (hs : (data.map fun x => q x / p x).sum ≤ data.length) : (data.map q).prod ≤ (data.map p).prod ∧
      ((data.map q).prod = (data.map p).prod → ∀ x ∈ data, q x = p x) := by
  have hpos : 0 < (data.map p).prod := List.prod_pos fun y hy => by
    obtain ⟨x, hx, rfl⟩ := List.mem_map.1 hy
    exact hp x hx
  obtain ⟨h1, h2⟩ := prod_le_exp (ts := data.map fun x => q x / p x) fun t ht => by
    obtain ⟨x, hx, rfl⟩ := List.mem_map.1 ht
    exact div_nonneg (hq x hx) (hp x hx).le
  have hsum : ((data.map fun x => q x / p x).map (· - 1)).sum ≤ 0 := by
    have : ∀ l : List ℝ, (l.map (· - 1)).sum = l.sum - l.length := by
      intro l
      induction l with
      | nil => simp
      | cons a l ih => simp only [List.map_cons, List.sum_cons, List.length_cons, Nat.cast_add, Nat.cast_one, ih]; ring
    rw [this, List.length_map]
    linarith
  have hexp := Real.exp_le_one_iff.2 hsum
  rw [prod_div_map p q data fun x hx => (hp x hx).ne']
  refine ⟨mul_le_of_le_one_left hpos.le (h1.trans hexp), fun he x hx => ?_⟩
  by_contra hne
  have h3 := h2 ⟨q x / p x, List.mem_map.2 ⟨x, hx, rfl⟩, fun h => hne ((div_eq_one_iff_eq (hp x hx).ne').1 h)⟩
  have : (data.map fun x => q x / p x).prod * (data.map p).prod < 1 * (data.map p).prod :=
    mul_lt_mul_of_pos_right (h3.trans_le hexp) hpos
  rw [he, one_mul] at this
  exact lt_irrefl _ this

/-- Quotients with relative frequencies. -/
theorem sum_div_frequency {α : Type} [DecidableEq α] (data : List α) (hne : data ≠ []) (q : α → ℝ) :
    (data.map fun x => q x / ((data.count x : ℝ) / data.length)).sum = data.length * ∑ x ∈ data.toFinset, q x := by
  have hlen : (data.length : ℝ) ≠ 0 := by exact_mod_cast (List.length_pos_iff.2 hne).ne'
  rw [Finset.sum_list_map_count, Finset.mul_sum]
  apply Finset.sum_congr rfl
  intro x hx
  have hc : (data.count x : ℝ) ≠ 0 := by
    exact_mod_cast (List.count_pos_iff.2 (List.mem_toFinset.1 hx)).ne'
  rw [nsmul_eq_mul]
  field_simp

/-- Relative frequencies are the likeliest mass function, and the only one. -/
theorem frequencies_likeliest {α : Type} [DecidableEq α] {data : List α} (hne : data ≠ []) {q : α → ℝ} (hq : ∀ x ∈ data, 0 ≤ q x)
    (hs : ∑ x ∈ data.toFinset, q x ≤ 1) :
    (data.map q).prod ≤ (data.map fun x => (data.count x : ℝ) / data.length).prod ∧
      ((data.map q).prod = (data.map fun x => (data.count x : ℝ) / data.length).prod → ∀ x ∈ data, q x = (data.count x : ℝ) / data.length) := by
  have hlen : (0 : ℝ) < data.length := by exact_mod_cast List.length_pos_iff.2 hne
  refine likeliest (fun x hx => div_pos (by exact_mod_cast List.count_pos_iff.2 hx) hlen) hq ?_
  rw [sum_div_frequency data hne]
  exact mul_le_of_le_one_right hlen.le hs

theorem sum_frequencies {α : Type} [DecidableEq α] {data : List α} (hne : data ≠ []) : ∑ x ∈ data.toFinset, (data.count x : ℝ) / data.length = 1 := by
  have hlen : (data.length : ℝ) ≠ 0 := by exact_mod_cast (List.length_pos_iff.2 hne).ne'
  rw [← Finset.sum_div, div_eq_one_iff_eq hlen]
  exact_mod_cast List.sum_toFinset_count_eq_length data

theorem lookup_finset_sum {probs : List (ℤ × ℝ)} (hp : ∀ kp ∈ probs, 0 ≤ kp.2) (hn : (probs.map Prod.fst).Nodup) (S : Finset ℤ) :
    ∑ k ∈ S, Leaf.lookup probs k ≤ (probs.map Prod.snd).sum ∧
      ∀ k ∉ S, ∑ k ∈ S, Leaf.lookup probs k = (probs.map Prod.snd).sum → Leaf.lookup probs k = 0 := by
  have h0 : ∀ k, 0 ≤ Leaf.lookup probs k := lookup_nonneg hp
  have hall : (probs.map Prod.snd).sum = ∑ k ∈ S ∪ (probs.map Prod.fst).toFinset, Leaf.lookup probs k := by
    have h1 : (probs.map Prod.snd).sum = ((probs.map Prod.fst).map (Leaf.lookup probs)).sum := by
      rw [List.map_map]
      congr 1
      exact List.map_congr_left fun q hq => (lookup_of_mem hn hq).symm
    rw [h1, ← List.sum_toFinset _ hn]
    refine Finset.sum_subset Finset.subset_union_right fun k _ hk => lookup_eq_zero fun h => hk (List.mem_toFinset.2 h)
  rw [hall]
  refine ⟨Finset.sum_le_sum_of_subset_of_nonneg Finset.subset_union_left fun k _ _ => h0 k, fun k hk he => ?_⟩
  by_contra hne
  have hmem : k ∈ (probs.map Prod.fst).toFinset := by
    by_contra h
    exact hne (lookup_eq_zero fun h' => h (List.mem_toFinset.2 h'))
  have := Finset.sum_lt_sum_of_subset (f := Leaf.lookup probs) (s := S) (t := S ∪ (probs.map Prod.fst).toFinset)
    Finset.subset_union_left (Finset.mem_union_right _ hmem) hk (lt_of_le_of_ne (h0 k) (Ne.symm hne)) fun j _ _ => h0 j
  exact absurd he this.ne

/-- A dictionary of relative frequencies against any other dictionary of probabilities. -/
theorem dict_likeliest {keys : List ℤ} (hne : keys ≠ []) {fitted other : List (ℤ × ℝ)}
    (hf : ∀ k, Leaf.lookup fitted k = (keys.count k : ℝ) / keys.length) (hp : ∀ kp ∈ other, 0 ≤ kp.2) (hn : (other.map Prod.fst).Nodup)
    (hs : (other.map Prod.snd).sum = 1) : (keys.map (Leaf.lookup other)).prod ≤ (keys.map (Leaf.lookup fitted)).prod ∧
      ((keys.map (Leaf.lookup other)).prod = (keys.map (Leaf.lookup fitted)).prod → ∀ k, Leaf.lookup other k = Leaf.lookup fitted k) := by
  have hfe : Leaf.lookup fitted = fun k => (keys.count k : ℝ) / keys.length := funext hf
  obtain ⟨hle, hz⟩ := lookup_finset_sum hp hn keys.toFinset
  rw [hs] at hle hz
  obtain ⟨h1, h2⟩ := frequencies_likeliest hne (q := Leaf.lookup other) (fun k _ => lookup_nonneg hp k) hle
  rw [hfe]
  refine ⟨h1, fun he k => ?_⟩
  have h3 := h2 he
  by_cases hk : k ∈ keys
  · exact h3 k hk
  · have : ∑ k ∈ keys.toFinset, Leaf.lookup other k = 1 := by
      rw [← sum_frequencies hne]
      exact Finset.sum_congr rfl fun k hk => h3 k (List.mem_toFinset.1 hk)
    rw [hz k (fun h => hk (List.mem_toFinset.1 h)) this]
    simp [List.count_eq_zero_of_not_mem hk]

/-! ## Densities that are constant on disjoint sets -/

section Pieces

open MeasureTheory Classical

variable {ε : Type} {I : ε → Set ℝ}

/-- The density that is `d e` on `I e`. -/
noncomputable def pieces (es : List ε) (I : ε → Set ℝ) (d : ε → ℝ) (x : ℝ) : ℝ := (es.map fun e => if x ∈ I e then d e else 0).sum

theorem pieces_outside {es : List ε} {d : ε → ℝ} {x : ℝ} (h : ∀ e ∈ es, x ∉ I e) : pieces es I d x = 0 := by
  apply List.sum_eq_zero
  intro y hy
  obtain ⟨e, he, rfl⟩ := List.mem_map.1 hy
  exact if_neg (h e he)

theorem pieces_of_mem {es : List ε} {d : ε → ℝ} (hd : es.Pairwise fun e e' => Disjoint (I e) (I e')) {e : ε} (he : e ∈ es) {x : ℝ} (hx : x ∈ I e) :
    pieces es I d x = d e := by
  induction es with
  | nil => simp at he
  | cons a es ih =>
    rw [List.pairwise_cons] at hd
    have hcons : pieces (a :: es) I d x = (if x ∈ I a then d a else 0) + pieces es I d x := by simp [pieces]
    rw [hcons]
    rcases List.mem_cons.1 he with rfl | he
    · rw [if_pos hx, pieces_outside fun e' he' hx' => Set.disjoint_left.1 (hd.1 e' he') hx hx', add_zero]
    · rw [if_neg fun hx' => Set.disjoint_left.1 (hd.1 e he) hx' hx, zero_add, ih hd.2 he]

theorem lintegral_pieces_ge {es : List ε} (hd : es.Pairwise fun e e' => Disjoint (I e) (I e')) (hm : ∀ e ∈ es, MeasurableSet (I e)) (f : ℝ → ENNReal) :
    (es.map fun e => ∫⁻ x in I e, f x).sum = ∫⁻ x in ⋃ e ∈ es, I e, f x := by
  induction es with
  | nil => simp
  | cons a es ih =>
    rw [List.pairwise_cons] at hd
    rw [List.map_cons, List.sum_cons, ih hd.2 fun e he => hm e (List.mem_cons_of_mem _ he)]
    have hU : (⋃ e ∈ a :: es, I e) = I a ∪ ⋃ e ∈ es, I e := by
      ext x
      simp
    rw [hU, lintegral_union]
    · exact MeasurableSet.biUnion (Set.Finite.countable (List.finite_toSet es)) fun e he => hm e (List.mem_cons_of_mem _ he)
    · rw [Set.disjoint_left]
      intro x hx hx'
      simp only [Set.mem_iUnion] at hx'
      obtain ⟨e, he, hx'⟩ := hx'
      exact Set.disjoint_left.1 (hd.1 e he) hx hx'

theorem lintegral_pieces {es : List ε} {d : ε → ℝ} (hm : ∀ e ∈ es, MeasurableSet (I e)) (h0 : ∀ e ∈ es, 0 ≤ d e) :
    ∫⁻ x, ENNReal.ofReal (pieces es I d x) = (es.map fun e => ENNReal.ofReal (d e) * volume (I e)).sum := by
  induction es with
  | nil => simp [pieces]
  | cons a es ih =>
    rw [List.map_cons, List.sum_cons, ← ih (fun e he => hm e (List.mem_cons_of_mem _ he)) fun e he => h0 e (List.mem_cons_of_mem _ he),
      ← lintegral_indicator_const (hm a (by simp)), ← lintegral_add_left (measurable_const.indicator (hm a (by simp)))]
    congr 1
    funext x
    have hcons : pieces (a :: es) I d x = (if x ∈ I a then d a else 0) + pieces es I d x := by simp [pieces]
    have hn : 0 ≤ pieces es I d x := List.sum_nonneg fun y hy => by
      obtain ⟨e, he, rfl⟩ := List.mem_map.1 hy
      split
      · exact h0 e (List.mem_cons_of_mem _ he)
      · exact le_rfl
    rw [hcons, ENNReal.ofReal_add _ hn]
    · congr 1
      rw [Set.indicator_apply]
      split <;> simp
    · split
      · exact h0 a (by simp)
      · exact le_rfl

theorem ofReal_sum_list {l : List ℝ} (h : ∀ x ∈ l, 0 ≤ x) : ENNReal.ofReal l.sum = (l.map ENNReal.ofReal).sum := by
  induction l with
  | nil => simp
  | cons a l ih =>
    rw [List.sum_cons, ENNReal.ofReal_add (h a (by simp)) (List.sum_nonneg fun x hx => h x (List.mem_cons_of_mem _ hx)),
      ih fun x hx => h x (List.mem_cons_of_mem _ hx), List.map_cons, List.sum_cons]

theorem sum_sum_swap {α β : Type} (l : List α) (k : List β) (F : α → β → ℝ) :
    (l.map fun a => (k.map fun b => F a b).sum).sum = (k.map fun b => (l.map fun a => F a b).sum).sum := by
  induction l with
  | nil => simp
  | cons a l ih =>
    rw [List.map_cons, List.sum_cons, ih, ← List.sum_map_add]
    simp

theorem sum_ite_count {α : Type} (l : List α) (S : α → Prop) (y : ℝ) :
    (l.map fun a => if S a then y else 0).sum = (l.countP fun a => decide (S a)) * y := by
  induction l with
  | nil => simp
  | cons a l ih =>
    rw [List.map_cons, List.sum_cons, ih, List.countP_cons]
    by_cases h : S a
    · simp [h]; ring
    · simp [h]

/-- The density that gives every set of a partition its relative frequency is the likeliest one among those that are constant on the sets. -/
theorem pieces_likeliest {es : List ε} {data : List ℝ} (hne : data ≠ []) {len w : ε → ℝ} (hd : es.Pairwise fun e e' => Disjoint (I e) (I e'))
    (hm : ∀ e ∈ es, MeasurableSet (I e)) (hvol : ∀ e ∈ es, volume (I e) = ENNReal.ofReal (len e)) (hlen : ∀ e ∈ es, 0 < len e)
    (hw : ∀ e ∈ es, w e = (data.countP fun x => decide (x ∈ I e)) / data.length) (hw0 : ∀ e ∈ es, 0 < w e)
    (hcov : ∀ x ∈ data, ∃ e ∈ es, x ∈ I e) {φ : ℝ → ℝ} (h0 : ∀ x, 0 ≤ φ x) (hc : ∀ e ∈ es, ∀ x ∈ I e, ∀ y ∈ I e, φ x = φ y)
    (h1 : ∫⁻ x, ENNReal.ofReal (φ x) ≤ 1) :
    (data.map φ).prod ≤ (data.map (pieces es I fun e => w e / len e)).prod ∧
      ((data.map φ).prod = (data.map (pieces es I fun e => w e / len e)).prod → ∀ x ∈ data, φ x = pieces es I (fun e => w e / len e) x) := by
  have hN : (0 : ℝ) < data.length := by exact_mod_cast List.length_pos_iff.2 hne
  have hp : ∀ x ∈ data, 0 < pieces es I (fun e => w e / len e) x := by
    intro x hx
    obtain ⟨e, he, hxe⟩ := hcov x hx
    rw [pieces_of_mem hd he hxe]
    exact div_pos (hw0 e he) (hlen e he)
  -- the value of the density on each set
  have hval : ∀ e ∈ es, ∃ y, 0 ≤ y ∧ ∀ x ∈ I e, φ x = y := by
    intro e he
    have hnon : (I e).Nonempty := by
      by_contra h
      rw [Set.not_nonempty_iff_eq_empty] at h
      have := hvol e he
      rw [h, measure_empty] at this
      exact absurd this.symm (ENNReal.ofReal_pos.2 (hlen e he)).ne'
    obtain ⟨y, hy⟩ := hnon
    exact ⟨φ y, h0 y, fun x hx => hc e he x hx y hy⟩
  set V : ε → ℝ := fun e => if h : ∃ y, 0 ≤ y ∧ ∀ x ∈ I e, φ x = y then h.choose else 0 with hV
  have hV0 : ∀ e ∈ es, 0 ≤ V e := fun e he => by
    rw [hV]
    dsimp only
    rw [dif_pos (hval e he)]
    exact (hval e he).choose_spec.1
  have hVx : ∀ e ∈ es, ∀ x ∈ I e, φ x = V e := fun e he => by
    rw [hV]
    dsimp only
    rw [dif_pos (hval e he)]
    exact (hval e he).choose_spec.2
  have hmass : (es.map fun e => V e * len e).sum ≤ 1 := by
    have h2 : ENNReal.ofReal (es.map fun e => V e * len e).sum ≤ 1 := by
      rw [ofReal_sum_list (by
        intro y hy
        obtain ⟨e, he, rfl⟩ := List.mem_map.1 hy
        exact mul_nonneg (hV0 e he) (hlen e he).le), List.map_map]
      have : es.map (ENNReal.ofReal ∘ fun e => V e * len e) = es.map fun e => ∫⁻ x in I e, ENNReal.ofReal (φ x) := by
        apply List.map_congr_left
        intro e he
        rw [setLIntegral_congr_fun (hm e he) (g := fun _ => ENNReal.ofReal (V e)) fun x hx => by dsimp only; rw [hVx e he x hx], setLIntegral_const, hvol e he,
          ← ENNReal.ofReal_mul (hV0 e he)]
        rfl
      rw [this, lintegral_pieces_ge hd hm]
      exact (setLIntegral_le_lintegral _ _).trans h1
    exact ENNReal.ofReal_le_one.1 h2
  refine likeliest hp (fun x _ => h0 x) ?_
  have hx : ∀ x ∈ data, φ x / pieces es I (fun e => w e / len e) x = (es.map fun e => if x ∈ I e then V e * len e / w e else 0).sum := by
    intro x hx
    obtain ⟨e, he, hxe⟩ := hcov x hx
    have := pieces_of_mem (d := fun e => V e * len e / w e) hd he hxe
    rw [pieces] at this
    rw [this, pieces_of_mem hd he hxe, hVx e he x hxe]
    have := (hlen e he).ne'
    have := (hw0 e he).ne'
    field_simp
  rw [List.map_congr_left hx, sum_sum_swap data es fun x e => if x ∈ I e then V e * len e / w e else 0]
  have he : ∀ e ∈ es, (data.map fun x => if x ∈ I e then V e * len e / w e else 0).sum = data.length * (V e * len e) := by
    intro e he
    rw [sum_ite_count data (fun x => x ∈ I e)]
    have h2 := hw e he
    have h3 := (hw0 e he).ne'
    have h4 : ((data.countP fun x => decide (x ∈ I e) : ℕ) : ℝ) = w e * data.length := by
      rw [h2]
      field_simp
    rw [h4]
    field_simp
  rw [List.map_congr_left he, List.sum_map_mul_left]
  exact mul_le_of_le_one_right hN.le hmass

/-- The share of the weights of the points in a set. -/
noncomputable def shareIn (items : List (ℝ × ℝ)) (S : Set ℝ) : ℝ := ((items.filter fun a => a.1 ∈ S).map Prod.snd).sum

theorem sum_ite_share (items : List (ℝ × ℝ)) (S : Set ℝ) (y : ℝ) :
    (items.map fun a => if a.1 ∈ S then a.2 * y else 0).sum = shareIn items S * y := by
  induction items with
  | nil => simp [shareIn]
  | cons a l ih =>
    rw [List.map_cons, List.sum_cons, ih, shareIn, shareIn, List.filter_cons]
    by_cases h : a.1 ∈ S
    · simp [h]; ring
    · simp [h]

/-- Weighted points: `t ^ w ≤ exp (w (t - 1))`. -/
theorem prod_rpow_le_exp {α : Type} (t w : α → ℝ) : ∀ {items : List α}, (∀ a ∈ items, 0 ≤ t a ∧ 0 < w a) →
    (items.map fun a => t a ^ w a).prod ≤ Real.exp (items.map fun a => w a * (t a - 1)).sum ∧
      ((∃ a ∈ items, t a ≠ 1) → (items.map fun a => t a ^ w a).prod < Real.exp (items.map fun a => w a * (t a - 1)).sum)
  | [], _ => by simp
  | a :: items, h => by
    obtain ⟨h1, h2⟩ := prod_rpow_le_exp t w fun s hs => h s (List.mem_cons_of_mem _ hs)
    obtain ⟨ht, hw⟩ := h a (by simp)
    have hp : 0 ≤ (items.map fun a => t a ^ w a).prod := List.prod_nonneg fun s hs => by
      obtain ⟨b, hb, rfl⟩ := List.mem_map.1 hs
      exact Real.rpow_nonneg (h b (List.mem_cons_of_mem _ hb)).1 _
    have hexp : Real.exp (w a * (t a - 1)) = Real.exp (t a - 1) ^ w a := by rw [← Real.exp_mul, mul_comm]
    have hle : t a ^ w a ≤ Real.exp (w a * (t a - 1)) := by
      rw [hexp]
      exact Real.rpow_le_rpow ht (by have := Real.add_one_le_exp (t a - 1); linarith) hw.le
    rw [List.map_cons, List.map_cons, List.prod_cons, List.sum_cons, Real.exp_add]
    refine ⟨mul_le_mul hle h1 hp (Real.exp_pos _).le, fun hne => ?_⟩
    by_cases h0 : t a = 1
    · have : ∃ s ∈ items, t s ≠ 1 := by
        obtain ⟨s, hs, hs1⟩ := hne
        rcases List.mem_cons.1 hs with rfl | hs
        · exact absurd h0 hs1
        · exact ⟨s, hs, hs1⟩
      rw [h0]
      simpa using h2 this
    · have hlt : t a ^ w a < Real.exp (w a * (t a - 1)) := by
        rw [hexp]
        refine Real.rpow_lt_rpow ht ?_ hw
        have := Real.add_one_lt_exp (x := t a - 1) (fun h => h0 (by linarith))
        linarith
      exact (mul_le_mul_of_nonneg_left h1 (Real.rpow_nonneg ht _)).trans_lt (mul_lt_mul_of_pos_right hlt (Real.exp_pos _))

/-- If the weighted mean of the quotients `q / p` is at most one, the weighted data is at least as likely under `p` as under `q`. -/
theorem likeliest_weighted {items : List (ℝ × ℝ)} {p q : ℝ → ℝ} (hw : ∀ a ∈ items, 0 < a.2) (hp : ∀ a ∈ items, 0 < p a.1)
    (hq : ∀ a ∈ items, 0 ≤ q a.1) (hs : (items.map fun a => a.2 * (q a.1 / p a.1)).sum ≤ (items.map Prod.snd).sum) :
    (items.map fun a => q a.1 ^ a.2).prod ≤ (items.map fun a => p a.1 ^ a.2).prod ∧
      ((items.map fun a => q a.1 ^ a.2).prod = (items.map fun a => p a.1 ^ a.2).prod → ∀ a ∈ items, q a.1 = p a.1) := by
  have hpos : 0 < (items.map fun a => p a.1 ^ a.2).prod := List.prod_pos fun y hy => by
    obtain ⟨x, hx, rfl⟩ := List.mem_map.1 hy
    exact Real.rpow_pos_of_pos (hp x hx) _
  obtain ⟨h1, h2⟩ := prod_rpow_le_exp (fun a : ℝ × ℝ => q a.1 / p a.1) Prod.snd (items := items) fun a ha =>
    ⟨div_nonneg (hq a ha) (hp a ha).le, hw a ha⟩
  have hsum : (items.map fun a => a.2 * (q a.1 / p a.1 - 1)).sum ≤ 0 := by
    have : ∀ l : List (ℝ × ℝ), (l.map fun a => a.2 * (q a.1 / p a.1 - 1)).sum
        = (l.map fun a => a.2 * (q a.1 / p a.1)).sum - (l.map Prod.snd).sum := by
      intro l
      induction l with
      | nil => simp
      | cons a l ih => simp only [List.map_cons, List.sum_cons, ih]; ring
    rw [this]
    linarith
  have hexp := Real.exp_le_one_iff.2 hsum
  have hdiv : items.map (fun a => q a.1 ^ a.2 / p a.1 ^ a.2) = items.map fun a => (q a.1 / p a.1) ^ a.2 :=
    List.map_congr_left fun a ha => (Real.div_rpow (hq a ha) (hp a ha).le _).symm
  rw [prod_div_map (fun a : ℝ × ℝ => p a.1 ^ a.2) (fun a => q a.1 ^ a.2) items fun x hx => (Real.rpow_pos_of_pos (hp x hx) _).ne', hdiv]
  refine ⟨mul_le_of_le_one_left hpos.le (h1.trans hexp), fun he x hx => ?_⟩
  by_contra hne
  have h3 := h2 ⟨x, hx, fun h => hne ((div_eq_one_iff_eq (hp x hx).ne').1 h)⟩
  have : (items.map fun a => (q a.1 / p a.1) ^ a.2).prod * (items.map fun a => p a.1 ^ a.2).prod < 1 * (items.map fun a => p a.1 ^ a.2).prod :=
    mul_lt_mul_of_pos_right (h3.trans_le hexp) hpos
  rw [he, one_mul] at this
  exact lt_irrefl _ this

/-- The density that gives every set of a partition its share of the weights is the likeliest one among those that are constant on the sets. -/
theorem pieces_likeliest_weighted {es : List ε} {data : List (ℝ × ℝ)} (hne : data ≠ []) (hpos : ∀ a ∈ data, 0 < a.2) {len w : ε → ℝ} (hd : es.Pairwise fun e e' => Disjoint (I e) (I e'))
    (hm : ∀ e ∈ es, MeasurableSet (I e)) (hvol : ∀ e ∈ es, volume (I e) = ENNReal.ofReal (len e)) (hlen : ∀ e ∈ es, 0 < len e)
    (hw : ∀ e ∈ es, w e = shareIn data (I e) / (data.map Prod.snd).sum) (hw0 : ∀ e ∈ es, 0 < w e)
    (hcov : ∀ a ∈ data, ∃ e ∈ es, a.1 ∈ I e) {φ : ℝ → ℝ} (h0 : ∀ x, 0 ≤ φ x) (hc : ∀ e ∈ es, ∀ x ∈ I e, ∀ y ∈ I e, φ x = φ y)
    (h1 : ∫⁻ x, ENNReal.ofReal (φ x) ≤ 1) :
    (data.map fun a => φ a.1 ^ a.2).prod ≤ (data.map fun a => pieces es I (fun e => w e / len e) a.1 ^ a.2).prod ∧
      ((data.map fun a => φ a.1 ^ a.2).prod = (data.map fun a => pieces es I (fun e => w e / len e) a.1 ^ a.2).prod → ∀ a ∈ data, φ a.1 = pieces es I (fun e => w e / len e) a.1) := by
  have hN : 0 < (data.map Prod.snd).sum := List.sum_pos _ (fun y hy => by
    obtain ⟨a, ha, rfl⟩ := List.mem_map.1 hy
    exact hpos a ha) (by simpa using hne)
  have hp : ∀ x ∈ data, 0 < pieces es I (fun e => w e / len e) x.1 := by
    intro x hx
    obtain ⟨e, he, hxe⟩ := hcov x hx
    rw [pieces_of_mem hd he hxe]
    exact div_pos (hw0 e he) (hlen e he)
  -- the value of the density on each set
  have hval : ∀ e ∈ es, ∃ y, 0 ≤ y ∧ ∀ x ∈ I e, φ x = y := by
    intro e he
    have hnon : (I e).Nonempty := by
      by_contra h
      rw [Set.not_nonempty_iff_eq_empty] at h
      have := hvol e he
      rw [h, measure_empty] at this
      exact absurd this.symm (ENNReal.ofReal_pos.2 (hlen e he)).ne'
    obtain ⟨y, hy⟩ := hnon
    exact ⟨φ y, h0 y, fun x hx => hc e he x hx y hy⟩
  set V : ε → ℝ := fun e => if h : ∃ y, 0 ≤ y ∧ ∀ x ∈ I e, φ x = y then h.choose else 0 with hV
  have hV0 : ∀ e ∈ es, 0 ≤ V e := fun e he => by
    rw [hV]
    dsimp only
    rw [dif_pos (hval e he)]
    exact (hval e he).choose_spec.1
  have hVx : ∀ e ∈ es, ∀ x ∈ I e, φ x = V e := fun e he => by
    rw [hV]
    dsimp only
    rw [dif_pos (hval e he)]
    exact (hval e he).choose_spec.2
  have hmass : (es.map fun e => V e * len e).sum ≤ 1 := by
    have h2 : ENNReal.ofReal (es.map fun e => V e * len e).sum ≤ 1 := by
      rw [ofReal_sum_list (by
        intro y hy
        obtain ⟨e, he, rfl⟩ := List.mem_map.1 hy
        exact mul_nonneg (hV0 e he) (hlen e he).le), List.map_map]
      have : es.map (ENNReal.ofReal ∘ fun e => V e * len e) = es.map fun e => ∫⁻ x in I e, ENNReal.ofReal (φ x) := by
        apply List.map_congr_left
        intro e he
        rw [setLIntegral_congr_fun (hm e he) (g := fun _ => ENNReal.ofReal (V e)) fun x hx => by dsimp only; rw [hVx e he x hx], setLIntegral_const, hvol e he,
          ← ENNReal.ofReal_mul (hV0 e he)]
        rfl
      rw [this, lintegral_pieces_ge hd hm]
      exact (setLIntegral_le_lintegral _ _).trans h1
    exact ENNReal.ofReal_le_one.1 h2
  refine likeliest_weighted hpos hp (fun x _ => h0 x.1) ?_
  have hx : ∀ x ∈ data, x.2 * (φ x.1 / pieces es I (fun e => w e / len e) x.1) = (es.map fun e => if x.1 ∈ I e then x.2 * (V e * len e / w e) else 0).sum := by
    intro x hx
    obtain ⟨e, he, hxe⟩ := hcov x hx
    have := pieces_of_mem (d := fun e => x.2 * (V e * len e / w e)) hd he hxe
    rw [pieces] at this
    rw [this, pieces_of_mem hd he hxe, hVx e he x.1 hxe]
    have := (hlen e he).ne'
    have := (hw0 e he).ne'
    field_simp
  rw [List.map_congr_left hx, sum_sum_swap data es fun x e => if x.1 ∈ I e then x.2 * (V e * len e / w e) else 0]
  have he : ∀ e ∈ es, (data.map fun x => if x.1 ∈ I e then x.2 * (V e * len e / w e) else 0).sum = (data.map Prod.snd).sum * (V e * len e) := by
    intro e he
    rw [sum_ite_share data (I e)]
    have h2 := hw e he
    have h3 := (hw0 e he).ne'
    have h4 : shareIn data (I e) = w e * (data.map Prod.snd).sum := by
      rw [h2]
      field_simp
    rw [h4]
    field_simp
  rw [List.map_congr_left he, List.sum_map_mul_left]
  exact mul_le_of_le_one_right hN.le hmass

end Pieces

end PM
