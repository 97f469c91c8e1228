import Verif.Dist.Transform
import Verif.Dist.DictLemmas
import Verif.Dist.LeafLemmas
import Verif.Events.Algebra
import Verif.Spec.Transform

/-! Helper lemmas about `translate` and `scale` of leaf distributions. -/

namespace PM

open Spec Classical ProbabilityTheory MeasureTheory

theorem ereal_add_le {a : EReal} {c x : ℝ} : a + (c : EReal) ≤ ((x + c : ℝ) : EReal) ↔ a ≤ (x : EReal) := by
  induction a with
  | bot => simp
  | top =>
    rw [EReal.top_add_coe]
    simp only [top_le_iff]
    exact ⟨fun h => absurd h (EReal.coe_ne_top _), fun h => absurd h (EReal.coe_ne_top _)⟩
  | coe a => rw [← EReal.coe_add, EReal.coe_le_coe_iff, EReal.coe_le_coe_iff]; simp

theorem ereal_le_add {a : EReal} {c x : ℝ} : ((x + c : ℝ) : EReal) ≤ a + (c : EReal) ↔ (x : EReal) ≤ a := by
  induction a with
  | bot => simp
  | top => simp
  | coe a => rw [← EReal.coe_add, EReal.coe_le_coe_iff, EReal.coe_le_coe_iff]; simp

theorem shift_mem {I : SimpleInterval} {c x : ℝ} : (I.shift c).Mem (x + c) ↔ I.Mem x := by
  unfold SimpleInterval.Mem SimpleInterval.shift
  refine and_congr ?_ ?_
  · cases I.left with
    | closed => exact ereal_add_le
    | opn => show I.lower + c < _ ↔ I.lower < _; rw [← not_le, ← not_le, ereal_le_add]
  · cases I.right with
    | closed => exact ereal_le_add
    | opn => show _ < I.upper + c ↔ _ < I.upper; rw [← not_le, ← not_le, ereal_add_le]

theorem shift_preimage (I : SimpleInterval) (c : ℝ) : (fun x => x + c) ⁻¹' (I.shift c).toSet = I.toSet := by
  ext x
  exact shift_mem

theorem shift_gauss (I : SimpleInterval) (μ c : ℝ) (v : NNReal) :
    (gaussianReal (μ + c) v).real (I.shift c).toSet = (gaussianReal μ v).real I.toSet := by
  rw [← gaussianReal_map_add_const, measureReal_def, Measure.map_apply (by fun_prop) (SimpleInterval.measurableSet_toSet _), shift_preimage,
    measureReal_def]

theorem foldl_set_map {probs : List (ℤ × ℝ)} (hn : (probs.map Prod.fst).Nodup) {k : ℤ → ℤ} (hk : Function.Injective k) :
    probs.foldl (fun d kp => Dict.set d (k kp.1) kp.2) [] = probs.map fun kp => (k kp.1, kp.2) := by
  have := Dict.foldl_set (fun kp : ℤ × ℝ => k kp.1) (fun kp => kp.2) probs [] (by
    simp only [List.map_nil, List.nil_append]
    have h := hn.map hk
    rwa [List.map_map] at h)
  simpa using this

theorem discrete_density_map {probs : List (ℤ × ℝ)} {k : ℤ → ℤ} {y x : ℝ} (h : ∀ j : ℤ, ((k j : ℤ) : ℝ) = y ↔ (j : ℝ) = x) :
    (((probs.map fun kp => (k kp.1, kp.2)).filter fun kp => (kp.1 : ℝ) = y).map Prod.snd).sum =
      ((probs.filter fun kp => (kp.1 : ℝ) = x).map Prod.snd).sum := by
  induction probs with
  | nil => rfl
  | cons a l ih =>
    by_cases ha : (a.1 : ℝ) = x
    · rw [List.map_cons, List.filter_cons_of_pos (by simpa using (h a.1).2 ha), List.filter_cons_of_pos (by simpa using ha)]
      simp only [List.map_cons, List.sum_cons]
      rw [ih]
    · rw [List.map_cons, List.filter_cons_of_neg (by simpa using fun hc => ha ((h a.1).1 hc)), List.filter_cons_of_neg (by simpa using ha)]
      exact ih

/-- A leaf that can be translated: numeric, with a translation for its variable, an integer one for an integer variable. -/
theorem leaf_translate {d : Leaf} (hv : d.Valid) {t : Var → Option ℝ} {c : ℝ} (ht : t d.var = some c)
    (hs : ∀ v probs, d ≠ .symbolic v probs) (hint : ∀ v probs, d = .integer v probs → ∃ k : ℤ, c = k) :
    ∃ d', d.translate t = .ok d' ∧ d'.var = d.var ∧ d'.Valid ∧ ∀ x, leafDensity d' (x + c) = leafDensity d x := by
  have hr : readEntry t d.var = .ok c := by simp [readEntry, ht]
  cases d with
  | uniform v lo hi l r =>
    have hr : readEntry t v = .ok c := hr
    refine ⟨.uniform v (lo + c) (hi + c) l r, by simp only [Leaf.translate, hr, bind, Except.bind], rfl, ?_, fun x => ?_⟩
    · have hv : lo < hi := hv
      show lo + c < hi + c
      linarith
    · have := @shift_mem ⟨lo, hi, l, r⟩ c x
      simp only [leafDensity]
      have he : SimpleInterval.shift ⟨lo, hi, l, r⟩ c = ⟨((lo + c : ℝ) : EReal), ((hi + c : ℝ) : EReal), l, r⟩ := by
        simp [SimpleInterval.shift]
      rw [he] at this
      by_cases h : (SimpleInterval.mk lo hi l r).Mem x
      · rw [if_pos h, if_pos (this.2 h)]; congr 1; ring
      · rw [if_neg h, if_neg fun h' => h (this.1 h')]
  | dirac v loc cap =>
    have hr : readEntry t v = .ok c := hr
    refine ⟨.dirac v (loc + c) cap, by simp only [Leaf.translate, hr, bind, Except.bind], rfl, hv, fun x => ?_⟩
    simp [leafDensity]
  | symbolic v probs => exact absurd rfl (hs v probs)
  | integer v probs =>
    have hr : readEntry t v = .ok c := hr
    obtain ⟨k, rfl⟩ := hint v probs rfl
    have hinj : Function.Injective fun j : ℤ => j + ⌊(k : ℝ)⌋ := add_left_injective _
    refine ⟨.integer v (probs.map fun kp => (kp.1 + ⌊(k : ℝ)⌋, kp.2)), ?_, rfl, ⟨?_, ?_⟩, fun x => ?_⟩
    · by_cases hp : probs = []
      · simp only [Leaf.translate, if_pos hp]; rw [hp]; rfl
      · simp only [Leaf.translate, if_neg hp, hr, bind, Except.bind]
        rw [foldl_set_map hv.2 hinj]
    · intro kp hkp
      obtain ⟨q, hq, rfl⟩ := List.mem_map.1 hkp
      exact hv.1 q hq
    · have := hv.2.map hinj
      rw [List.map_map] at this ⊢
      exact this
    · refine discrete_density_map (k := fun j => j + ⌊(k : ℝ)⌋) fun j => ?_
      rw [Int.floor_intCast]
      push_cast
      simp
  | gaussian v μ σ =>
    have hr : readEntry t v = .ok c := hr
    refine ⟨.gaussian v (μ + c) σ, by simp only [Leaf.translate, hr, bind, Except.bind], rfl, hv, fun x => ?_⟩
    simp [leafDensity, gaussianPDFReal]
  | truncGaussian v I μ σ =>
    have hr : readEntry t v = .ok c := hr
    refine ⟨.truncGaussian v (I.shift c) (μ + c) σ, by simp only [Leaf.translate, hr, bind, Except.bind], rfl, ⟨hv.1, ?_⟩, fun x => ?_⟩
    · show I.lower + c < I.upper + c
      exact EReal.add_lt_add_right_coe hv.2 c
    · simp only [leafDensity, shift_gauss]
      by_cases h : I.Mem x
      · rw [if_pos h, if_pos (shift_mem.2 h)]
        congr 1
        simp [gaussianPDFReal]
      · rw [if_neg h, if_neg fun h' => h (shift_mem.1 h')]

theorem ereal_mul_le_pos {a b : EReal} {s : ℝ} (hs : 0 < s) : a * (s : EReal) ≤ b * (s : EReal) ↔ a ≤ b := by
  induction a with
  | bot => simp [EReal.bot_mul_coe_of_pos hs]
  | top =>
    rw [EReal.top_mul_coe_of_pos hs]
    induction b with
    | bot => simp [EReal.bot_mul_coe_of_pos hs]
    | top => simp [EReal.top_mul_coe_of_pos hs]
    | coe b => rw [← EReal.coe_mul]; simp only [top_le_iff, EReal.coe_ne_top]
  | coe a =>
    induction b with
    | bot => rw [EReal.bot_mul_coe_of_pos hs, ← EReal.coe_mul]; simp only [le_bot_iff, EReal.coe_ne_bot]
    | top => simp [EReal.top_mul_coe_of_pos hs]
    | coe b => rw [← EReal.coe_mul, ← EReal.coe_mul, EReal.coe_le_coe_iff, EReal.coe_le_coe_iff, mul_le_mul_iff_left₀ hs]

theorem ereal_mul_le_neg {a b : EReal} {s : ℝ} (hs : s < 0) : a * (s : EReal) ≤ b * (s : EReal) ↔ b ≤ a := by
  induction a with
  | top => simp [EReal.top_mul_coe_of_neg hs]
  | bot =>
    rw [EReal.bot_mul_coe_of_neg hs]
    induction b with
    | bot => simp [EReal.bot_mul_coe_of_neg hs]
    | top => simp [EReal.top_mul_coe_of_neg hs]
    | coe b => rw [← EReal.coe_mul]; simp only [top_le_iff, EReal.coe_ne_top, le_bot_iff, EReal.coe_ne_bot]
  | coe a =>
    induction b with
    | bot => simp [EReal.bot_mul_coe_of_neg hs]
    | top => rw [EReal.top_mul_coe_of_neg hs, ← EReal.coe_mul]; simp only [le_bot_iff, EReal.coe_ne_bot, top_le_iff, EReal.coe_ne_top]
    | coe b => rw [← EReal.coe_mul, ← EReal.coe_mul, EReal.coe_le_coe_iff, EReal.coe_le_coe_iff, mul_le_mul_right_of_neg hs]

theorem scaleInterval_mem {s : ℝ} (hs : s ≠ 0) {i : SimpleInterval} {x : ℝ} : (scaleInterval s i).Mem (x * s) ↔ i.Mem x := by
  unfold scaleInterval SimpleInterval.Mem
  rw [EReal.coe_mul]
  rcases lt_or_gt_of_ne hs with h | h
  · rw [if_neg (not_lt.2 h.le), and_comm]
    refine and_congr ?_ ?_
    · cases i.left with
      | closed => exact ereal_mul_le_neg h
      | opn => show _ < _ ↔ _ < _; rw [← not_le, ← not_le, ereal_mul_le_neg h]
    · cases i.right with
      | closed => exact ereal_mul_le_neg h
      | opn => show _ < _ ↔ _ < _; rw [← not_le, ← not_le, ereal_mul_le_neg h]
  · rw [if_pos h]
    refine and_congr ?_ ?_
    · cases i.left with
      | closed => exact ereal_mul_le_pos h
      | opn => show _ < _ ↔ _ < _; rw [← not_le, ← not_le, ereal_mul_le_pos h]
    · cases i.right with
      | closed => exact ereal_mul_le_pos h
      | opn => show _ < _ ↔ _ < _; rw [← not_le, ← not_le, ereal_mul_le_pos h]

theorem scaleSet_mem {s : ℝ} (hs : s ≠ 0) {I : List SimpleInterval} {x : ℝ} :
    (scaleSet s (.interval I)).Mem (x * s) ↔ (VSet.interval I).Mem x := by
  simp only [scaleSet, VSet.Mem, List.mem_map]
  constructor
  · rintro ⟨_, ⟨i, hi, rfl⟩, h⟩; exact ⟨i, hi, (scaleInterval_mem hs).1 h⟩
  · rintro ⟨i, hi, h⟩; exact ⟨_, ⟨i, hi, rfl⟩, (scaleInterval_mem hs).2 h⟩

theorem uniformCdf_scale {lo hi s : ℝ} (hs : 0 < s) (x : EReal) :
    Leaf.uniformCdf (lo * s) (hi * s) (x * s) = Leaf.uniformCdf lo hi x := by
  unfold Leaf.uniformCdf
  induction x with
  | bot => simp [EReal.bot_mul_coe_of_pos hs]
  | top => simp [EReal.top_mul_coe_of_pos hs]
  | coe x =>
    rw [← EReal.coe_mul, if_neg (EReal.coe_ne_bot _), if_neg (EReal.coe_ne_top _), if_neg (EReal.coe_ne_bot _),
      if_neg (EReal.coe_ne_top _), EReal.toReal_coe, EReal.toReal_coe, ← sub_mul, ← sub_mul, mul_div_mul_right _ _ hs.ne']

/-- Uniform distributions and positive factors; integer distributions and integer factors. -/
theorem leaf_rescale {d : Leaf} (hv : d.Valid) {t : Var → Option ℝ} {s : ℝ} (ht : t d.var = some s)
    (h : (∃ v lo hi l r, d = .uniform v lo hi l r ∧ 0 < s) ∨ (∃ (v : Var) (probs : List (ℤ × ℝ)) (k : ℤ), d = .integer v probs ∧ s = k ∧ k ≠ 0)) :
    ∃ d', d.rescale t = .ok d' ∧ d'.var = d.var ∧ d'.Valid ∧
      ∀ A, d'.prob (scaleSet s A) = d.prob A := by
  have hr : readEntry t d.var = .ok s := by simp [readEntry, ht]
  rcases h with ⟨v, lo, hi, l, r, rfl, hs⟩ | ⟨v, probs, k, rfl, rfl, hk⟩
  · have hr : readEntry t v = .ok s := hr
    refine ⟨.uniform v (lo * s) (hi * s) l r, by simp only [Leaf.rescale, hr, bind, Except.bind], rfl, ?_, fun A => ?_⟩
    · exact mul_lt_mul_of_pos_right (show lo < hi from hv) hs
    · rcases A with I | S
      swap
      · rfl
      simp only [scaleSet, Leaf.prob, Leaf.cdfSum, List.map_map]
      congr 2
      apply List.map_congr_left
      intro i _
      simp only [Function.comp, scaleInterval, if_pos hs, uniformCdf_scale hs]
  · have hr : readEntry t v = .ok (k : ℝ) := hr
    have hinj : Function.Injective fun j : ℤ => j * ⌊(k : ℝ)⌋ := by
      rw [Int.floor_intCast]; exact mul_left_injective₀ hk
    have hk0 : (k : ℝ) ≠ 0 := by exact_mod_cast hk
    refine ⟨.integer v (probs.map fun kp => (kp.1 * ⌊(k : ℝ)⌋, kp.2)), ?_, rfl, ⟨?_, ?_⟩, fun A => ?_⟩
    · by_cases hp : probs = []
      · simp only [Leaf.rescale, if_pos hp]; rw [hp]; rfl
      · simp only [Leaf.rescale, if_neg hp, hr, bind, Except.bind]
        rw [foldl_set_map hv.2 hinj]
    · intro kp hkp
      obtain ⟨q, hq, rfl⟩ := List.mem_map.1 hkp
      exact hv.1 q hq
    · have := hv.2.map hinj
      rw [List.map_map] at this ⊢
      exact this
    · rcases A with I | S
      swap
      · rfl
      have he : scaleSet (k : ℝ) (.interval I) = .interval (I.map (scaleInterval k)) := rfl
      rw [he]
      simp only [Leaf.prob]
      rw [Int.floor_intCast, List.map_map]
      congr 2
      apply List.map_congr_left
      intro kp _
      simp only [Function.comp]
      have hm := scaleSet_mem hk0 (I := I) (x := (kp.1 : ℝ))
      rw [he] at hm
      by_cases hx : (VSet.interval I).Mem (kp.1 : ℝ)
      · rw [if_pos hx, if_pos (by push_cast; exact hm.2 hx)]
      · rw [if_neg hx, if_neg (by push_cast; exact fun h' => hx (hm.1 h'))]

end PM
