import Verif.Dist.MomentLemmas
import Verif.Dist.TransformLemmas
import Verif.Spec.Move

/-! # Moved and scaled leaves: probabilities and moments -/

namespace PM

open Classical Spec MeasureTheory ProbabilityTheory

/-- The leaf after `translate` by `c`. -/
noncomputable def Leaf.moved (c : ℝ) : Leaf → Leaf
  | .uniform v lo hi l r => .uniform v (lo + c) (hi + c) l r
  | .dirac v loc cap => .dirac v (loc + c) cap
  | .symbolic v probs => .symbolic v probs
  | .integer v probs => .integer v (probs.map fun kp => (kp.1 + ⌊c⌋, kp.2))
  | .gaussian v μ σ => .gaussian v (μ + c) σ
  | .truncGaussian v I μ σ => .truncGaussian v (I.shift c) (μ + c) σ

theorem leaf_moved {d : Leaf} (hv : d.Valid) {t : Var → Option ℝ} {c : ℝ} (ht : t d.var = some c)
    (hs : ∀ v probs, d ≠ .symbolic v probs) : d.translate t = .ok (d.moved c) := by
  have hr : readEntry t d.var = .ok c := by simp [readEntry, ht]
  cases d with
  | uniform v lo hi l r =>
    have hr : readEntry t v = .ok c := hr
    simp only [Leaf.translate, hr, bind, Except.bind, Leaf.moved]
  | dirac v loc cap =>
    have hr : readEntry t v = .ok c := hr
    simp only [Leaf.translate, hr, bind, Except.bind, Leaf.moved]
  | symbolic v probs => exact absurd rfl (hs v probs)
  | integer v probs =>
    have hr : readEntry t v = .ok c := hr
    have hinj : Function.Injective fun j : ℤ => j + ⌊c⌋ := add_left_injective _
    by_cases hp : probs = []
    · simp only [Leaf.translate, if_pos hp, Leaf.moved]; rw [hp]; rfl
    · simp only [Leaf.translate, if_neg hp, hr, bind, Except.bind, Leaf.moved]
      rw [foldl_set_map hv.2 hinj]
  | gaussian v μ σ =>
    have hr : readEntry t v = .ok c := hr
    simp only [Leaf.translate, hr, bind, Except.bind, Leaf.moved]
  | truncGaussian v I μ σ =>
    have hr : readEntry t v = .ok c := hr
    simp only [Leaf.translate, hr, bind, Except.bind, Leaf.moved]

theorem Leaf.moved_var (d : Leaf) (c : ℝ) : (d.moved c).var = d.var := by cases d <;> rfl

theorem ereal_add_cancel_le {a b : EReal} (c : ℝ) : a + (c : EReal) ≤ b + (c : EReal) ↔ a ≤ b := by
  refine ⟨fun h => ?_, fun h => add_le_add_left h _⟩
  have := add_le_add_left h ((-c : ℝ) : EReal)
  rwa [add_assoc, add_assoc, ← EReal.coe_add, add_neg_cancel, EReal.coe_zero, add_zero, add_zero] at this

theorem uniformCdf_move (lo hi c : ℝ) (x : EReal) : Leaf.uniformCdf (lo + c) (hi + c) (x + c) = Leaf.uniformCdf lo hi x := by
  unfold Leaf.uniformCdf
  induction x with
  | bot => simp
  | top => simp
  | coe x =>
    rw [← EReal.coe_add]
    simp only [EReal.coe_ne_bot, EReal.coe_ne_top, if_false, EReal.toReal_coe]
    congr 3
    · ring
    · ring

theorem gaussCdf_move (μ σ c : ℝ) (x : EReal) : Leaf.gaussCdf (μ + c) σ (x + c) = Leaf.gaussCdf μ σ x := by
  unfold Leaf.gaussCdf
  induction x with
  | bot => simp
  | top => simp
  | coe x =>
    rw [← EReal.coe_add]
    simp only [EReal.coe_ne_bot, EReal.coe_ne_top, if_false, EReal.toReal_coe]
    rw [← gaussianReal_map_add_const, measureReal_def, Measure.map_apply (by fun_prop) measurableSet_Iic, measureReal_def]
    congr 2
    ext y
    simp

theorem truncZ_move (I : SimpleInterval) (μ σ c : ℝ) : Leaf.truncZ (I.shift c) (μ + c) σ = Leaf.truncZ I μ σ := by
  simp only [Leaf.truncZ, SimpleInterval.shift, gaussCdf_move]

theorem truncCdf_move (I : SimpleInterval) (μ σ c : ℝ) (x : EReal) :
    Leaf.truncCdf (I.shift c) (μ + c) σ (x + c) = Leaf.truncCdf I μ σ x := by
  unfold Leaf.truncCdf
  rw [truncZ_move, gaussCdf_move]
  have h1 : Leaf.gaussCdf (μ + c) σ (I.shift c).lower = Leaf.gaussCdf μ σ I.lower := gaussCdf_move μ σ c I.lower
  have h2 : SimpleInterval.leftOK (I.shift c).left (I.shift c).lower (x + c) ↔ SimpleInterval.leftOK I.left I.lower x := by
    simp only [SimpleInterval.shift, SimpleInterval.leftOK]
    cases I.left with
    | closed => exact ereal_add_cancel_le c
    | opn =>
      show I.lower + c < x + c ↔ I.lower < x
      rw [← not_le, ← not_le, ereal_add_cancel_le]
  rw [h1]
  simp only [h2]

theorem moveInterval_mem {i : SimpleInterval} {c x : ℝ} : (moveInterval c i).Mem (x + c) ↔ i.Mem x := shift_mem

theorem moveSet_mem {I : List SimpleInterval} {c x : ℝ} : (moveSet c (.interval I)).Mem (x + c) ↔ (VSet.interval I).Mem x := by
  simp only [moveSet, VSet.Mem, List.mem_map]
  constructor
  · rintro ⟨_, ⟨i, hi, rfl⟩, h⟩; exact ⟨i, hi, moveInterval_mem.1 h⟩
  · rintro ⟨i, hi, h⟩; exact ⟨_, ⟨i, hi, rfl⟩, moveInterval_mem.2 h⟩

theorem cdfSum_move {F F' : EReal → ℝ} {c : ℝ} (h : ∀ x, F' (x + c) = F x) (I : List SimpleInterval) :
    Leaf.cdfSum F' (I.map (moveInterval c)) = Leaf.cdfSum F I := by
  simp only [Leaf.cdfSum, List.map_map]
  congr 1
  apply List.map_congr_left
  intro i _
  simp only [Function.comp, moveInterval, h]

/-- The probability of the moved set. -/
theorem prob_moved (d : Leaf) {c : ℝ} (hint : ∀ v probs, d = .integer v probs → ∃ k : ℤ, c = k) (A : VSet) :
    (d.moved c).prob (moveSet c A) = d.prob A := by
  rcases A with I | S
  swap
  · cases d <;> rfl
  cases d with
  | uniform v lo hi l r => simp only [Leaf.moved, moveSet, Leaf.prob, cdfSum_move (uniformCdf_move lo hi c)]
  | dirac v loc cap =>
    have := moveSet_mem (I := I) (c := c) (x := loc)
    show Leaf.prob (.dirac v (loc + c) cap) (.interval (I.map (moveInterval c))) = _
    simp only [Leaf.prob]
    have h2 : (VSet.interval (I.map (moveInterval c))).Mem (loc + c) ↔ (VSet.interval I).Mem loc := this
    simp only [h2]
  | symbolic v probs => rfl
  | integer v probs =>
    obtain ⟨k, rfl⟩ := hint v probs rfl
    simp only [Leaf.moved]
    show Leaf.prob _ (.interval (I.map (moveInterval k))) = _
    simp only [Leaf.prob, List.map_map]
    congr 2
    apply List.map_congr_left
    intro kp _
    have h2 : (VSet.interval (I.map (moveInterval k))).Mem ((kp.1 : ℝ) + k) ↔ (VSet.interval I).Mem kp.1 := moveSet_mem
    simp only [Function.comp, Int.floor_intCast, Int.cast_add, h2]
  | gaussian v μ σ => simp only [Leaf.moved, moveSet, Leaf.prob, cdfSum_move (gaussCdf_move μ σ c)]
  | truncGaussian v J μ σ => simp only [Leaf.moved, moveSet, Leaf.prob, cdfSum_move (truncCdf_move J μ σ c)]

theorem stdBound_move (μ σ c : ℝ) (x : EReal) : Leaf.stdBound (μ + c) σ (x + c) = Leaf.stdBound μ σ x := by
  unfold Leaf.stdBound
  induction x with
  | bot => simp
  | top => simp
  | coe x =>
    rw [← EReal.coe_add]
    simp only [EReal.coe_ne_bot, EReal.coe_ne_top, if_false, EReal.toReal_coe]
    congr 2
    ring

/-- Moments around a moved center. -/
theorem moment_moved {d : Leaf} (hv : d.Valid) {c : ℝ} (hint : ∀ v probs, d = .integer v probs → ∃ k : ℤ, c = k) (k : ℕ) (a : ℝ) :
    (d.moved c).moment k (a + c) = d.moment k a := by
  cases d with
  | uniform v lo hi l r =>
    simp only [Leaf.moved, Leaf.moment, Leaf.uniformMoment, Leaf.uniformPdf]
    congr 1
    rw [show hi + c - (lo + c) = hi - lo by ring, show hi + c - (a + c) = hi - a by ring, show lo + c - (a + c) = lo - a by ring]
  | dirac v loc cap =>
    simp only [Leaf.moved, Leaf.moment, Leaf.diracMoment]
    rw [show loc + c - (a + c) = loc - a by ring]
  | symbolic v probs => rfl
  | integer v probs =>
    obtain ⟨j, rfl⟩ := hint v probs rfl
    simp only [Leaf.moved, Leaf.moment, Leaf.integerMoment, List.map_map]
    congr 2
    apply List.map_congr_left
    intro kp _
    simp only [Function.comp, Int.floor_intCast, Int.cast_add]
    rw [show (kp.1 : ℝ) + j - (a + j) = kp.1 - a by ring]
  | gaussian v μ σ =>
    simp only [Leaf.moved, Leaf.moment]
    rw [gaussMoment_eq _ hv, gaussMoment_eq _ hv, ← gaussianReal_map_add_const]
    rw [integral_map (by fun_prop) (by fun_prop)]
    congr 2
    funext x
    ring
  | truncGaussian v I μ σ =>
    simp only [Leaf.moved, Leaf.moment, Leaf.truncMoment, truncZ_move]
    have h1 : Leaf.stdBound (μ + c) σ (I.shift c).lower = Leaf.stdBound μ σ I.lower := stdBound_move μ σ c I.lower
    have h2 : Leaf.stdBound (μ + c) σ (I.shift c).upper = Leaf.stdBound μ σ I.upper := stdBound_move μ σ c I.upper
    rw [h1, h2, show a + c - (μ + c) = a - μ by ring]

/-- The first moment around another center. -/
theorem first_moment {d : Leaf} (hv : d.Valid) (hn : d.Normalized) (hs : ∀ v p, d ≠ .symbolic v p) (c : ℝ) :
    ∃ x, d.moment 1 0 = .ok x ∧ d.moment 1 c = .ok (x - c) := by
  obtain ⟨i1, h1⟩ := leaf_moment hv hs 1 0 fun _ _ _ _ => .inl le_rfl
  obtain ⟨i2, h2⟩ := leaf_moment hv hs 1 c fun _ _ _ _ => .inl le_rfl
  refine ⟨_, h1, h2.trans ?_⟩
  have : IsProbabilityMeasure (leafLaw d) := ⟨leafLaw_univ hv hn⟩
  simp only [pow_one, sub_zero] at i1 ⊢
  rw [integral_sub i1 (integrable_const c)]
  simp

theorem leaf_moment_ok {d : Leaf} (hs : ∀ v p, d ≠ .symbolic v p) (k : ℕ) (a : ℝ) : ∃ x, d.moment k a = .ok x := by
  cases d with
  | symbolic v p => exact absurd rfl (hs v p)
  | _ => exact ⟨_, rfl⟩

/-- The leaf after `scale` by `s`, for uniform and integer leaves. -/
noncomputable def Leaf.stretched (s : ℝ) : Leaf → Leaf
  | .uniform v lo hi l r => .uniform v (lo * s) (hi * s) l r
  | .integer v probs => .integer v (probs.map fun kp => (kp.1 * ⌊s⌋, kp.2))
  | d => d

theorem Leaf.stretched_var (d : Leaf) (s : ℝ) : (d.stretched s).var = d.var := by cases d <;> rfl

theorem leaf_stretched {d : Leaf} (hv : d.Valid) {t : Var → Option ℝ} {s : ℝ} (ht : t d.var = some s)
    (h : (∃ v lo hi l r, d = .uniform v lo hi l r ∧ 0 < s) ∨ (∃ (v : Var) (probs : List (ℤ × ℝ)) (k : ℤ), d = .integer v probs ∧ s = k ∧ k ≠ 0)) :
    d.rescale t = .ok (d.stretched s) := by
  have hr : readEntry t d.var = .ok s := by simp [readEntry, ht]
  rcases h with ⟨v, lo, hi, l, r, rfl, hs⟩ | ⟨v, probs, k, rfl, rfl, hk⟩
  · have hr : readEntry t v = .ok s := hr
    simp only [Leaf.rescale, hr, bind, Except.bind, Leaf.stretched]
  · have hr : readEntry t v = .ok (k : ℝ) := hr
    have hinj : Function.Injective fun j : ℤ => j * ⌊(k : ℝ)⌋ := by
      rw [Int.floor_intCast]; exact mul_left_injective₀ hk
    by_cases hp : probs = []
    · simp only [Leaf.rescale, if_pos hp, Leaf.stretched]; rw [hp]; rfl
    · simp only [Leaf.rescale, if_neg hp, hr, bind, Except.bind, Leaf.stretched]
      rw [foldl_set_map hv.2 hinj]

/-- Moments of scaled leaves. -/
theorem moment_stretched {d : Leaf} (hv : d.Valid) {s : ℝ}
    (h : (∃ v lo hi l r, d = .uniform v lo hi l r ∧ 0 < s) ∨ (∃ (v : Var) (probs : List (ℤ × ℝ)) (k : ℤ), d = .integer v probs ∧ s = k ∧ k ≠ 0))
    {k : ℕ} {a x : ℝ} (hx : d.moment k a = .ok x) : (d.stretched s).moment k (a * s) = .ok (s ^ k * x) := by
  rcases h with ⟨v, lo, hi, l, r, rfl, hs⟩ | ⟨v, probs, j, rfl, rfl, hj⟩
  · have hlt : lo < hi := hv
    simp only [Leaf.moment, Except.ok.injEq] at hx
    subst hx
    simp only [Leaf.stretched, Leaf.moment, Leaf.uniformMoment, Leaf.uniformPdf]
    congr 1
    rw [show hi * s - lo * s = (hi - lo) * s by ring, show hi * s - a * s = (hi - a) * s by ring,
      show lo * s - a * s = (lo - a) * s by ring, Real.exp_neg, Real.exp_neg, Real.exp_log (mul_pos (sub_pos.2 hlt) hs),
      Real.exp_log (sub_pos.2 hlt), mul_pow, mul_pow]
    have : hi - lo ≠ 0 := (sub_pos.2 hlt).ne'
    field_simp
    ring
  · simp only [Leaf.moment, Except.ok.injEq] at hx
    subst hx
    simp only [Leaf.stretched, Leaf.moment, Leaf.integerMoment, List.map_map, Int.floor_intCast]
    congr 1
    rw [← List.sum_map_mul_left]
    congr 1
    apply List.map_congr_left
    intro kp _
    simp only [Function.comp, Int.cast_mul]
    rw [show (kp.1 : ℝ) * j - a * j = (kp.1 - a) * j by ring, mul_pow]
    ring

end PM
