import Verif.Dist.Conditional
import Verif.Dist.LawLemmas
import Mathlib.Probability.ConditionalProbability

/-! Lemmas about intersections, supports and conditional leaf distributions. -/

namespace PM

open MeasureTheory Set ProbabilityTheory Spec

namespace SimpleInterval

theorem leftOK_inter (l₁ l₂ : Bound) (a b x : EReal) :
    leftOK (if a = b then meetBound l₁ l₂ else if a < b then l₂ else l₁) (max a b) x ↔ leftOK l₁ a x ∧ leftOK l₂ b x := by
  rcases lt_trichotomy a b with h | h | h
  · rw [if_neg h.ne, if_pos h, max_eq_right h.le]
    refine ⟨fun hx => ⟨?_, hx⟩, fun hx => hx.2⟩
    have hb : b ≤ x := by cases l₂ with
      | opn => exact le_of_lt hx
      | closed => exact hx
    cases l₁ with
    | opn => exact h.trans_le hb
    | closed => exact h.le.trans hb
  · subst h
    rw [if_pos rfl, max_self]
    cases l₁ <;> cases l₂ <;> simp only [meetBound, leftOK] <;>
      (constructor <;> intro hx <;> simp_all)
    all_goals exact hx.le
  · rw [if_neg h.ne', if_neg h.not_gt, max_eq_left h.le]
    refine ⟨fun hx => ⟨hx, ?_⟩, fun hx => hx.1⟩
    have ha : a ≤ x := by cases l₁ with
      | opn => exact le_of_lt hx
      | closed => exact hx
    cases l₂ with
    | opn => exact h.trans_le ha
    | closed => exact h.le.trans ha

theorem rightOK_inter (l₁ l₂ : Bound) (a b x : EReal) :
    rightOK (if a = b then meetBound l₁ l₂ else if a < b then l₁ else l₂) (min a b) x ↔
      rightOK l₁ a x ∧ rightOK l₂ b x := by
  rcases lt_trichotomy a b with h | h | h
  · rw [if_neg h.ne, if_pos h, min_eq_left h.le]
    refine ⟨fun hx => ⟨hx, ?_⟩, fun hx => hx.1⟩
    have hb : x ≤ a := by cases l₁ with
      | opn => exact le_of_lt hx
      | closed => exact hx
    cases l₂ with
    | opn => exact hb.trans_lt h
    | closed => exact hb.trans h.le
  · subst h
    rw [if_pos rfl, min_self]
    cases l₁ <;> cases l₂ <;> simp only [meetBound, rightOK] <;>
      (constructor <;> intro hx <;> simp_all)
    all_goals exact hx.le
  · rw [if_neg h.ne', if_neg h.not_gt, min_eq_right h.le]
    refine ⟨fun hx => ⟨?_, hx⟩, fun hx => hx.2⟩
    have ha : x ≤ b := by cases l₂ with
      | opn => exact le_of_lt hx
      | closed => exact hx
    cases l₁ with
    | opn => exact ha.trans_lt h
    | closed => exact ha.trans h.le

theorem mem_inter (I J : SimpleInterval) (x : ℝ) : (I.inter J).Mem x ↔ I.Mem x ∧ J.Mem x := by
  have h1 := leftOK_inter I.left J.left I.lower J.lower x
  have h2 := rightOK_inter I.right J.right I.upper J.upper x
  unfold Mem inter
  constructor
  · rintro ⟨ha, hb⟩
    exact ⟨⟨(h1.1 ha).1, (h2.1 hb).1⟩, ⟨(h1.1 ha).2, (h2.1 hb).2⟩⟩
  · rintro ⟨⟨ha, hb⟩, ⟨hc, hd⟩⟩
    exact ⟨h1.2 ⟨ha, hc⟩, h2.2 ⟨hb, hd⟩⟩

theorem Mem.lower_le {I : SimpleInterval} {x : ℝ} (h : I.Mem x) : I.lower ≤ x := by
  have := h.1
  unfold leftOK at this
  split at this
  · exact this
  · exact this.le

theorem Mem.le_upper {I : SimpleInterval} {x : ℝ} (h : I.Mem x) : (x : EReal) ≤ I.upper := by
  have := h.2
  unfold rightOK at this
  split at this
  · exact this
  · exact this.le

theorem mem_of_between {I : SimpleInterval} {x : ℝ} (h1 : I.lower < x) (h2 : (x : EReal) < I.upper) : I.Mem x := by
  refine ⟨?_, ?_⟩
  · cases h : I.left with
    | opn => exact h1
    | closed => exact h1.le
  · cases h : I.right with
    | opn => exact h2
    | closed => exact h2.le

/-- A non-empty interval that is no singleton has its borders in strict order. -/
theorem lower_lt_upper {I : SimpleInterval} (he : ¬ I.IsEmpty) (hs : ¬ I.IsSingleton) : I.lower < I.upper := by
  refine lt_of_le_of_ne (isEmpty_iff I he) fun h => ?_
  have hb : ¬ (I.left = .opn ∨ I.right = .opn) := fun hb => he (.inr ⟨h, hb⟩)
  push Not at hb
  refine hs ⟨h, ?_, ?_⟩
  · cases hl : I.left with
    | opn => exact absurd hl hb.1
    | closed => rfl
  · cases hl : I.right with
    | opn => exact absurd hl hb.2
    | closed => rfl

theorem lower_le_of_subset {I J : SimpleInterval} (h : I.lower < I.upper) (hs : I.toSet ⊆ J.toSet) :
    J.lower ≤ I.lower := by
  by_contra hc
  have hc := lt_min (not_le.1 hc) h
  obtain ⟨x, hx1, hx2⟩ := EReal.lt_iff_exists_real_btwn.1 hc
  have hx : I.Mem x := mem_of_between hx1 (hx2.trans_le (min_le_right _ _))
  exact absurd (hx2.trans_le (min_le_left _ _)) (not_lt.2 (show J.Mem x from hs hx).lower_le)

theorem upper_le_of_subset {I J : SimpleInterval} (h : I.lower < I.upper) (hs : I.toSet ⊆ J.toSet) :
    I.upper ≤ J.upper := by
  by_contra hc
  have hc := max_lt (not_le.1 hc) h
  obtain ⟨x, hx1, hx2⟩ := EReal.lt_iff_exists_real_btwn.1 hc
  have hx : I.Mem x := mem_of_between ((le_max_right _ _).trans_lt hx1) hx2
  exact absurd ((le_max_left _ _).trans_lt hx1) (not_lt.2 (show J.Mem x from hs hx).le_upper)

/-- With a real border in between, emptiness of an interval is emptiness of its set of points. -/
theorem isEmpty_of_toSet {I : SimpleInterval} (h : I.toSet = ∅) (hl : ∃ a : ℝ, I.lower = a) :
    I.IsEmpty := by
  by_contra he
  obtain ⟨a, ha⟩ := hl
  by_cases hs : I.IsSingleton
  · have : I.Mem a := by
      refine ⟨?_, ?_⟩
      · rw [hs.2.1]; exact ha.le
      · rw [hs.2.2, ← hs.1]; exact ha.ge
    exact absurd (show a ∈ I.toSet from this) (by simp [h])
  · obtain ⟨x, hx1, hx2⟩ := EReal.lt_iff_exists_real_btwn.1 (lower_lt_upper he hs)
    exact absurd (show x ∈ I.toSet from mem_of_between hx1 hx2) (by simp [h])

end SimpleInterval

namespace VSet

/-- Both sets are intervals or both are sets of symbols. -/
def SameType : VSet → VSet → Prop
  | interval _, interval _ => True
  | symbols _, symbols _ => True
  | _, _ => False

theorem mem_inter {A B : VSet} (h : SameType A B) (x : ℝ) : (A.inter B).Mem x ↔ A.Mem x ∧ B.Mem x := by
  cases A with
  | interval I =>
    cases B with
    | interval J =>
      simp only [inter, Mem, List.mem_filter, List.mem_flatMap, List.mem_map, decide_eq_true_eq]
      constructor
      · rintro ⟨k, ⟨⟨i, hi, j, hj, rfl⟩, _⟩, hk⟩
        rw [SimpleInterval.mem_inter] at hk
        exact ⟨⟨i, hi, hk.1⟩, ⟨j, hj, hk.2⟩⟩
      · rintro ⟨⟨i, hi, hix⟩, ⟨j, hj, hjx⟩⟩
        have hk : (i.inter j).Mem x := (SimpleInterval.mem_inter i j x).2 ⟨hix, hjx⟩
        refine ⟨i.inter j, ⟨⟨i, hi, j, hj, rfl⟩, fun he => ?_⟩, hk⟩
        have := SimpleInterval.toSet_of_isEmpty he
        exact absurd (show x ∈ (i.inter j).toSet from hk) (by simp [this])
    | symbols T => exact absurd h id
  | symbols S =>
    cases B with
    | interval J => exact absurd h id
    | symbols T =>
      simp only [inter, Mem, List.mem_filter, decide_eq_true_eq]
      constructor
      · rintro ⟨k, ⟨hk, hk'⟩, rfl⟩
        exact ⟨⟨k, hk, rfl⟩, ⟨k, hk', rfl⟩⟩
      · rintro ⟨⟨k, hk, rfl⟩, ⟨j, hj, he⟩⟩
        have : j = k := by exact_mod_cast he
        subst this
        exact ⟨j, ⟨hk, hj⟩, rfl⟩

theorem toSet_inter {A B : VSet} (h : SameType A B) : (A.inter B).toSet = A.toSet ∩ B.toSet := by
  ext x
  exact mem_inter h x

end VSet

/-! ### Support -/

/-- The uniform, Gaussian and truncated Gaussian leaves. -/
def Leaf.Continuous : Leaf → Prop
  | .uniform .. | .gaussian .. | .truncGaussian .. => True
  | _ => False

theorem leafDensity_eq_zero {d : Leaf} {x : ℝ} (hd : d.Valid) (h : x ∉ d.support.toSet) : leafDensity d x = 0 := by
  cases d with
  | uniform v lo hi l r =>
    simp only [leafDensity]
    rw [if_neg]
    exact fun hx => h ⟨_, List.mem_singleton.2 rfl, hx⟩
  | dirac v loc cap =>
    simp only [leafDensity]
    rw [if_neg]
    rintro rfl
    exact h ⟨_, List.mem_singleton.2 rfl, le_rfl, le_rfl⟩
  | symbolic v probs =>
    simp only [leafDensity]
    have h0 : ∀ kp ∈ probs.filter (fun kp => (kp.1 : ℝ) = x), kp.2 = 0 := by
      intro kp hkp
      obtain ⟨h1, h2⟩ := List.mem_filter.1 hkp
      by_contra hne
      have hpos : 0 < kp.2 := lt_of_le_of_ne (hd.1 kp h1) (Ne.symm hne)
      exact h ⟨kp.1, List.mem_map.2 ⟨kp, List.mem_filter.2 ⟨h1, by simpa using hpos⟩, rfl⟩, by simpa using h2⟩
    exact List.sum_eq_zero (by intro y hy; obtain ⟨kp, hkp, rfl⟩ := List.mem_map.1 hy; exact h0 kp hkp)
  | integer v probs =>
    simp only [leafDensity]
    have h0 : ∀ kp ∈ probs.filter (fun kp => (kp.1 : ℝ) = x), kp.2 = 0 := by
      intro kp hkp
      obtain ⟨h1, h2⟩ := List.mem_filter.1 hkp
      by_contra hne
      have hpos : 0 < kp.2 := lt_of_le_of_ne (hd.1 kp h1) (Ne.symm hne)
      have h2 : (kp.1 : ℝ) = x := by simpa using h2
      refine h ⟨_, List.mem_map.2 ⟨kp, List.mem_filter.2 ⟨h1, by simpa using hpos⟩, rfl⟩, ?_⟩
      subst h2
      exact ⟨le_rfl, le_rfl⟩
    exact List.sum_eq_zero (by intro y hy; obtain ⟨kp, hkp, rfl⟩ := List.mem_map.1 hy; exact h0 kp hkp)
  | gaussian v μ σ =>
    exact absurd ⟨_, List.mem_singleton.2 rfl, EReal.bot_lt_coe x, EReal.coe_lt_top x⟩ h
  | truncGaussian v I μ σ =>
    simp only [leafDensity]
    rw [if_neg]
    exact fun hx => h ⟨_, List.mem_singleton.2 rfl, hx⟩

theorem leafDensity_pos {d : Leaf} {x : ℝ} (hd : d.Valid) (h : x ∈ d.support.toSet) : 0 < leafDensity d x := by
  cases d with
  | uniform v lo hi l r =>
    obtain ⟨i, hi', hx⟩ := h
    rw [List.mem_singleton.1 hi'] at hx
    simp only [leafDensity]
    rw [if_pos hx]
    exact one_div_pos.2 (sub_pos.2 hd)
  | dirac v loc cap =>
    obtain ⟨i, hi', hx⟩ := h
    rw [List.mem_singleton.1 hi'] at hx
    have : x = loc := le_antisymm (EReal.coe_le_coe_iff.1 hx.le_upper) (EReal.coe_le_coe_iff.1 hx.lower_le)
    simp only [leafDensity, this, if_true]
    exact hd
  | symbolic v probs =>
    obtain ⟨k, hk, rfl⟩ := h
    obtain ⟨kp, hkp, rfl⟩ := List.mem_map.1 hk
    obtain ⟨h1, h2⟩ := List.mem_filter.1 hkp
    have hpos : 0 < kp.2 := by simpa using h2
    refine lt_of_lt_of_le hpos ?_
    refine List.single_le_sum ?_ _ (List.mem_map.2 ⟨kp, List.mem_filter.2 ⟨h1, by simp⟩, rfl⟩)
    intro y hy
    obtain ⟨q, hq, rfl⟩ := List.mem_map.1 hy
    exact hd.1 q (List.mem_of_mem_filter hq)
  | integer v probs =>
    obtain ⟨i, hi', hx⟩ := h
    obtain ⟨kp, hkp, rfl⟩ := List.mem_map.1 hi'
    obtain ⟨h1, h2⟩ := List.mem_filter.1 hkp
    have hxe : (kp.1 : ℝ) = x := le_antisymm (EReal.coe_le_coe_iff.1 hx.lower_le) (EReal.coe_le_coe_iff.1 hx.le_upper)
    have hpos : 0 < kp.2 := by simpa using h2
    refine lt_of_lt_of_le hpos ?_
    refine List.single_le_sum ?_ _ (List.mem_map.2 ⟨kp, List.mem_filter.2 ⟨h1, by simpa using hxe⟩, rfl⟩)
    intro y hy
    obtain ⟨q, hq, rfl⟩ := List.mem_map.1 hy
    exact hd.1 q (List.mem_of_mem_filter hq)
  | gaussian v μ σ => exact gaussianPDFReal_pos _ _ _ (toNNReal_sq_ne hd)
  | truncGaussian v I μ σ =>
    obtain ⟨i, hi', hx⟩ := h
    rw [List.mem_singleton.1 hi'] at hx
    simp only [leafDensity]
    rw [if_pos hx]
    exact div_pos (gaussianPDFReal_pos _ _ _ (toNNReal_sq_ne hd.1)) (gauss_toSet_pos hd.2 μ hd.1)

/-! ### Conditioning on a simple interval -/

theorem single_disjoint {K : SimpleInterval} (h : K.lower < K.upper) : (VSet.interval [K]).Disjoint := by
  refine ⟨by simp, ?_⟩
  intro i hi
  rw [List.mem_singleton.1 hi]
  rintro (h' | h')
  · exact absurd h (not_lt.2 h'.le)
  · exact h.ne h'.1

theorem single_toSet (K : SimpleInterval) : (VSet.interval [K]).toSet = K.toSet := by
  ext x
  simp [VSet.toSet, VSet.Mem, SimpleInterval.toSet]

/-- Conditioning on a proper interval inside the support: the density is cut off and divided by the probability. -/
theorem condSimple_density {d : Leaf} (hd : d.Valid) (hc : d.Continuous) {K : SimpleInterval} (hK : K.lower < K.upper)
    (hsub : K.toSet ⊆ d.support.toSet) :
    ∃ d' lp, d.condSimple K = .ok (d', lp) ∧ d'.Valid ∧ d'.Continuous ∧ d'.var = d.var ∧
      lp.exp = (leafLaw d).real K.toSet ∧ 0 < (leafLaw d).real K.toSet ∧ d'.support = .interval [K] ∧
      ∀ x, leafDensity d' x = K.toSet.indicator (fun x => leafDensity d x / (leafLaw d).real K.toSet) x := by
  have hns : ¬ K.IsSingleton := fun h => hK.ne h.1
  have hprob : ∀ A, Fits d A → A.Disjoint → d.prob A = .ok ((leafLaw d).real A.toSet) := fun A h1 h2 => leaf_prob_eq hd h1 h2
  cases d with
  | uniform v lo hi l r =>
    have hlt : lo < hi := hd
    have hs : K.toSet ⊆ (SimpleInterval.mk lo hi l r).toSet := by rw [← single_toSet (SimpleInterval.mk lo hi l r)]; exact hsub
    have h1 : (lo : EReal) ≤ K.lower := SimpleInterval.lower_le_of_subset hK hs
    have h2 : K.upper ≤ (hi : EReal) := SimpleInterval.upper_le_of_subset hK hs
    obtain ⟨kl, ku, kb, kr⟩ := K
    simp only at hK h1 h2
    have hl1 : kl ≠ ⊥ := fun h => by rw [h] at h1; exact absurd (le_bot_iff.1 h1) (EReal.coe_ne_bot lo)
    have hl2 : kl ≠ ⊤ := hK.ne_top
    have hu1 : ku ≠ ⊥ := hK.ne_bot
    have hu2 : ku ≠ ⊤ := fun h => by rw [h] at h2; exact absurd (top_le_iff.1 h2) (EReal.coe_ne_top hi)
    lift kl to ℝ using ⟨hl2, hl1⟩
    lift ku to ℝ using ⟨hu2, hu1⟩
    have hK' : kl < ku := EReal.coe_lt_coe_iff.1 hK
    have h1' : lo ≤ kl := EReal.coe_le_coe_iff.1 h1
    have h2' : ku ≤ hi := EReal.coe_le_coe_iff.1 h2
    have hp := hprob (.interval [⟨kl, ku, kb, kr⟩]) trivial (single_disjoint hK)
    rw [single_toSet] at hp
    simp only [Leaf.prob] at hp
    injection hp with hp
    have hpos : 0 < hi - lo := sub_pos.2 hlt
    have hval : Leaf.cdfSum (Leaf.uniformCdf lo hi) [⟨kl, ku, kb, kr⟩] = (ku - kl) / (hi - lo) := by
      have hc1 : ∀ t : ℝ, lo ≤ t → t ≤ hi → Leaf.uniformCdf lo hi t = (t - lo) / (hi - lo) := by
        intro t h3 h4
        unfold Leaf.uniformCdf
        rw [if_neg (EReal.coe_ne_bot t), if_neg (EReal.coe_ne_top t), EReal.toReal_coe,
          max_eq_right (div_nonneg (by linarith) hpos.le), min_eq_right]
        rw [div_le_one hpos]; linarith
      simp only [Leaf.cdfSum, List.map_cons, List.map_nil, List.sum_cons, List.sum_nil]
      rw [hc1 ku (by linarith) h2', hc1 kl h1' (by linarith)]
      field_simp
      ring
    have hreal : (leafLaw (.uniform v lo hi l r)).real (SimpleInterval.mk kl ku kb kr).toSet = (ku - kl) / (hi - lo) := by
      rw [← hp, hval]
    have hppos : 0 < (ku - kl) / (hi - lo) := div_pos (by linarith) hpos
    refine ⟨.uniform v kl ku kb kr, LogP.log ((ku - kl) / (hi - lo)), ?_, hK', trivial, rfl, ?_, ?_, rfl, ?_⟩
    · simp only [Leaf.condSimple]
      rw [if_neg hns, hval]
      rfl
    · rw [hreal, LogP.exp_log hppos.le]
    · rw [hreal]; exact hppos
    · intro x
      rw [hreal]
      by_cases hx : (SimpleInterval.mk kl ku kb kr).Mem x
      · have hx' : (SimpleInterval.mk lo hi l r).Mem x := hs hx
        rw [indicator_of_mem (show x ∈ SimpleInterval.toSet _ from hx)]
        simp only [leafDensity]
        rw [if_pos hx, if_pos hx']
        have : ku - kl ≠ 0 := by linarith
        field_simp
      · rw [indicator_of_notMem (show x ∉ SimpleInterval.toSet _ from hx)]
        simp only [leafDensity]
        rw [if_neg hx]
  | gaussian v μ σ =>
    have hp := hprob (.interval [K]) trivial (single_disjoint hK)
    rw [single_toSet] at hp
    simp only [Leaf.prob] at hp
    injection hp with hp
    have hval : Leaf.cdfSum (Leaf.gaussCdf μ σ) [K] = Leaf.gaussCdf μ σ K.upper - Leaf.gaussCdf μ σ K.lower := by
      simp [Leaf.cdfSum]
    have hreal : (leafLaw (.gaussian v μ σ)).real K.toSet = (gaussianReal μ (Real.toNNReal (σ ^ 2))).real K.toSet := by
      rw [gauss_law_eq v μ hd]
    have hpos := gauss_toSet_pos hK μ hd
    refine ⟨.truncGaussian v K μ σ, LogP.log (Leaf.gaussCdf μ σ K.upper - Leaf.gaussCdf μ σ K.lower), ?_, ⟨hd, hK⟩,
      trivial, rfl, ?_, ?_, rfl, ?_⟩
    · simp only [Leaf.condSimple]
      rw [if_neg hns]
    · rw [← hval, hp, LogP.exp_log measureReal_nonneg]
    · rw [hreal]; exact hpos
    · intro x
      rw [hreal]
      by_cases hx : K.Mem x
      · rw [indicator_of_mem (show x ∈ SimpleInterval.toSet _ from hx)]
        simp only [leafDensity]
        rw [if_pos hx]
      · rw [indicator_of_notMem (show x ∉ SimpleInterval.toSet _ from hx)]
        simp only [leafDensity]
        rw [if_neg hx]
  | truncGaussian v J μ σ =>
    obtain ⟨hσ, hJ⟩ := hd
    have hs : K.toSet ⊆ J.toSet := by rw [← single_toSet J]; exact hsub
    have hp := hprob (.interval [K]) trivial (single_disjoint hK)
    rw [single_toSet] at hp
    simp only [Leaf.prob] at hp
    injection hp with hp
    have hval : Leaf.cdfSum (Leaf.truncCdf J μ σ) [K] = Leaf.truncCdf J μ σ K.upper - Leaf.truncCdf J μ σ K.lower := by
      simp [Leaf.cdfSum]
    have hposK := gauss_toSet_pos hK μ hσ
    have hposJ := gauss_toSet_pos hJ μ hσ
    have hreal : (leafLaw (.truncGaussian v J μ σ)).real K.toSet = (gaussianReal μ (Real.toNNReal (σ ^ 2))).real K.toSet
        / (gaussianReal μ (Real.toNNReal (σ ^ 2))).real J.toSet := by
      rw [trunc_law_eq v μ hσ hJ, measureReal_def, Measure.smul_apply, Measure.restrict_apply K.measurableSet_toSet,
        inter_eq_left.2 hs, smul_eq_mul, ENNReal.toReal_mul, ENNReal.toReal_ofReal (by positivity)]
      simp only [measureReal_def]
      ring
    refine ⟨.truncGaussian v K μ σ, LogP.log (Leaf.truncCdf J μ σ K.upper - Leaf.truncCdf J μ σ K.lower), ?_, ⟨hσ, hK⟩,
      trivial, rfl, ?_, ?_, rfl, ?_⟩
    · simp only [Leaf.condSimple]
      rw [if_neg hns]
    · rw [← hval, hp, LogP.exp_log measureReal_nonneg]
    · rw [hreal]; positivity
    · intro x
      rw [hreal]
      by_cases hx : K.Mem x
      · have hx' : J.Mem x := hs hx
        rw [indicator_of_mem (show x ∈ SimpleInterval.toSet _ from hx)]
        simp only [leafDensity]
        rw [if_pos hx, if_pos hx']
        field_simp
      · rw [indicator_of_notMem (show x ∉ SimpleInterval.toSet _ from hx)]
        simp only [leafDensity]
        rw [if_neg hx]
  | dirac v loc cap => exact absurd hc id
  | symbolic v probs => exact absurd hc id
  | integer v probs => exact absurd hc id

theorem continuous_law {d : Leaf} (hc : d.Continuous) :
    leafLaw d = volume.withDensity fun x => ENNReal.ofReal (leafDensity d x) := by
  cases d with
  | uniform v lo hi l r => rfl
  | gaussian v μ σ => rfl
  | truncGaussian v J μ σ => rfl
  | dirac v loc cap => exact absurd hc id
  | symbolic v probs => exact absurd hc id
  | integer v probs => exact absurd hc id

/-- Cutting off a density and dividing by the mass is conditioning. -/
theorem law_cond_of_density {d d' : Leaf} (hd : d.Valid) (hc : d.Continuous) (hc' : d'.Continuous) {S : Set ℝ}
    (hS : MeasurableSet S) (hpos : 0 < (leafLaw d).real S)
    (h : ∀ x, leafDensity d' x = S.indicator (fun x => leafDensity d x / (leafLaw d).real S) x) :
    leafLaw d' = (leafLaw d)[|S] := by
  have hfin := finite_leafLaw hd
  have e : (fun x => ENNReal.ofReal (leafDensity d' x))
      = S.indicator ((leafLaw d S)⁻¹ • fun x => ENNReal.ofReal (leafDensity d x)) := by
    funext x
    rw [h]
    by_cases hx : x ∈ S
    · rw [indicator_of_mem hx, indicator_of_mem hx, Pi.smul_apply, smul_eq_mul, div_eq_inv_mul,
        ENNReal.ofReal_mul (by positivity), ENNReal.ofReal_inv_of_pos hpos, measureReal_def,
        ENNReal.ofReal_toReal (measure_ne_top _ _)]
    · rw [indicator_of_notMem hx, indicator_of_notMem hx, ENNReal.ofReal_zero]
  rw [continuous_law hc', e, withDensity_indicator hS, withDensity_smul _ (measurable_leafDensity d).ennreal_ofReal,
    ProbabilityTheory.cond, ← restrict_withDensity hS, ← continuous_law hc]

end PM
