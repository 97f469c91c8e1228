import Verif.Dist.DiscreteLemmas

/-!
# C28, C31, C51: leaf distributions, their probabilities and conditionals
-/

namespace PM.Props

open Classical MeasureTheory ProbabilityTheory Spec Leaf

/-! ### C28: uniform distributions -/

/-- **C28.** The cdf is monotone, lies in `[0,1]`, is `0` up to the lower and `1` from the upper border on, and linear
in between. -/
theorem C28_cdf {lo hi : ℝ} (h : lo < hi) :
    (∀ x y : EReal, x ≤ y → uniformCdf lo hi x ≤ uniformCdf lo hi y) ∧
    (∀ x, 0 ≤ uniformCdf lo hi x ∧ uniformCdf lo hi x ≤ 1) ∧
    (∀ x : EReal, x ≤ lo → uniformCdf lo hi x = 0) ∧ (∀ x : EReal, (hi : EReal) ≤ x → uniformCdf lo hi x = 1) ∧
    (∀ x : ℝ, lo ≤ x → x ≤ hi → uniformCdf lo hi x * (hi - lo) = x - lo) := by
  have hpos : 0 < hi - lo := sub_pos.2 h
  have hval : (Leaf.uniform 0 lo hi .closed .closed).Valid := h
  have hfin := finite_leafLaw hval
  refine ⟨?_, ?_, ?_, ?_, ?_⟩
  · intro x y hxy
    rw [uniformCdf_eq 0 h .closed .closed, uniformCdf_eq 0 h .closed .closed]
    exact measF_mono _ hxy
  · intro x
    unfold uniformCdf
    split
    · exact ⟨le_rfl, zero_le_one⟩
    · split
      · exact ⟨zero_le_one, le_rfl⟩
      · exact ⟨le_min zero_le_one (le_max_left _ _), min_le_left _ _⟩
  · intro x hx
    unfold uniformCdf
    induction x with
    | bot => simp
    | top => exact absurd (top_le_iff.1 hx) (EReal.coe_ne_top lo)
    | coe x =>
      have hx : x ≤ lo := EReal.coe_le_coe_iff.1 hx
      rw [if_neg (EReal.coe_ne_bot x), if_neg (EReal.coe_ne_top x), EReal.toReal_coe,
        max_eq_left (div_nonpos_of_nonpos_of_nonneg (by linarith) hpos.le)]
      simp
  · intro x hx
    unfold uniformCdf
    induction x with
    | bot => exact absurd (le_bot_iff.1 hx) (EReal.coe_ne_bot hi)
    | top => simp
    | coe x =>
      have hx : hi ≤ x := EReal.coe_le_coe_iff.1 hx
      rw [if_neg (EReal.coe_ne_bot x), if_neg (EReal.coe_ne_top x), EReal.toReal_coe, min_eq_left]
      exact le_max_of_le_right ((one_le_div hpos).2 (by linarith))
  · intro x h1 h2
    unfold uniformCdf
    rw [if_neg (EReal.coe_ne_bot x), if_neg (EReal.coe_ne_top x), EReal.toReal_coe,
      max_eq_right (div_nonneg (by linarith) hpos.le), min_eq_right ((div_le_one hpos).2 (by linarith))]
    field_simp

/-- **C28.** The probability of a union of disjoint intervals is its share of the length. -/
theorem C28_probability (v : Var) {lo hi : ℝ} (h : lo < hi) (l r : Bound) {I : List SimpleInterval}
    (hI : (VSet.interval I).Disjoint) :
    (Leaf.uniform v lo hi l r).prob (.interval I)
      = .ok (volume.real ((VSet.interval I).toSet ∩ Set.Icc lo hi) / (hi - lo)) := by
  have hpos : 0 < hi - lo := sub_pos.2 h
  have hval : (Leaf.uniform v lo hi l r).Valid := h
  have hfit : Fits (Leaf.uniform v lo hi l r) (.interval I) := trivial
  rw [leaf_prob_eq hval hfit hI, uniform_law_eq v h, measureReal_def, Measure.smul_apply,
    Measure.restrict_apply (VSet.measurableSet_toSet _), smul_eq_mul, ENNReal.toReal_mul,
    ENNReal.toReal_ofReal (by positivity), measureReal_def]
  congr 1
  have : volume ((VSet.interval I).toSet ∩ Set.Ioc lo hi) = volume ((VSet.interval I).toSet ∩ Set.Icc lo hi) :=
    measure_congr ((ae_eq_refl _).inter Ioc_ae_eq_Icc)
  rw [this]
  ring

/-- Infinite borders are open (the normal form of `random_events`). -/
def ProperBorders (J : SimpleInterval) : Prop := (J.lower = ⊥ → J.left = .opn) ∧ (J.upper = ⊤ → J.right = .opn)

theorem support_single {d : Leaf} (hc : d.Continuous) : ∃ s : SimpleInterval, d.support = .interval [s] := by
  cases d with
  | uniform v lo hi l r => exact ⟨_, rfl⟩
  | gaussian v μ σ => exact ⟨_, rfl⟩
  | truncGaussian v J μ σ => exact ⟨_, rfl⟩
  | dirac v loc cap => exact absurd hc id
  | symbolic v probs => exact absurd hc id
  | integer v probs => exact absurd hc id

theorem support_lt {d : Leaf} (hd : d.Valid) (hc : d.Continuous) {s : SimpleInterval} (hs : d.support = .interval [s]) :
    s.lower < s.upper := by
  cases d with
  | uniform v lo hi l r =>
    simp only [support, VSet.interval.injEq, List.cons.injEq, and_true] at hs
    subst hs; exact EReal.coe_lt_coe_iff.2 hd
  | gaussian v μ σ =>
    simp only [support, VSet.interval.injEq, List.cons.injEq, and_true] at hs
    subst hs; exact bot_lt_top
  | truncGaussian v J μ σ =>
    simp only [support, VSet.interval.injEq, List.cons.injEq, and_true] at hs
    subst hs; exact hd.2
  | dirac v loc cap => exact absurd hc id
  | symbolic v probs => exact absurd hc id
  | integer v probs => exact absurd hc id

theorem logConditional_single {d : Leaf} (hc : d.Continuous) {s : SimpleInterval} (hs : d.support = .interval [s])
    (J : SimpleInterval) :
    d.logConditional (.interval [J]) = if (J.inter s).IsEmpty then .ok (none, .negInf)
      else (d.condSimple (J.inter s)).map fun r => (some r.1, r.2) := by
  have key : d.logConditional (.interval [J]) = match (VSet.interval [J]).inter d.support with
    | .interval [] => .ok (none, .negInf)
    | .interval [K] => (d.condSimple K).map fun r => (some r.1, r.2)
    | _ => .error .notImplementedError := by
    cases d with
    | uniform v lo hi l r => rfl
    | gaussian v μ σ => rfl
    | truncGaussian v J μ σ => rfl
    | dirac v loc cap => exact absurd hc id
    | symbolic v probs => exact absurd hc id
    | integer v probs => exact absurd hc id
  rw [key, hs]
  simp only [VSet.inter, List.flatMap_cons, List.flatMap_nil, List.map_cons, List.map_nil, List.append_nil]
  by_cases he : (J.inter s).IsEmpty
  · rw [List.filter_cons_of_neg (by simpa using he), if_pos he]
    rfl
  · rw [List.filter_cons_of_pos (by simpa using he), if_neg he]
    rfl

/-- The mass of a continuous leaf lies in its support. -/
theorem law_inter_support {d : Leaf} (hd : d.Valid) (hc : d.Continuous) {S : Set ℝ} (hS : MeasurableSet S) :
    leafLaw d (S ∩ d.support.toSet) = leafLaw d S := by
  rw [continuous_law hc, withDensity_apply _ hS, withDensity_apply _ (hS.inter (VSet.measurableSet_toSet _)),
    ← lintegral_indicator hS, ← lintegral_indicator (hS.inter (VSet.measurableSet_toSet _))]
  congr 1
  funext x
  by_cases h : x ∈ d.support.toSet
  · by_cases hx : x ∈ S
    · rw [Set.indicator_of_mem hx, Set.indicator_of_mem (show x ∈ S ∩ d.support.toSet from ⟨hx, h⟩)]
    · rw [Set.indicator_of_notMem hx, Set.indicator_of_notMem (fun h' => hx h'.1)]
  · rw [Set.indicator_of_notMem (fun h' => h h'.2)]
    by_cases hx : x ∈ S
    · rw [Set.indicator_of_mem hx, leafDensity_eq_zero hd h, ENNReal.ofReal_zero]
    · rw [Set.indicator_of_notMem hx]

theorem cond_inter_support {d : Leaf} (hd : d.Valid) (hc : d.Continuous) {S : Set ℝ} (hS : MeasurableSet S) :
    (leafLaw d)[|S ∩ d.support.toSet] = (leafLaw d)[|S] := by
  have h : (leafLaw d).restrict (S ∩ d.support.toSet) = (leafLaw d).restrict S := by
    ext A hA
    rw [Measure.restrict_apply hA, Measure.restrict_apply hA, ← Set.inter_assoc, law_inter_support hd hc (hA.inter hS)]
  simp only [ProbabilityTheory.cond, law_inter_support hd hc hS, h]

/-- **C28/C51.** Conditioning a uniform, Gaussian or truncated Gaussian distribution on an interval that overlaps the
support returns the conditional law and the probability of the interval. -/
theorem C28_conditional_overlap {d : Leaf} (hd : d.Valid) (hc : d.Continuous) {J : SimpleInterval}
    (hov : 0 < volume (J.toSet ∩ d.support.toSet)) :
    ∃ d' lp, d.logConditional (.interval [J]) = .ok (some d', lp) ∧ d'.var = d.var ∧ d'.Valid ∧
      leafLaw d' = (leafLaw d)[|J.toSet] ∧ d.prob (.interval [J]) = .ok lp.exp ∧ 0 < lp.exp ∧
      (∀ x, leafDensity d' x = J.toSet.indicator (fun x => leafDensity d x / lp.exp) x) := by
  obtain ⟨s, hs⟩ := support_single hc
  have hset : d.support.toSet = s.toSet := by rw [hs, single_toSet]
  have hK : (J.inter s).toSet = J.toSet ∩ d.support.toSet := by
    rw [hset]; ext x; exact SimpleInterval.mem_inter J s x
  have hne : ¬ (J.inter s).IsEmpty := fun he => by
    rw [← hK, SimpleInterval.toSet_of_isEmpty he] at hov
    simp at hov
  have hns : ¬ (J.inter s).IsSingleton := fun he => by
    rw [← hK] at hov
    have : volume (J.inter s).toSet = 0 := by
      refine Set.Subsingleton.measure_zero (fun x hx y hy => ?_) _
      have hx : (J.inter s).Mem x := hx
      have hy : (J.inter s).Mem y := hy
      have h1 := hx.le_upper.trans (he.1.ge.trans hy.lower_le)
      have h2 := hy.le_upper.trans (he.1.ge.trans hx.lower_le)
      exact le_antisymm (EReal.coe_le_coe_iff.1 h1) (EReal.coe_le_coe_iff.1 h2)
    rw [this] at hov
    exact lt_irrefl _ hov
  have hlt := SimpleInterval.lower_lt_upper hne hns
  have hsub : (J.inter s).toSet ⊆ d.support.toSet := by rw [hK]; exact Set.inter_subset_right
  obtain ⟨d', lp, h1, h2, h3, h4, h5, h6, h7, h8⟩ := condSimple_density hd hc hlt hsub
  have hJmeas := J.measurableSet_toSet
  have hreal : (leafLaw d).real (J.inter s).toSet = (leafLaw d).real J.toSet := by
    rw [hK, measureReal_def, law_inter_support hd hc hJmeas, ← measureReal_def]
  have hJne : (VSet.interval [J]).Disjoint := by
    refine ⟨by simp, fun i hi => ?_⟩
    rw [List.mem_singleton.1 hi]
    intro he
    rw [SimpleInterval.toSet_of_isEmpty he] at hov
    simp at hov
  refine ⟨d', lp, ?_, h4, h2, ?_, ?_, ?_, ?_⟩
  · rw [logConditional_single hc hs, if_neg hne, h1]
    rfl
  · rw [law_cond_of_density hd hc h3 (J.inter s).measurableSet_toSet h6 h8, hK, cond_inter_support hd hc hJmeas]
  · have hf : Fits d (.interval [J]) := by
      cases d with
      | uniform v lo hi l r => trivial
      | gaussian v μ σ => trivial
      | truncGaussian v J μ σ => trivial
      | dirac v loc cap => exact absurd hc id
      | symbolic v probs => exact absurd hc id
      | integer v probs => exact absurd hc id
    rw [leaf_prob_eq hd hf hJne, single_toSet, h5, hreal]
  · rw [h5]; exact h6
  · intro x
    rw [h8, h5]
    by_cases hx : x ∈ J.toSet
    · by_cases hx' : x ∈ d.support.toSet
      · rw [Set.indicator_of_mem (by rw [hK]; exact ⟨hx, hx'⟩), Set.indicator_of_mem hx]
      · rw [Set.indicator_of_notMem (by rw [hK]; exact fun h => hx' h.2), Set.indicator_of_mem hx,
          leafDensity_eq_zero hd hx', zero_div]
    · rw [Set.indicator_of_notMem (by rw [hK]; exact fun h => hx h.1), Set.indicator_of_notMem hx]

/-- **C28/C51.** If the interval and the support have no point in common, the result is `None` with log probability
`-inf`; and `None` is returned only then. -/
theorem C28_conditional_none {d : Leaf} (hd : d.Valid) (hc : d.Continuous) {J : SimpleInterval} (hJ : ProperBorders J) :
    (J.toSet ∩ d.support.toSet = ∅ ↔ ∃ lp, d.logConditional (.interval [J]) = .ok (none, lp)) ∧
    (J.toSet ∩ d.support.toSet = ∅ → d.logConditional (.interval [J]) = .ok (none, .negInf)) := by
  obtain ⟨s, hs⟩ := support_single hc
  have hset : d.support.toSet = s.toSet := by rw [hs, single_toSet]
  have hK : (J.inter s).toSet = J.toSet ∩ d.support.toSet := by
    rw [hset]; ext x; exact SimpleInterval.mem_inter J s x
  have hslt := support_lt hd hc hs
  have hempty : J.toSet ∩ d.support.toSet = ∅ → (J.inter s).IsEmpty := by
    intro h0
    rw [← hK] at h0
    by_contra he
    by_cases hsg : (J.inter s).IsSingleton
    · obtain ⟨h1, h2, h3⟩ := hsg
      have hlow : (J.inter s).lower = max J.lower s.lower := rfl
      have hupp : (J.inter s).upper = min J.upper s.upper := rfl
      by_cases hb : (J.inter s).lower = ⊥
      · rw [hlow, max_eq_bot] at hb
        have : (J.inter s).left = .opn := by
          have hl := hJ.1 hb.1
          simp only [SimpleInterval.inter, hb.1, hb.2, if_true, hl, SimpleInterval.meetBound]
        rw [this] at h2
        cases h2
      by_cases ht : (J.inter s).lower = ⊤
      · rw [h1, hupp, min_eq_top] at ht
        have : (J.inter s).right = .opn := by
          have hl := hJ.2 ht.1
          simp only [SimpleInterval.inter, ht.1, ht.2, if_true, hl, SimpleInterval.meetBound]
        rw [this] at h3
        cases h3
      · exact he (SimpleInterval.isEmpty_of_toSet h0 ⟨(J.inter s).lower.toReal, (EReal.coe_toReal ht hb).symm⟩)
    · obtain ⟨x, hx1, hx2⟩ := EReal.lt_iff_exists_real_btwn.1 (SimpleInterval.lower_lt_upper he hsg)
      exact absurd (show x ∈ (J.inter s).toSet from SimpleInterval.mem_of_between hx1 hx2) (by simp [h0])
  have h2 : J.toSet ∩ d.support.toSet = ∅ → d.logConditional (.interval [J]) = .ok (none, .negInf) := by
    intro h0
    rw [logConditional_single hc hs, if_pos (hempty h0)]
  refine ⟨⟨fun h0 => ⟨_, h2 h0⟩, ?_⟩, h2⟩
  rintro ⟨lp, h⟩
  rw [logConditional_single hc hs] at h
  split at h
  · rename_i he
    rw [← hK, SimpleInterval.toSet_of_isEmpty he]
  · cases hcs : d.condSimple (J.inter s) with
    | ok r => rw [hcs] at h; simp [Except.map] at h
    | error e => rw [hcs] at h; simp [Except.map] at h

/-- **C28/C51.** If the interval meets the support in a single point, the result is a Dirac distribution there and the
reported log probability is the log density of the point (not its probability, which is `0`). -/
theorem C28_conditional_point {d : Leaf} (hc : d.Continuous) {J : SimpleInterval} {a : ℝ}
    (hJ : J.toSet ∩ d.support.toSet = {a}) :
    d.logConditional (.interval [J]) = .ok (some (.dirac d.var a (d.logLik a).exp), d.logLik a) := by
  obtain ⟨s, hs⟩ := support_single hc
  have hset : d.support.toSet = s.toSet := by rw [hs, single_toSet]
  have hK : (J.inter s).toSet = J.toSet ∩ d.support.toSet := by
    rw [hset]; ext x; exact SimpleInterval.mem_inter J s x
  rw [hJ] at hK
  have hne : ¬ (J.inter s).IsEmpty := fun he => by
    rw [SimpleInterval.toSet_of_isEmpty he] at hK
    exact absurd hK.symm (Set.singleton_ne_empty a)
  have hmem : (J.inter s).Mem a := by
    have : a ∈ (J.inter s).toSet := by rw [hK]; rfl
    exact this
  have hsg : (J.inter s).IsSingleton := by
    by_contra hsg
    have hlt := SimpleInterval.lower_lt_upper hne hsg
    obtain ⟨x, hx1, hx2⟩ := EReal.lt_iff_exists_real_btwn.1 hlt
    obtain ⟨y, hy1, hy2⟩ := EReal.lt_iff_exists_real_btwn.1 hx2
    have h1 : x ∈ (J.inter s).toSet := SimpleInterval.mem_of_between hx1 hx2
    have h2 : y ∈ (J.inter s).toSet := SimpleInterval.mem_of_between (hx1.trans hy1) hy2
    rw [hK] at h1 h2
    have : x = y := h1.trans h2.symm
    subst this
    exact lt_irrefl _ hy1
  have hlow : (J.inter s).lower = a := le_antisymm hmem.lower_le (hmem.le_upper.trans hsg.1.ge)
  rw [logConditional_single hc hs, if_neg hne]
  unfold condSimple
  rw [if_pos hsg, hlow, EReal.toReal_coe]
  rfl

/-- **C28/C51.** A union of intervals of which at least two meet the support is not supported by the distribution itself:
`NotImplementedError` (leaf units of a circuit handle it, see C07). -/
theorem C28_conditional_union {d : Leaf} (hc : d.Continuous) (I₁ I₂ I₃ : List SimpleInterval) (J J' : SimpleInterval)
    (h : (J.toSet ∩ d.support.toSet).Nonempty) (h' : (J'.toSet ∩ d.support.toSet).Nonempty) :
    d.logConditional (.interval (I₁ ++ J :: I₂ ++ J' :: I₃)) = .error .notImplementedError := by
  obtain ⟨s, hs⟩ := support_single hc
  have hset : d.support.toSet = s.toSet := by rw [hs, single_toSet]
  have hne : ∀ J : SimpleInterval, (J.toSet ∩ d.support.toSet).Nonempty → ¬ (J.inter s).IsEmpty := by
    rintro J ⟨x, hx⟩ he
    rw [hset] at hx
    have : x ∈ (J.inter s).toSet := (SimpleInterval.mem_inter J s x).2 hx
    rw [SimpleInterval.toSet_of_isEmpty he] at this
    exact this
  have key : ∀ A, d.logConditional (.interval A) = match (VSet.interval A).inter d.support with
    | .interval [] => .ok (none, .negInf)
    | .interval [K] => (d.condSimple K).map fun r => (some r.1, r.2)
    | _ => .error .notImplementedError := by
    intro A
    cases d with
    | uniform v lo hi l r => rfl
    | gaussian v μ σ => rfl
    | truncGaussian v J μ σ => rfl
    | dirac v loc cap => exact absurd hc id
    | symbolic v probs => exact absurd hc id
    | integer v probs => exact absurd hc id
  obtain ⟨K₁, K₂, L, hL⟩ : ∃ K₁ K₂ L, (VSet.interval (I₁ ++ J :: I₂ ++ J' :: I₃)).inter d.support
      = .interval (K₁ :: K₂ :: L) := by
    rw [hs]
    have hlen : 2 ≤ (((I₁ ++ J :: I₂ ++ J' :: I₃).flatMap fun i => [s].map fun j => i.inter j).filter
        fun k => ¬ k.IsEmpty).length := by
      simp only [List.map_cons, List.map_nil, List.flatMap_append, List.flatMap_cons, List.filter_append,
        List.cons_append, List.nil_append]
      rw [List.filter_cons_of_pos (by simpa using hne J h), List.filter_cons_of_pos (by simpa using hne J' h')]
      simp only [List.length_append, List.length_cons]
      omega
    simp only [VSet.inter]
    generalize (((I₁ ++ J :: I₂ ++ J' :: I₃).flatMap fun i => [s].map fun j => i.inter j).filter
        fun k => ¬ k.IsEmpty) = M at hlen ⊢
    rcases M with _ | ⟨K₁, _ | ⟨K₂, L⟩⟩
    · simp at hlen
    · simp at hlen
    · exact ⟨K₁, K₂, L, rfl⟩
  rw [key, hL]

/-- `[1/2, 3]` overlaps the support `[0, 1]`, `[2, 3]` misses it and `[1, 3]` meets it in one point. -/
example : (Leaf.uniform 0 0 1 .closed .closed).Valid ∧ (Leaf.uniform 0 0 1 .closed .closed).Continuous ∧
    0 < volume ((SimpleInterval.mk ((1 / 2 : ℝ)) (3 : ℝ) .closed .closed).toSet
      ∩ (Leaf.uniform 0 0 1 .closed .closed).support.toSet) ∧
    ProperBorders (SimpleInterval.mk ((1 / 2 : ℝ)) (3 : ℝ) .closed .closed) ∧
    (SimpleInterval.mk ((1 : ℝ)) (3 : ℝ) .closed .closed).toSet
      ∩ (Leaf.uniform 0 0 1 .closed .closed).support.toSet = {1} := by
  have hsupp : (Leaf.uniform 0 0 1 .closed .closed).support.toSet = Set.Icc 0 1 := by
    ext x
    simp [support, VSet.toSet, VSet.Mem, SimpleInterval.Mem, SimpleInterval.leftOK, SimpleInterval.rightOK]
    intro _
    exact_mod_cast Iff.rfl
  have hset : ∀ a b : ℝ, (SimpleInterval.mk a b .closed .closed).toSet = Set.Icc a b := by
    intro a b
    ext x
    simp [SimpleInterval.toSet, SimpleInterval.Mem, SimpleInterval.leftOK, SimpleInterval.rightOK]
  refine ⟨by simp [Leaf.Valid], trivial, ?_, ⟨fun h => absurd h (EReal.coe_ne_bot _), fun h => absurd h (EReal.coe_ne_top _)⟩, ?_⟩
  · rw [hsupp, hset, Set.Icc_inter_Icc, Real.volume_Icc]
    norm_num
  · rw [hsupp, hset, Set.Icc_inter_Icc]
    norm_num

/-! ### C31: discrete distributions -/

/-- **C31.** Conditioning a symbolic or integer distribution on a set of values: if the values in the set have total
probability `0` the result is `None`; otherwise the new dictionary assigns every value in the set its old probability
divided by that total and `0` to all others, and the total is reported as the probability. -/
theorem C31_conditional {d : Leaf} {v : Var} {probs : List (ℤ × ℝ)} {A : VSet}
    (hkind : (d = .symbolic v probs ∧ ∃ S, A = .symbols S) ∨ (d = .integer v probs ∧ ∃ I, A = .interval I))
    (hd : d.Valid) (hA : A.Disjoint) (P : ℝ)
    (hP : P = ((probs.filter fun kp => A.Mem (kp.1 : ℝ)).map Prod.snd).sum) :
    (P = 0 → d.logConditional A = .ok (none, .negInf)) ∧
    (P ≠ 0 → ∃ probs' lp, (d.logConditional A = .ok (some (.symbolic v probs'), lp) ∨
        d.logConditional A = .ok (some (.integer v probs'), lp)) ∧ lp.exp = P ∧
      (∀ k, lookup probs' k = if A.Mem (k : ℝ) then lookup probs k / P else 0) ∧
      (probs'.map Prod.fst).Nodup ∧ (probs'.map Prod.snd).sum = 1 ∧ ∀ kp ∈ probs', 0 ≤ kp.2) ∧
    d.prob A = .ok P := by
  have hvalid : (∀ kp ∈ probs, 0 ≤ kp.2) ∧ (probs.map Prod.fst).Nodup := by
    rcases hkind with ⟨rfl, _⟩ | ⟨rfl, _⟩ <;> exact hd
  obtain ⟨hnn, hnd⟩ := hvalid
  have hPnn : 0 ≤ P := by
    rw [hP]
    apply List.sum_nonneg
    intro x hx
    obtain ⟨q, hq, rfl⟩ := List.mem_map.1 hx
    exact hnn q (List.mem_of_mem_filter hq)
  -- both classes build a list `kept` with total `P`
  have main : ∀ (mk : List (ℤ × ℝ) → Leaf) (kept : List (ℤ × ℝ)), (kept.map Prod.snd).sum = P →
      (∀ k, lookup kept k = if A.Mem (k : ℝ) then lookup probs k else 0) → (kept.map Prod.fst).Nodup →
      (∀ kp ∈ kept, 0 ≤ kp.2) →
      (P = 0 → discreteCond mk kept = (none, .negInf)) ∧
      (P ≠ 0 → ∃ probs' lp, discreteCond mk kept = (some (mk probs'), lp) ∧ lp.exp = P ∧
        (∀ k, lookup probs' k = if A.Mem (k : ℝ) then lookup probs k / P else 0) ∧
        (probs'.map Prod.fst).Nodup ∧ (probs'.map Prod.snd).sum = 1 ∧ ∀ kp ∈ probs', 0 ≤ kp.2) := by
    intro mk kept hsum hlk hkn hknn
    refine ⟨fun h0 => ?_, fun h0 => ?_⟩
    · rw [discreteCond, if_pos (hsum.trans h0)]
    · refine ⟨normalizeProbs kept, LogP.log P, ?_, LogP.exp_log hPnn, ?_, ?_, ?_, ?_⟩
      · rw [discreteCond, if_neg (by rw [hsum]; exact h0), hsum]
      · intro k
        rw [normalizeProbs_lookup, hsum, hlk]
        split <;> simp
      · rw [normalizeProbs_keys]; exact hkn
      · exact normalizeProbs_sum (by rw [hsum]; exact h0)
      · intro kp hkp
        obtain ⟨q, hq, rfl⟩ := List.mem_map.1 hkp
        exact div_nonneg (hknn q hq) (by rw [hsum]; exact hPnn)
  rcases hkind with ⟨rfl, S, rfl⟩ | ⟨rfl, I, rfl⟩
  · have hmemS : ∀ k : ℤ, (VSet.symbols S).Mem (k : ℝ) ↔ k ∈ S := by
      intro k
      simp only [VSet.Mem]
      constructor
      · rintro ⟨j, hj, he⟩
        have : j = k := by exact_mod_cast he
        exact this ▸ hj
      · exact fun h => ⟨k, h, rfl⟩
    have hsumS : (S.map (lookup probs)).sum = P := by
      rw [lookup_sum probs hnd S hA, hP]
      exact (massIn_eq_indicator probs (VSet.symbols S).toSet).symm
    have hkeep := main (symbolic v) ((S.filter fun k => 0 < lookup probs k).map fun k => (k, lookup probs k)) ?_ ?_ ?_ ?_
    · refine ⟨fun h => ?_, fun h => ?_, ?_⟩
      · simp only [logConditional]; rw [hkeep.1 h]
      · obtain ⟨probs', lp, h1, h2⟩ := hkeep.2 h
        exact ⟨probs', lp, .inl (by simp only [logConditional]; rw [h1]), h2⟩
      · simp only [Leaf.prob]; rw [hsumS]
    · rw [List.map_map]
      exact (sum_filter_pos S (lookup probs) (lookup_nonneg hnn)).trans hsumS
    · intro k
      rw [lookup_map_key, hmemS]
      by_cases hk : k ∈ S
      · by_cases hpos : 0 < lookup probs k
        · rw [if_pos (List.mem_filter.2 ⟨hk, by simpa using hpos⟩), if_pos hk]
        · rw [if_neg (fun h => hpos (by simpa using (List.mem_filter.1 h).2)), if_pos hk]
          exact le_antisymm (lookup_nonneg hnn k) (not_lt.1 hpos)
      · rw [if_neg (fun h => hk (List.mem_filter.1 h).1), if_neg hk]
    · rw [List.map_map]
      have : (Prod.fst ∘ fun k => (k, lookup probs k)) = (id : ℤ → ℤ) := rfl
      rw [this, List.map_id]
      exact List.Nodup.filter _ hA
    · intro kp hkp
      obtain ⟨k, _, rfl⟩ := List.mem_map.1 hkp
      exact lookup_nonneg hnn k
  · have hkeep := main (integer v) (probs.filter fun kp => (VSet.interval I).Mem (kp.1 : ℝ)) ?_ ?_ ?_ ?_
    · refine ⟨fun h => ?_, fun h => ?_, ?_⟩
      · simp only [logConditional]; rw [hkeep.1 h]
      · obtain ⟨probs', lp, h1, h2⟩ := hkeep.2 h
        exact ⟨probs', lp, .inr (by simp only [logConditional]; rw [h1]), h2⟩
      · simp only [Leaf.prob]
        rw [hP]
        congr 1
        have := massIn_eq_indicator probs (VSet.interval I).toSet
        unfold massIn at this
        refine Eq.trans ?_ this.symm
        congr 1
    · exact hP.symm
    · intro k
      exact lookup_filter probs (fun k => (VSet.interval I).Mem (k : ℝ)) k
    · exact (List.filter_sublist.map _).nodup hnd
    · intro kp hkp
      exact hnn kp (List.mem_of_mem_filter hkp)

/-- A symbolic distribution over three symbols, conditioned on two of them. -/
example : (Leaf.symbolic 0 [(1, 1 / 2), (2, 1 / 4), (3, 1 / 4)]).Valid ∧ (VSet.symbols [3, 1]).Disjoint ∧
    ((([(1, 1 / 2), (2, 1 / 4), (3, 1 / 4)] : List (ℤ × ℝ)).filter
      fun kp => (VSet.symbols [3, 1]).Mem (kp.1 : ℝ)).map Prod.snd).sum = 3 / 4 := by
  refine ⟨⟨by simp, by simp⟩, by simp [VSet.Disjoint], ?_⟩
  rw [List.filter_cons_of_pos (by simp [VSet.Mem]), List.filter_cons_of_neg (by simp [VSet.Mem]),
    List.filter_cons_of_pos (by simp [VSet.Mem])]
  simp
  norm_num

end PM.Props
