import Verif.Dist.Mode
import Verif.Dist.CondLemmas
import Verif.Spec.Mode
import Verif.Events.Sets

/-! Helper lemmas about modes of leaf distributions. -/

namespace PM

open Spec Classical ProbabilityTheory

/-- A discrete distribution has a possible value; the location of a truncated Gaussian lies in the interval, or beyond a
closed border. -/
def HasMode : Leaf → Prop
  | .symbolic _ probs | .integer _ probs => ∃ kp ∈ probs, 0 < kp.2
  | .truncGaussian _ I μ _ => I.Mem μ ∨ ((μ : EReal) < I.lower ∧ I.left = .closed) ∨ (I.upper < (μ : EReal) ∧ I.right = .closed)
  | _ => True

theorem foldl_max_spec : ∀ (l : List ℝ) (a : ℝ), (∀ x ∈ a :: l, x ≤ l.foldl max a) ∧ l.foldl max a ∈ a :: l
  | [], a => by simp
  | b :: l, a => by
    obtain ⟨h1, h2⟩ := foldl_max_spec l (max a b)
    refine ⟨?_, ?_⟩
    · intro x hx
      rw [List.foldl_cons]
      rcases List.mem_cons.1 hx with rfl | hx
      · exact (le_max_left x b).trans (h1 (max x b) (by simp))
      · rcases List.mem_cons.1 hx with rfl | hx
        · exact (le_max_right a x).trans (h1 (max a x) (by simp))
        · exact h1 x (List.mem_cons_of_mem _ hx)
    · rw [List.foldl_cons]
      rcases List.mem_cons.1 h2 with h | h
      · rcases max_choice a b with h' | h' <;> rw [h'] at h ⊢ <;> rw [h] <;> simp
      · exact List.mem_cons_of_mem _ (List.mem_cons_of_mem _ h)

theorem maxOf_spec {l : List ℝ} (h : l ≠ []) : ∃ M, maxOf l = .ok M ∧ M ∈ l ∧ ∀ x ∈ l, x ≤ M := by
  cases l with
  | nil => exact absurd rfl h
  | cons a l => exact ⟨_, rfl, (foldl_max_spec l a).2, (foldl_max_spec l a).1⟩

theorem point_mem {a x : ℝ} : (Leaf.point a).Mem x ↔ x = a := by
  unfold SimpleInterval.Mem Leaf.point SimpleInterval.leftOK SimpleInterval.rightOK
  simp only [EReal.coe_le_coe_iff]
  exact ⟨fun h => le_antisymm h.2 h.1, fun h => by simp [h]⟩

theorem point_vset_mem {a x : ℝ} : (VSet.interval [Leaf.point a]).Mem x ↔ x = a := by
  simp [VSet.Mem, point_mem]

theorem pdf_le_iff {μ : ℝ} {v : NNReal} (hv : v ≠ 0) {x y : ℝ} :
    gaussianPDFReal μ v x ≤ gaussianPDFReal μ v y ↔ (y - μ) ^ 2 ≤ (x - μ) ^ 2 := by
  have hv' : (0 : ℝ) < v := by positivity
  have hc : 0 < (√(2 * Real.pi * v))⁻¹ := by positivity
  unfold gaussianPDFReal
  rw [mul_le_mul_iff_right₀ hc, Real.exp_le_exp, div_le_div_iff_of_pos_right (by positivity), neg_le_neg_iff]

theorem pdf_eq_iff {μ : ℝ} {v : NNReal} (hv : v ≠ 0) {x y : ℝ} :
    gaussianPDFReal μ v x = gaussianPDFReal μ v y ↔ (x - μ) ^ 2 = (y - μ) ^ 2 := by
  rw [le_antisymm_iff, pdf_le_iff hv, pdf_le_iff hv, le_antisymm_iff]
  exact and_comm

theorem discrete_pos {probs : List (ℤ × ℝ)} {x : ℝ} (h : 0 < ((probs.filter fun q => (q.1 : ℝ) = x).map Prod.snd).sum) :
    ∃ kp ∈ probs, 0 < kp.2 := by
  by_contra hc
  push Not at hc
  refine absurd h (not_lt.2 ((List.sum_le_card_nsmul _ 0 ?_).trans (by simp)))
  intro y hy
  obtain ⟨kp, hkp, rfl⟩ := List.mem_map.1 hy
  exact hc kp (List.mem_of_mem_filter hkp)

theorem hasMode_of_attainsMax {d : Leaf} (hd : d.Valid) (h : AttainsMax d) : HasMode d := by
  obtain ⟨x, hpos, hmax⟩ := h
  cases d with
  | uniform v lo hi l r => trivial
  | dirac v loc cap => trivial
  | gaussian v μ σ => trivial
  | symbolic v probs => exact discrete_pos hpos
  | integer v probs => exact discrete_pos hpos
  | truncGaussian v I μ σ =>
    have hv0 := toNNReal_sq_ne hd.1
    have hZ : 0 < (gaussianReal μ (Real.toNNReal (σ ^ 2))).real I.toSet := gauss_toSet_pos hd.2 μ hd.1
    have hx : I.Mem x := by
      by_contra hc
      simp only [leafDensity, if_neg hc] at hpos
      exact lt_irrefl _ hpos
    by_contra hc
    simp only [HasMode, not_or, not_and] at hc
    obtain ⟨hμ, hl, hr⟩ := hc
    have hcloser : ∀ y, I.Mem y → (x - μ) ^ 2 ≤ (y - μ) ^ 2 := by
      intro y hy
      have := hmax y
      simp only [leafDensity, if_pos hx, if_pos hy] at this
      rwa [div_le_div_iff_of_pos_right hZ, pdf_le_iff hv0] at this
    rcases lt_trichotomy μ x with h | h | h
    · have hup : SimpleInterval.rightOK I.right I.upper μ := by
        have := hx.2
        cases hrr : I.right <;> rw [hrr] at this
        · exact (EReal.coe_lt_coe_iff.2 h).trans this
        · exact (EReal.coe_le_coe_iff.2 h.le).trans this
      have hlo : ¬ SimpleInterval.leftOK I.left I.lower μ := fun h' => hμ ⟨h', hup⟩
      cases hll : I.left with
      | closed =>
        rw [hll] at hlo
        exact hl (not_le.1 hlo) hll
      | opn =>
        rw [hll] at hlo
        have h1 : (μ : EReal) ≤ I.lower := not_lt.1 hlo
        have h2 : I.lower < (x : EReal) := by have := hx.1; rw [hll] at this; exact this
        obtain ⟨y, hy1, hy2⟩ := EReal.lt_iff_exists_real_btwn.1 h2
        have hy : I.Mem y := by
          refine ⟨by rw [hll]; exact hy1, ?_⟩
          have := hx.2
          cases hrr : I.right <;> rw [hrr] at this
          · exact hy2.trans this
          · exact hy2.le.trans this
        have e1 : μ < y := EReal.coe_lt_coe_iff.1 (h1.trans_lt hy1)
        have e2 : y < x := EReal.coe_lt_coe_iff.1 hy2
        have := hcloser y hy
        nlinarith
    · exact hμ (h ▸ hx)
    · have hlo : SimpleInterval.leftOK I.left I.lower μ := by
        have := hx.1
        cases hrr : I.left <;> rw [hrr] at this
        · exact lt_trans this (EReal.coe_lt_coe_iff.2 h)
        · exact le_trans this (EReal.coe_le_coe_iff.2 h.le)
      have hup : ¬ SimpleInterval.rightOK I.right I.upper μ := fun h' => hμ ⟨hlo, h'⟩
      cases hll : I.right with
      | closed =>
        rw [hll] at hup
        exact hr (not_le.1 hup) hll
      | opn =>
        rw [hll] at hup
        have h1 : I.upper ≤ (μ : EReal) := not_lt.1 hup
        have h2 : (x : EReal) < I.upper := by have := hx.2; rw [hll] at this; exact this
        obtain ⟨y, hy1, hy2⟩ := EReal.lt_iff_exists_real_btwn.1 h2
        have hy : I.Mem y := by
          refine ⟨?_, by rw [hll]; exact hy2⟩
          have := hx.1
          cases hrr : I.left <;> rw [hrr] at this
          · exact lt_trans this hy1
          · exact le_trans this hy1.le
        have e1 : y < μ := EReal.coe_lt_coe_iff.1 (hy2.trans_le h1)
        have e2 : x < y := EReal.coe_lt_coe_iff.1 hy1
        have := hcloser y hy
        nlinarith

/-- What a mode has to be. -/
structure IsMode (ℓ : ℝ → ℝ) (A : VSet) (l : LogP) : Prop where
  pos : 0 < l.exp
  le : ∀ x, ℓ x ≤ l.exp
  mem : ∀ x, A.Mem x ↔ ℓ x = l.exp
  ne : ∃ x, A.Mem x

theorem discrete_density {probs : List (ℤ × ℝ)} (hn : (probs.map Prod.fst).Nodup) {kp : ℤ × ℝ} (hkp : kp ∈ probs) :
    ((probs.filter fun q => (q.1 : ℝ) = (kp.1 : ℝ)).map Prod.snd).sum = kp.2 := by
  have : probs.filter (fun q => (q.1 : ℝ) = (kp.1 : ℝ)) = [kp] := by
    induction probs with
    | nil => cases hkp
    | cons a l ih =>
      rw [List.map_cons, List.nodup_cons] at hn
      rcases List.mem_cons.1 hkp with rfl | h
      · rw [List.filter_cons_of_pos (by simp)]
        congr 1
        rw [List.filter_eq_nil_iff]
        intro q hq hc
        have hc : (q.1 : ℝ) = kp.1 := by simpa using hc
        exact hn.1 (List.mem_map.2 ⟨q, hq, by exact_mod_cast hc⟩)
      · rw [List.filter_cons_of_neg, ih hn.2 h]
        intro hc
        have hc : (a.1 : ℝ) = kp.1 := by simpa using hc
        exact hn.1 (List.mem_map.2 ⟨kp, h, by exact_mod_cast hc.symm⟩)
  rw [this]; simp

theorem discrete_isMode {probs : List (ℤ × ℝ)} (hn : (probs.map Prod.fst).Nodup)
    (hp : ∃ kp ∈ probs, 0 < kp.2) {M : ℝ} (hM : M ∈ probs.map Prod.snd) (hle : ∀ y ∈ probs.map Prod.snd, y ≤ M) {A : VSet}
    (hA : ∀ x, A.Mem x ↔ ∃ kp ∈ probs, kp.2 = M ∧ x = kp.1) :
    IsMode (fun x => ((probs.filter fun q => (q.1 : ℝ) = x).map Prod.snd).sum) A (LogP.log M) := by
  have hMpos : 0 < M := by
    obtain ⟨kp, h1, h2⟩ := hp
    exact h2.trans_le (hle _ (List.mem_map.2 ⟨kp, h1, rfl⟩))
  have hM' : (LogP.log M).exp = M := LogP.exp_log hMpos.le
  have hcase : ∀ x : ℝ, (∃ kp ∈ probs, x = kp.1 ∧ ((probs.filter fun q => (q.1 : ℝ) = x).map Prod.snd).sum = kp.2) ∨
      ((∀ kp ∈ probs, x ≠ kp.1) ∧ ((probs.filter fun q => (q.1 : ℝ) = x).map Prod.snd).sum = 0) := by
    intro x
    by_cases h : ∃ kp ∈ probs, x = (kp.1 : ℝ)
    · obtain ⟨kp, h1, rfl⟩ := h
      exact .inl ⟨kp, h1, rfl, discrete_density hn h1⟩
    · push Not at h
      refine .inr ⟨h, ?_⟩
      have : probs.filter (fun q => (q.1 : ℝ) = x) = [] := by
        rw [List.filter_eq_nil_iff]
        intro q hq hc
        exact h q hq (by simpa using (of_decide_eq_true hc).symm)
      rw [this]; rfl
  obtain ⟨kM, hkM, hkM2⟩ := List.mem_map.1 hM
  refine ⟨by rw [hM']; exact hMpos, ?_, ?_, ⟨kM.1, (hA _).2 ⟨kM, hkM, hkM2, rfl⟩⟩⟩
  · intro x
    rw [hM']
    rcases hcase x with ⟨kp, h1, _, h3⟩ | ⟨_, h3⟩
    · rw [h3]; exact hle _ (List.mem_map.2 ⟨kp, h1, rfl⟩)
    · rw [h3]; exact hMpos.le
  · intro x
    rw [hM', hA]
    constructor
    · rintro ⟨kp, h1, h2, rfl⟩
      rw [← h2]; exact discrete_density hn h1
    · intro h
      rcases hcase x with ⟨kp, h1, h2, h3⟩ | ⟨_, h3⟩
      · exact ⟨kp, h1, by rw [← h3, h], h2⟩
      · rw [h3] at h; exact absurd h hMpos.ne

theorem leaf_mode {d : Leaf} (hd : d.Valid) (hm : HasMode d) (next : ℝ → Bool → ℝ) {s : Bool}
    (hs : s = true ↔ ∃ v probs, d = .symbolic v probs) :
    ∃ A l, d.logMode next = .ok (A, l) ∧ A.Good s ∧ IsMode (leafDensity d) A l := by
  have hfalse : (∀ v probs, d ≠ .symbolic v probs) → s = false := fun h => by
    by_contra hc
    obtain ⟨v, probs, he⟩ := hs.1 (by simpa using hc)
    exact h v probs he
  have hpoint : ∀ a : ℝ, s = false → (VSet.interval [Leaf.point a]).Good s := fun a h =>
    ⟨h, fun i hi => by rw [List.mem_singleton.1 hi]; exact ⟨EReal.coe_ne_top _, EReal.coe_ne_bot _⟩⟩
  cases d with
  | uniform v lo hi l r =>
    have hlt : (0 : ℝ) < hi - lo := sub_pos.2 hd
    have hexp : (LogP.fin (-Real.log (hi - lo))).exp = 1 / (hi - lo) := by
      rw [LogP.exp_fin, Real.exp_neg, Real.exp_log hlt, one_div]
    have hmem : ∀ x, (VSet.interval [⟨lo, hi, l, r⟩]).Mem x ↔ (SimpleInterval.mk lo hi l r).Mem x := fun x => by simp [VSet.Mem]
    refine ⟨_, _, rfl, ⟨hfalse (by simp), ?_⟩, ?_, ?_, ?_, ?_⟩
    · intro i hi; rw [List.mem_singleton.1 hi]; exact ⟨EReal.coe_ne_top _, EReal.coe_ne_bot _⟩
    · rw [hexp]; exact one_div_pos.2 hlt
    · intro x
      rw [hexp]
      simp only [leafDensity]
      split
      · exact le_rfl
      · exact (one_div_pos.2 hlt).le
    · intro x
      rw [hexp, hmem]
      simp only [leafDensity]
      constructor
      · intro h; rw [if_pos h]
      · intro h
        by_contra hc
        rw [if_neg hc] at h
        exact (one_div_pos.2 hlt).ne h
    · obtain ⟨x, hx1, hx2⟩ := exists_between hd
      exact ⟨x, (hmem x).2 (SimpleInterval.mem_of_between (EReal.coe_lt_coe_iff.2 hx1) (EReal.coe_lt_coe_iff.2 hx2))⟩
  | dirac v loc cap =>
    have hexp : (LogP.log cap).exp = cap := LogP.exp_log (le_of_lt hd)
    have hd : 0 < cap := hd
    refine ⟨_, _, rfl, hpoint _ (hfalse (by simp)), ?_, ?_, ?_, ⟨loc, point_vset_mem.2 rfl⟩⟩
    · rw [hexp]; exact hd
    · intro x
      rw [hexp]
      simp only [leafDensity]
      split
      · exact le_rfl
      · exact hd.le
    · intro x
      rw [hexp, point_vset_mem]
      simp only [leafDensity]
      constructor
      · intro h; rw [if_pos h]
      · intro h
        by_contra hc
        rw [if_neg hc] at h
        exact hd.ne h
  | symbolic v probs =>
    have hne : probs.map Prod.snd ≠ [] := by
      obtain ⟨kp, h, _⟩ := hm
      intro h0
      rw [List.map_eq_nil_iff] at h0
      rw [h0] at h; cases h
    obtain ⟨M, h1, h2, h3⟩ := maxOf_spec hne
    refine ⟨.symbols ((probs.filter fun kp => kp.2 = M).map Prod.fst), .log M, by simp only [Leaf.logMode, h1, bind, Except.bind],
      hs.2 ⟨_, _, rfl⟩, ?_⟩
    refine discrete_isMode hd.2 hm h2 h3 fun x => ?_
    simp only [VSet.Mem, List.mem_map, List.mem_filter, decide_eq_true_eq]
    constructor
    · rintro ⟨k, ⟨kp, ⟨ha, hb⟩, rfl⟩, rfl⟩; exact ⟨kp, ha, hb, rfl⟩
    · rintro ⟨kp, ha, hb, rfl⟩; exact ⟨_, ⟨kp, ⟨ha, hb⟩, rfl⟩, rfl⟩
  | integer v probs =>
    have hne : probs.map Prod.snd ≠ [] := by
      obtain ⟨kp, h, _⟩ := hm
      intro h0
      rw [List.map_eq_nil_iff] at h0
      rw [h0] at h; cases h
    obtain ⟨M, h1, h2, h3⟩ := maxOf_spec hne
    refine ⟨.interval ((probs.filter fun kp => kp.2 = M).map fun kp => Leaf.point kp.1), .log M,
      by simp only [Leaf.logMode, h1, bind, Except.bind], ⟨hfalse (by simp), ?_⟩, ?_⟩
    · intro i hi
      obtain ⟨kp, _, rfl⟩ := List.mem_map.1 hi
      exact ⟨EReal.coe_ne_top _, EReal.coe_ne_bot _⟩
    refine discrete_isMode hd.2 hm h2 h3 fun x => ?_
    simp only [VSet.Mem, List.mem_map, List.mem_filter, decide_eq_true_eq]
    constructor
    · rintro ⟨k, ⟨kp, ⟨ha, hb⟩, rfl⟩, h⟩; exact ⟨kp, ha, hb, point_mem.1 h⟩
    · rintro ⟨kp, ha, hb, rfl⟩; exact ⟨_, ⟨kp, ⟨ha, hb⟩, rfl⟩, point_mem.2 rfl⟩
  | gaussian v μ σ =>
    have hv0 : Leaf.nnvar σ ≠ 0 := by rw [nnvar_eq]; exact toNNReal_sq_ne hd
    have hpos := gaussianPDFReal_pos μ _ μ hv0
    have hexp : (LogP.log (gaussianPDFReal μ (Leaf.nnvar σ) μ)).exp = gaussianPDFReal μ (Leaf.nnvar σ) μ := LogP.exp_log hpos.le
    have hden : ∀ x, leafDensity (.gaussian v μ σ) x = gaussianPDFReal μ (Leaf.nnvar σ) x := fun x => by
      rw [nnvar_eq]; rfl
    refine ⟨_, _, rfl, hpoint _ (hfalse (by simp)), ?_, ?_, ?_, ⟨μ, point_vset_mem.2 rfl⟩⟩
    · rw [hexp]; exact hpos
    · intro x
      rw [hexp, hden, pdf_le_iff hv0]
      rw [sub_self]; nlinarith [sq_nonneg (x - μ)]
    · intro x
      rw [hexp, hden, pdf_eq_iff hv0, point_vset_mem]
      simp [sub_eq_zero]
  | truncGaussian v I μ σ =>
    have hv0 : Leaf.nnvar σ ≠ 0 := by rw [nnvar_eq]; exact toNNReal_sq_ne hd.1
    -- the picked value lies in the interval and is the closest to the location
    have key : I.Mem (Leaf.truncModeValue next I μ) ∧ ∀ x, I.Mem x →
        (Leaf.truncModeValue next I μ - μ) ^ 2 ≤ (x - μ) ^ 2 ∧
        ((x - μ) ^ 2 = (Leaf.truncModeValue next I μ - μ) ^ 2 → x = Leaf.truncModeValue next I μ) := by
      unfold Leaf.truncModeValue
      by_cases hc : I.Mem μ
      · rw [if_pos hc]
        refine ⟨hc, fun x _ => ⟨?_, ?_⟩⟩
        · rw [sub_self]; nlinarith [sq_nonneg (x - μ)]
        · intro h; simpa [sub_eq_zero] using h
      · rw [if_neg hc]
        rcases hm with h | ⟨h, hl⟩ | ⟨h, hr⟩
        · exact absurd h hc
        · rw [if_pos h, hl]
          have hreal : ((I.lower.toReal : ℝ) : EReal) = I.lower :=
            EReal.coe_toReal (hd.2.trans_le le_top).ne ((bot_le.trans_lt h).ne')
          have hlt : μ < I.lower.toReal := by rw [← EReal.coe_lt_coe_iff, hreal]; exact h
          refine ⟨⟨?_, ?_⟩, ?_⟩
          · rw [hl]; exact hreal.ge
          · cases hr : I.right with
            | closed => exact hreal.le.trans hd.2.le
            | opn => exact hreal.le.trans_lt hd.2
          · intro x hx
            have hge : I.lower.toReal ≤ x := by rw [← EReal.coe_le_coe_iff, hreal]; exact hx.lower_le
            constructor
            · nlinarith
            · intro he
              nlinarith
        · have hul : I.lower < μ := hd.2.trans h
          rw [if_neg (not_lt.2 hul.le), hr]
          have hreal : ((I.upper.toReal : ℝ) : EReal) = I.upper :=
            EReal.coe_toReal (h.trans_le le_top).ne ((bot_le.trans_lt hd.2).ne')
          have hlt : I.upper.toReal < μ := by rw [← EReal.coe_lt_coe_iff, hreal]; exact h
          refine ⟨⟨?_, ?_⟩, ?_⟩
          · cases hl : I.left with
            | closed => exact hd.2.le.trans hreal.ge
            | opn => exact hd.2.trans_le hreal.ge
          · rw [hr]; exact hreal.le
          · intro x hx
            have hge : x ≤ I.upper.toReal := by rw [← EReal.coe_le_coe_iff, hreal]; exact hx.le_upper
            constructor
            · nlinarith
            · intro he
              nlinarith
    generalize hval : Leaf.truncModeValue next I μ = y at key
    obtain ⟨hy, hmin⟩ := key
    have hexp : (LogP.log (gaussianPDFReal μ (Leaf.nnvar σ) y) - LogP.log (Leaf.truncZ I μ σ)).exp =
        leafDensity (.truncGaussian v I μ σ) y := by
      rw [← exp_logLik hd]
      simp only [Leaf.logLik, if_pos hy]
    have hypos : 0 < leafDensity (.truncGaussian v I μ σ) y :=
      leafDensity_pos hd ⟨_, List.mem_singleton.2 rfl, hy⟩
    have hZ : 0 < (gaussianReal μ (Real.toNNReal (σ ^ 2))).real I.toSet := gauss_toSet_pos hd.2 μ hd.1
    rw [nnvar_eq] at hv0
    refine ⟨_, _, rfl, hpoint _ (hfalse (by simp)), ?_⟩
    rw [hval]
    refine ⟨by rw [hexp]; exact hypos, ?_, ?_, ⟨y, point_vset_mem.2 rfl⟩⟩
    · intro x
      rw [hexp]
      by_cases hx : I.Mem x
      · simp only [leafDensity, if_pos hx, if_pos hy]
        rw [div_le_div_iff_of_pos_right hZ, pdf_le_iff hv0]
        exact (hmin x hx).1
      · have : leafDensity (.truncGaussian v I μ σ) x = 0 := by simp only [leafDensity, if_neg hx]
        rw [this]; exact hypos.le
    · intro x
      rw [hexp, point_vset_mem]
      constructor
      · rintro rfl; rfl
      · intro h
        by_cases hx : I.Mem x
        · simp only [leafDensity, if_pos hx, if_pos hy] at h
          rw [div_left_inj' hZ.ne', pdf_eq_iff hv0] at h
          exact (hmin x hx).2 h
        · have h0 : leafDensity (.truncGaussian v I μ σ) x = 0 := by simp only [leafDensity, if_neg hx]
          rw [h0] at h; exact absurd h hypos.ne

end PM
