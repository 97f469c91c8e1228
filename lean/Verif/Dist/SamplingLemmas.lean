import Verif.Dist.Sampling
import Verif.Spec.Sampling
import Mathlib.Tactic.Linarith
import Mathlib.Tactic.Positivity
import Mathlib.Tactic.FieldSimp
import Mathlib.Tactic.Ring

/-! # Facts about the truncated Gaussian samplers -/

namespace PM.TruncGauss

open Classical Spec

theorem rejectionSample_length {v : Var} {I : SimpleInterval} {μ σ : ℝ} {rng : ℕ → ℕ → List ℝ}
    (hr : ∀ t n, (rng t n).length = n) {k t amount : ℕ} {xs : List ℝ}
    (h : rejectionSample v I μ σ rng k t amount = some xs) : xs.length = amount := by
  induction k generalizing t amount xs with
  | zero => simp [rejectionSample] at h
  | succ k ih =>
    simp only [rejectionSample] at h
    have hle := List.length_filter_le (fun x => decide ((Leaf.truncGaussian v I μ σ).logLik x ≠ .negInf)) (rng t amount)
    rw [hr] at hle
    split_ifs at h with hc
    · rw [Option.map_eq_some_iff] at h
      obtain ⟨more, hm, rfl⟩ := h
      have := ih hm
      rw [List.length_append, this]
      omega
    · injection h with h
      subst h
      omega

theorem rejectionSample_mem {v : Var} {I : SimpleInterval} {μ σ : ℝ} {rng : ℕ → ℕ → List ℝ}
    {k t amount : ℕ} {xs : List ℝ}
    (h : rejectionSample v I μ σ rng k t amount = some xs) :
    ∀ x ∈ xs, (Leaf.truncGaussian v I μ σ).logLik x ≠ .negInf := by
  induction k generalizing t amount xs with
  | zero => simp [rejectionSample] at h
  | succ k ih =>
    simp only [rejectionSample] at h
    have hf : ∀ x ∈ (rng t amount).filter (fun x => decide ((Leaf.truncGaussian v I μ σ).logLik x ≠ .negInf)),
        (Leaf.truncGaussian v I μ σ).logLik x ≠ .negInf := by
      intro x hx
      simpa using (List.mem_filter.mp hx).2
    split_ifs at h with hc
    · rw [Option.map_eq_some_iff] at h
      obtain ⟨more, hm, rfl⟩ := h
      intro x hx
      rcases List.mem_append.mp hx with hx | hx
      · exact hf x hx
      · exact ih hm x hx
    · injection h with h
      subst h
      exact hf

/-- The interval the proposals are drawn from: finite, non-degenerate, inside the truncation interval. -/
structure Standardised (I : SimpleInterval) (μ σ : ℝ) (J : SimpleInterval) (lo hi : ℝ) : Prop where
  lower : J.lower = lo
  upper : J.upper = hi
  left : J.left = I.left
  right : J.right = I.right
  lt : lo < hi
  geLower : ∀ u : ℝ, lo ≤ u → I.lower ≤ ((u * σ + μ : ℝ) : EReal)
  ltUpper : ∀ u : ℝ, u < hi → ((u * σ + μ : ℝ) : EReal) < I.upper

theorem standardised {I : SimpleInterval} {μ σ : ℝ} (hσ : 0 < σ) (hI : I.lower < I.upper)
    (hu : ¬ (I.upper = ⊤ ∧ I.lower = ⊥)) :
    ∃ lo hi, Standardised I μ σ (cutInfinite (standardInterval I μ σ)) lo hi ∧
      (∀ a : ℝ, I.lower = a → lo = (a - μ) / σ) ∧ (∀ b : ℝ, I.upper = b → hi = (b - μ) / σ) ∧
      (I.upper = ⊤ → hi = lo + 10) ∧ (I.lower = ⊥ → lo = hi - 10) := by
  obtain ⟨lower, upper, left, right⟩ := I
  simp only at hI hu
  induction lower with
  | top => exact absurd hI (by simp)
  | bot =>
    induction upper with
    | bot => exact absurd hI (by simp)
    | top => exact absurd ⟨rfl, rfl⟩ hu
    | coe b =>
      refine ⟨(b - μ) / σ - 10, (b - μ) / σ, ⟨?_, ?_, ?_, ?_, by linarith, ?_, ?_⟩, ?_, ?_, ?_, ?_⟩
      · simp [cutInfinite, standardInterval, toStandard]
        norm_cast
      · simp [cutInfinite, standardInterval, toStandard]
      · simp [cutInfinite, standardInterval, toStandard]
      · simp [cutInfinite, standardInterval, toStandard]
      · intro u _; simp
      · intro u h
        have : u * σ < b - μ := by rwa [lt_div_iff₀ hσ] at h
        simp only [EReal.coe_lt_coe_iff]; linarith
      · intro a ha; simp at ha
      · intro b' hb; simp only [EReal.coe_eq_coe_iff] at hb; rw [hb]
      · intro h; simp at h
      · intro _; rfl
  | coe a =>
    induction upper with
    | bot => exact absurd hI (by simp)
    | top =>
      refine ⟨(a - μ) / σ, (a - μ) / σ + 10, ⟨?_, ?_, ?_, ?_, by linarith, ?_, ?_⟩, ?_, ?_, ?_, ?_⟩
      · simp [cutInfinite, standardInterval, toStandard]
      · simp [cutInfinite, standardInterval, toStandard]
        norm_cast
      · simp [cutInfinite, standardInterval, toStandard]
      · simp [cutInfinite, standardInterval, toStandard]
      · intro u h
        have : a - μ ≤ u * σ := by rwa [div_le_iff₀ hσ] at h
        simp only [EReal.coe_le_coe_iff]; linarith
      · intro u _; exact EReal.coe_lt_top _
      · intro b' hb; simp only [EReal.coe_eq_coe_iff] at hb; rw [hb]
      · intro a ha; simp at ha
      · intro _; rfl
      · intro h; simp at h
    | coe b =>
      have hab : a < b := by exact_mod_cast hI
      refine ⟨(a - μ) / σ, (b - μ) / σ, ⟨?_, ?_, ?_, ?_, ?_, ?_, ?_⟩, ?_, ?_, ?_, ?_⟩
      · simp [cutInfinite, standardInterval, toStandard]
      · simp [cutInfinite, standardInterval, toStandard]
      · simp [cutInfinite, standardInterval, toStandard]
      · simp [cutInfinite, standardInterval, toStandard]
      · exact div_lt_div_of_pos_right (by linarith) hσ
      · intro u h
        have : a - μ ≤ u * σ := by rwa [div_le_iff₀ hσ] at h
        simp only [EReal.coe_le_coe_iff]; linarith
      · intro u h
        have : u * σ < b - μ := by rwa [lt_div_iff₀ hσ] at h
        simp only [EReal.coe_lt_coe_iff]; linarith
      · intro b' hb; simp only [EReal.coe_eq_coe_iff] at hb; rw [hb]
      · intro b' hb; simp only [EReal.coe_eq_coe_iff] at hb; rw [hb]
      · intro h; simp at h
      · intro h; simp at h

/-- The limiting function is a constant multiple of `exp (-u² / 2)` that does not exceed `1` on the interval. -/
theorem limiting_eq {J : SimpleInterval} {lo hi : ℝ} (hl : J.lower = lo) (hh : J.upper = hi) :
    ∃ c : ℝ, 0 < c ∧ (∀ u, limiting J u = .ok (c * Real.exp (-(u ^ 2) / 2))) ∧
      ∀ u, lo ≤ u → u ≤ hi → c * Real.exp (-(u ^ 2) / 2) ≤ 1 := by
  by_cases h0 : J.Mem 0
  · refine ⟨1, one_pos, fun u => ?_, fun u _ _ => ?_⟩
    · simp only [limiting, if_pos h0, one_mul]; congr 2; ring
    · rw [one_mul, Real.exp_le_one_iff]; nlinarith [sq_nonneg u]
  · by_cases h1 : J.upper ≤ 0
    · refine ⟨Real.exp (hi ^ 2 / 2), Real.exp_pos _, fun u => ?_, fun u hu1 hu2 => ?_⟩
      · rw [limiting, if_neg h0, if_pos h1, hh, EReal.toReal_coe, ← Real.exp_add]; congr 2; ring
      · rw [hh] at h1
        have h1 : hi ≤ 0 := by exact_mod_cast h1
        rw [← Real.exp_add, Real.exp_le_one_iff]; nlinarith
    · have h2 : (0 : EReal) ≤ J.lower := by
        by_contra h2
        apply h0
        rw [not_le] at h1 h2
        refine ⟨?_, ?_⟩
        · cases hb : J.left <;> simp only [SimpleInterval.leftOK]
          · exact h2
          · exact h2.le
        · cases hb : J.right <;> simp only [SimpleInterval.rightOK]
          · exact h1
          · exact h1.le
      refine ⟨Real.exp (lo ^ 2 / 2), Real.exp_pos _, fun u => ?_, fun u hu1 hu2 => ?_⟩
      · rw [limiting, if_neg h0, if_neg h1, if_pos h2, hl, EReal.toReal_coe, ← Real.exp_add]; congr 2; ring
      · rw [hl] at h2
        have h2 : 0 ≤ lo := by exact_mod_cast h2
        rw [← Real.exp_add, Real.exp_le_one_iff]; nlinarith

theorem robertHelper_ok {J : SimpleInterval} {lo hi : ℝ} (hl : J.lower = lo) (hh : J.upper = hi) (hlt : lo < hi)
    (ds : List (ℝ × ℝ)) (hd : ∀ q ∈ ds, 0 ≤ q.1 ∧ q.1 < 1) :
    ∃ xs, robertHelper J ds = .ok xs ∧ xs.length ≤ ds.length ∧ ∀ x ∈ xs, lo ≤ x ∧ x < hi := by
  obtain ⟨c, _, hc, _⟩ := limiting_eq hl hh
  induction ds with
  | nil => exact ⟨[], rfl, le_refl _, by simp⟩
  | cons q rest ih =>
    obtain ⟨a, p⟩ := q
    obtain ⟨xs, hx, hlen, hmem⟩ := ih (fun q hq => hd q (List.mem_cons_of_mem _ hq))
    have ha := hd (a, p) (List.mem_cons_self ..)
    simp only at ha
    have hb : lo ≤ scaleDraw J a ∧ scaleDraw J a < hi := by
      simp only [scaleDraw, hl, hh, EReal.toReal_coe]
      constructor <;> nlinarith
    simp only [robertHelper, hc, hx, bind, Except.bind]
    split_ifs with hp
    · refine ⟨_, rfl, by simpa using hlen, ?_⟩
      intro x hx
      rcases List.mem_cons.mp hx with rfl | hx
      · exact hb
      · exact hmem x hx
    · exact ⟨_, rfl, by simp only [List.length_cons]; omega, hmem⟩

theorem robertLoop_ok {J : SimpleInterval} {lo hi : ℝ} (hl : J.lower = lo) (hh : J.upper = hi) (hlt : lo < hi)
    {rng : ℕ → ℕ → List (ℝ × ℝ)} (hr : Draws rng) {amount k t : ℕ} {acc : List ℝ} {r}
    (ha : acc.length ≤ amount) (hm : ∀ x ∈ acc, lo ≤ x ∧ x < hi)
    (h : robertLoop J rng amount k t acc = some r) :
    ∃ xs, r = .ok xs ∧ xs.length = amount ∧ ∀ x ∈ xs, lo ≤ x ∧ x < hi := by
  induction k generalizing t acc with
  | zero =>
    simp only [robertLoop] at h
    split_ifs at h with hc
    injection h with h
    exact ⟨acc, h.symm, by omega, hm⟩
  | succ k ih =>
    simp only [robertLoop] at h
    split_ifs at h with hc
    · obtain ⟨new, hn, hlen, hmem⟩ := robertHelper_ok hl hh hlt (rng t (amount - acc.length))
        (fun q hq => ⟨((hr _ _).2 q hq).1, ((hr _ _).2 q hq).2.1⟩)
      rw [(hr _ _).1] at hlen
      rw [hn] at h
      refine ih ?_ ?_ h
      · rw [List.length_append]; omega
      · intro x hx
        rcases List.mem_append.mp hx with hx | hx
        · exact hm x hx
        · exact hmem x hx
    · injection h with h
      exact ⟨acc, h.symm, by omega, hm⟩

/-- More rounds do not change the result of a loop that has stopped. -/
theorem robertLoop_mono {J : SimpleInterval} {rng : ℕ → ℕ → List (ℝ × ℝ)} {amount k t : ℕ} {acc : List ℝ} {r}
    (h : robertLoop J rng amount k t acc = some r) : robertLoop J rng amount (k + 1) t acc = some r := by
  induction k generalizing t acc with
  | zero =>
    simp only [robertLoop] at h ⊢
    split_ifs at h with hc
    rw [if_neg hc, h]
  | succ k ih =>
    rw [robertLoop] at h ⊢
    split_ifs at h ⊢ with hc
    · cases hq : robertHelper J (rng t (amount - acc.length)) with
      | error e => rw [hq] at h; exact h
      | ok new =>
        rw [hq] at h
        exact ih h
    · exact h

/-- If the acceptance numbers are `0`, everything is accepted. -/
theorem robertHelper_zero {J : SimpleInterval} {lo hi : ℝ} (hl : J.lower = lo) (hh : J.upper = hi)
    (as : List ℝ) : robertHelper J (as.map (fun a => (a, (0 : ℝ)))) = .ok (as.map (scaleDraw J)) := by
  obtain ⟨c, hc0, hc, _⟩ := limiting_eq hl hh
  induction as with
  | nil => rfl
  | cons a as ih =>
    simp only [List.map_cons, robertHelper, hc, ih, bind, Except.bind]
    rw [if_pos]
    positivity

end PM.TruncGauss
