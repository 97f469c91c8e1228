import Verif.Dist.SamplingLemmas
import Verif.Dist.LeafLemmas
import Mathlib.Tactic.NormNum

/-!
# C38, C53: sampling from truncated Gaussians
-/

namespace PM.Props

open Classical Spec TruncGauss

/-- The standard normal distribution truncated to the open interval `(0, 1)`. -/
noncomputable def openUnit : SimpleInterval := ⟨(0 : ℝ), (1 : ℝ), .opn, .opn⟩

/-- **C38**, `rejection_sample`: whenever the recursion ends, there are exactly `amount` samples and each lies in the
truncation interval. -/
theorem C38_rejection {v : Var} {I : SimpleInterval} {μ σ : ℝ} {rng : ℕ → ℕ → List ℝ}
    (hr : ∀ t n, (rng t n).length = n) {k amount : ℕ} {xs : List ℝ}
    (h : rejectionSample v I μ σ rng k 0 amount = some xs) :
    xs.length = amount ∧ ∀ x ∈ xs, I.Mem x := by
  refine ⟨rejectionSample_length hr h, fun x hx => ?_⟩
  have := rejectionSample_mem h x hx
  by_contra hc
  exact this (by simp only [Leaf.logLik]; rw [if_neg hc])

/-- **C38**, `sample`, for every stream of random numbers on which the loop stops.  No exception is raised, there are
exactly `amount` samples, and each lies in the truncation interval, except that the lower border may be returned
although it is excluded.

Partial: see `C38_full_false` for the excluded lower border. -/
theorem C38_sample_partial {I : SimpleInterval} {μ σ : ℝ} (hσ : 0 < σ) (hI : I.lower < I.upper)
    {normal : ℕ → List ℝ} (hn : ∀ n, (normal n).length = n) {rng : ℕ → ℕ → List (ℝ × ℝ)} (hr : Draws rng)
    {k amount : ℕ} {r : Except PyErr (List ℝ)} (h : TruncGauss.sample I μ σ normal rng k amount = some r) :
    ∃ xs, r = .ok xs ∧ xs.length = amount ∧ ∀ x ∈ xs, I.lower = x ∨ I.Mem x := by
  unfold TruncGauss.sample at h
  split_ifs at h with hu
  · injection h with h
    refine ⟨_, h.symm, hn _, fun x _ => .inr ⟨?_, ?_⟩⟩
    · rw [hu.2]; cases I.left <;> simp [SimpleInterval.leftOK, EReal.bot_lt_coe]
    · rw [hu.1]; cases I.right <;> simp [SimpleInterval.rightOK, EReal.coe_lt_top]
  · obtain ⟨lo, hi, hS, -⟩ := standardised (μ := μ) hσ hI hu
    unfold robertSample at h
    rw [Option.map_eq_some_iff] at h
    obtain ⟨r', hr', rfl⟩ := h
    obtain ⟨xs, rfl, hlen, hmem⟩ := robertLoop_ok hS.lower hS.upper hS.lt hr (by simp) (by simp) hr'
    refine ⟨_, rfl, by simpa using hlen, ?_⟩
    intro y hy
    obtain ⟨x, hx, rfl⟩ := List.mem_map.mp hy
    have h1 := hS.geLower x (hmem x hx).1
    have h2 := hS.ltUpper x (hmem x hx).2
    rcases h1.eq_or_lt with h1 | h1
    · exact .inl h1
    · refine .inr ⟨?_, ?_⟩
      · cases I.left
        · exact h1
        · exact h1.le
      · cases I.right
        · exact h2
        · exact h2.le

/-- The full statement of C38 for `sample`. -/
def C38_full : Prop :=
  ∀ (I : SimpleInterval) (μ σ : ℝ), 0 < σ → I.lower < I.upper →
    ∀ (normal : ℕ → List ℝ), (∀ n, (normal n).length = n) → ∀ rng, Draws rng →
      ∀ k amount r, TruncGauss.sample I μ σ normal rng k amount = some r →
        ∃ xs, r = .ok xs ∧ xs.length = amount ∧ ∀ x ∈ xs, I.Mem x

/-- Draws that propose `lo + (hi - lo) a` and accept. -/
def constDraws (a : ℝ) : ℕ → ℕ → List (ℝ × ℝ) := fun _ n => (List.replicate n a).map (fun a => (a, (0 : ℝ)))

theorem constDraws_ok {a : ℝ} (h0 : 0 ≤ a) (h1 : a < 1) : Draws (constDraws a) := by
  intro t n
  refine ⟨by simp [constDraws], fun q hq => ?_⟩
  simp only [constDraws, List.map_replicate, List.mem_replicate] at hq
  rw [hq.2]
  exact ⟨h0, h1, le_refl _, by norm_num⟩

/-- The run of `sample(1)` on such draws. -/
theorem sample_const {I : SimpleInterval} {μ σ : ℝ} (hu : ¬ (I.upper = ⊤ ∧ I.lower = ⊥)) {lo hi : ℝ}
    (hS : Standardised I μ σ (cutInfinite (standardInterval I μ σ)) lo hi) (normal) (a : ℝ) :
    TruncGauss.sample I μ σ normal (constDraws a) 1 1 = some (.ok [(lo + (hi - lo) * a) * σ + μ]) := by
  unfold TruncGauss.sample robertSample
  rw [if_neg hu]
  have h : robertHelper (cutInfinite (standardInterval I μ σ)) [(a, 0)] =
      .ok [scaleDraw (cutInfinite (standardInterval I μ σ)) a] := robertHelper_zero hS.lower hS.upper [a]
  simp only [robertLoop, constDraws, List.length_nil, Nat.zero_lt_one, if_true, Nat.sub_zero, List.replicate_one,
    List.map_cons, List.map_nil, h, List.nil_append, List.length_cons, Nat.zero_add, lt_self_iff_false, if_false,
    Option.map_some, Except.map, scaleDraw, hS.lower, hS.upper, EReal.toReal_coe]

/-- **C38** fails: `np.random.uniform(low, high)` may return `low`, so for a truncation interval that is open to the
left `sample` can return its excluded lower border, a value of likelihood zero. -/
theorem C38_full_false : ¬ C38_full := by
  intro h
  have hI : openUnit.lower < openUnit.upper := by
    simp only [openUnit]; exact_mod_cast zero_lt_one
  have hu : ¬ (openUnit.upper = ⊤ ∧ openUnit.lower = ⊥) := by simp [openUnit]
  obtain ⟨lo, hi, hS, hlo, -⟩ := standardised (μ := 0) one_pos hI hu
  have h0 : lo = 0 := by rw [hlo 0 rfl]; simp
  obtain ⟨xs, hx, _, hm⟩ := h openUnit 0 1 one_pos hI (fun n => List.replicate n 0) (by simp) (constDraws 0)
    (constDraws_ok (le_refl _) one_pos) 1 1 _ (sample_const hu hS _ 0)
  injection hx with hx
  have := hm 0 (by rw [← hx, h0]; simp)
  simp [SimpleInterval.Mem, openUnit, SimpleInterval.leftOK] at this

/-- **C38**, the acceptance step of `sample`: a proposal `u` is accepted when a number drawn uniformly from `[0, 1)` is
at most `c * exp (-u²/2)`, a probability (positive and at most `1`) proportional to the standard normal density, with
one constant for the whole interval.  So accepted proposals have the density of the truncated standard normal. -/
theorem C38_acceptance {J : SimpleInterval} {lo hi : ℝ} (hl : J.lower = lo) (hh : J.upper = hi) :
    ∃ c : ℝ, 0 < c ∧ ∀ u, lo ≤ u → u ≤ hi →
      limiting J u = .ok (c * Real.exp (-(u ^ 2) / 2)) ∧ c * Real.exp (-(u ^ 2) / 2) ≤ 1 := by
  obtain ⟨c, h0, h1, h2⟩ := limiting_eq hl hh
  exact ⟨c, h0, fun u hu hu' => ⟨h1 u, h2 u hu hu'⟩⟩

/-- **C38**: the number of rounds is only an upper bound: once the loop has stopped, allowing more rounds gives the
same samples. -/
theorem C38_rounds {J : SimpleInterval} {rng : ℕ → ℕ → List (ℝ × ℝ)} {amount k k' : ℕ} {r}
    (hk : k ≤ k') (h : robertLoop J rng amount k 0 [] = some r) : robertLoop J rng amount k' 0 [] = some r := by
  induction hk with
  | refl => exact h
  | step _ ih => exact robertLoop_mono ih

/-- **C53**: on a bounded truncation interval `sample` can return every value of the support except the upper border
(which has probability zero). -/
theorem C53_bounded_partial {I : SimpleInterval} {μ σ a b : ℝ} (hσ : 0 < σ) (ha : I.lower = a) (hb : I.upper = b)
    (normal) (x : ℝ) (hx : I.Mem x) (hxb : x ≠ b) :
    ∃ rng, Draws rng ∧ TruncGauss.sample I μ σ normal rng 1 1 = some (.ok [x]) := by
  have h1 : a ≤ x := by
    have := hx.1
    rw [ha] at this
    cases hl : I.left <;> rw [hl] at this <;> simp only [SimpleInterval.leftOK] at this
    · exact_mod_cast this.le
    · exact_mod_cast this
  have h2 : x < b := by
    have := hx.2
    rw [hb] at this
    cases hl : I.right <;> rw [hl] at this <;> simp only [SimpleInterval.rightOK] at this
    · exact_mod_cast this
    · exact lt_of_le_of_ne (by exact_mod_cast this) hxb
  have hI : I.lower < I.upper := by rw [ha, hb]; exact_mod_cast h1.trans_lt h2
  have hu : ¬ (I.upper = ⊤ ∧ I.lower = ⊥) := by simp [ha]
  obtain ⟨lo, hi, hS, hlo, hhi, -⟩ := standardised (μ := μ) hσ hI hu
  have hba : 0 < b - a := by linarith
  refine ⟨constDraws ((x - a) / (b - a)), constDraws_ok (by positivity) (by rw [div_lt_one hba]; linarith), ?_⟩
  · rw [sample_const hu hS, hlo a ha, hhi b hb]
    congr 3
    field_simp
    ring

/-- The full statement of C53: `sample` can return every value inside the truncation interval. -/
def C53_full : Prop :=
  ∀ (I : SimpleInterval) (μ σ : ℝ), 0 < σ → I.lower < I.upper → ∀ x : ℝ, I.lower < x → x < I.upper →
    ∃ normal rng k amount xs, (∀ n, (normal n).length = n) ∧ Draws rng ∧
      TruncGauss.sample I μ σ normal rng k amount = some (.ok xs) ∧ x ∈ xs

/-- **C53** fails for one-sided truncations: with an infinite upper border every sample lies within ten standard
deviations of the lower border. -/
theorem C53_cut {I : SimpleInterval} {μ σ a : ℝ} (hσ : 0 < σ) (ha : I.lower = a) (hb : I.upper = ⊤)
    {normal : ℕ → List ℝ} {rng : ℕ → ℕ → List (ℝ × ℝ)} (hr : Draws rng)
    {k amount : ℕ} {xs : List ℝ} (h : TruncGauss.sample I μ σ normal rng k amount = some (.ok xs)) :
    ∀ x ∈ xs, x < a + 10 * σ := by
  have hI : I.lower < I.upper := by rw [ha, hb]; exact EReal.coe_lt_top _
  have hu : ¬ (I.upper = ⊤ ∧ I.lower = ⊥) := by simp [ha]
  obtain ⟨lo, hi, hS, hlo, -, hhi, -⟩ := standardised (μ := μ) hσ hI hu
  unfold TruncGauss.sample at h
  rw [if_neg hu] at h
  unfold robertSample at h
  rw [Option.map_eq_some_iff] at h
  obtain ⟨r', hr', hx⟩ := h
  obtain ⟨ys, rfl, hlen, hmem⟩ := robertLoop_ok hS.lower hS.upper hS.lt hr (by simp) (by simp) hr'
  simp only [Except.map, Except.ok.injEq] at hx
  subst hx
  intro y hy
  obtain ⟨x, hx, rfl⟩ := List.mem_map.mp hy
  have h2 := (hmem x hx).2
  rw [hhi hb, hlo a ha] at h2
  have h3 : x * σ < ((a - μ) / σ + 10) * σ := mul_lt_mul_of_pos_right h2 hσ
  have h4 : ((a - μ) / σ + 10) * σ = a - μ + 10 * σ := by field_simp
  linarith

/-- **C53** is false: the standard normal truncated to `[-20, ∞)` never yields its own mode `0`, nor anything else
above `-10`, where practically all of its mass lies. -/
theorem C53_full_false : ¬ C53_full := by
  intro h
  obtain ⟨normal, rng, k, amount, xs, _, hr, hs, hx⟩ := h ⟨(-20 : ℝ), ⊤, .closed, .opn⟩ 0 1 one_pos
    (EReal.coe_lt_top _) 0 (EReal.coe_lt_coe_iff.2 (by norm_num : (-20 : ℝ) < 0)) (EReal.coe_lt_top _)
  have := C53_cut one_pos rfl rfl hr hs 0 hx
  norm_num at this

/-- The hypotheses of the C38 theorems are met: a run of `sample(1)` on `(0, 1)` that stops with a sample inside. -/
example : ∃ (normal : ℕ → List ℝ) (rng : ℕ → ℕ → List (ℝ × ℝ)), (∀ n, (normal n).length = n) ∧ Draws rng ∧
    TruncGauss.sample openUnit 0 1 normal rng 1 1 = some (.ok [1 / 2]) := by
  obtain ⟨rng, hr, h⟩ := C53_bounded_partial (I := openUnit) (μ := 0) (σ := 1) one_pos rfl rfl
    (fun n => List.replicate n 0) (1 / 2)
    ⟨by simp only [openUnit, SimpleInterval.leftOK]; exact_mod_cast (by norm_num : (0 : ℝ) < 1 / 2),
     by simp only [openUnit, SimpleInterval.rightOK]; exact_mod_cast (by norm_num : (1 / 2 : ℝ) < 1)⟩ (by norm_num)
  exact ⟨_, rng, by simp, hr, h⟩

/-- `rejection_sample` on a stream that needs a second round: the first proposal `2` is rejected, the second `1/2`
accepted. -/
example : rejectionSample 0 openUnit 0 1 (fun t n => List.replicate n (if t = 0 then 2 else 1 / 2)) 2 0 1
    = some [1 / 2] := by
  have h2 : (Leaf.truncGaussian 0 openUnit 0 1).logLik 2 = .negInf := by
    simp only [Leaf.logLik]
    rw [if_neg]
    rintro ⟨-, h⟩
    simp only [openUnit, SimpleInterval.rightOK, EReal.coe_lt_coe_iff] at h
    norm_num at h
  have hm : openUnit.Mem (1 / 2) :=
    ⟨by simp only [openUnit, SimpleInterval.leftOK]; exact_mod_cast (by norm_num : (0 : ℝ) < 1 / 2),
     by simp only [openUnit, SimpleInterval.rightOK]; exact_mod_cast (by norm_num : (1 / 2 : ℝ) < 1)⟩
  have h1 : (Leaf.truncGaussian 0 openUnit 0 1).logLik (1 / 2) ≠ .negInf := by
    have hv : (Leaf.truncGaussian 0 openUnit 0 1).Valid :=
      ⟨one_pos, by simp only [openUnit]; exact_mod_cast zero_lt_one⟩
    intro hc
    have he := exp_logLik hv (1 / 2)
    rw [hc] at he
    simp only [leafDensity, LogP.exp_negInf] at he
    rw [if_pos hm] at he
    have h1 := ProbabilityTheory.gaussianPDFReal_pos 0 (Real.toNNReal (1 ^ 2)) (1 / 2) (by simp)
    have h2 := gauss_toSet_pos hv.2 0 one_pos
    exact absurd he (div_pos h1 h2).ne
  simp only [rejectionSample, List.replicate_one, if_true, List.filter_cons, List.filter_nil, h2, ne_eq,
    not_true_eq_false, decide_false, Bool.false_eq_true, if_false, List.length_nil, Nat.sub_zero, Nat.zero_lt_one]
  rw [one_div] at h1
  simp [h1]

end PM.Props
