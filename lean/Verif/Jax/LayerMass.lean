import Mathlib.MeasureTheory.Integral.Marginal
import Mathlib.MeasureTheory.Function.Floor
import Verif.Jax.ToNxFinal
import Verif.Spec.LayerMass

/-! Helper lemmas about the mass of layered circuits. -/

namespace PM.Jax
open Spec MeasureTheory

instance (t : VarType) : SigmaFinite t.measure := by
  cases t with
  | real => exact inferInstanceAs (SigmaFinite volume)
  | states n =>
    have : IsFiniteMeasure (VarType.states n).measure := by
      constructor
      simp only [VarType.measure, Measure.finsetSum_apply]
      simp
    infer_instance

/-- `f` is a density over the variables in `S`. -/
structure Density (types : ℕ → VarType) (f : (ℕ → ℝ) → ℝ) (S : Finset ℕ) : Prop where
  nonneg : ∀ a, 0 ≤ f a
  meas : Measurable f
  dep : ∀ a b, (∀ v ∈ S, a v = b v) → f a = f b
  one : ∀ a, lmarginal (fun v => (types v).measure) S (fun a => ENNReal.ofReal (f a)) a = 1

variable {types : ℕ → VarType}

theorem mass_eq (S : Finset ℕ) (f : (ℕ → ℝ) → ℝ) :
    mass types S f = lmarginal (fun v => (types v).measure) S (fun a => ENNReal.ofReal (f a)) 0 := by
  simp only [mass, lmarginal, Function.updateFinset_def]
  rfl

theorem Density.mass {f : (ℕ → ℝ) → ℝ} {S : Finset ℕ} (h : Density types f S) : mass types S f = 1 := by
  rw [mass_eq, h.one]

/-- A list of weights, densities and scopes. -/
abbrev Terms := List (ℝ × ((ℕ → ℝ) → ℝ) × Finset ℕ)

theorem sum_terms {S : Finset ℕ} : ∀ T : Terms, (∀ t ∈ T, 0 ≤ t.1 ∧ Density types t.2.1 S) →
    (∀ a, 0 ≤ (T.map fun t => t.1 * t.2.1 a).sum) ∧ Measurable (fun a => (T.map fun t => t.1 * t.2.1 a).sum) ∧
    (∀ a b, (∀ v ∈ S, a v = b v) → (T.map fun t => t.1 * t.2.1 a).sum = (T.map fun t => t.1 * t.2.1 b).sum) ∧
    ∀ a, lmarginal (fun v => (types v).measure) S (fun a => ENNReal.ofReal (T.map fun t => t.1 * t.2.1 a).sum) a
      = ENNReal.ofReal (T.map fun t => t.1).sum
  | [], _ => ⟨by simp, by simp, by simp, by simp [lmarginal]⟩
  | t :: T, h => by
    obtain ⟨h1, h2, h3, h4⟩ := sum_terms T fun t' ht' => h t' (List.mem_cons_of_mem _ ht')
    obtain ⟨hw, hd⟩ := h t (List.mem_cons_self ..)
    have hws : 0 ≤ (T.map fun t => t.1).sum := List.sum_nonneg (by
      intro x hx
      obtain ⟨t', ht', rfl⟩ := List.mem_map.1 hx
      exact (h t' (List.mem_cons_of_mem _ ht')).1)
    refine ⟨fun a => ?_, ?_, ?_, fun a => ?_⟩
    · rw [List.map_cons, List.sum_cons]
      exact add_nonneg (mul_nonneg hw (hd.nonneg a)) (h1 a)
    · simp only [List.map_cons, List.sum_cons]
      exact (hd.meas.const_mul _).add h2
    · intro a b hab
      simp only [List.map_cons, List.sum_cons]
      rw [hd.dep a b hab, h3 a b hab]
    · have e : (fun a => ENNReal.ofReal ((t :: T).map fun t => t.1 * t.2.1 a).sum)
          = fun a => ENNReal.ofReal t.1 * ENNReal.ofReal (t.2.1 a) + ENNReal.ofReal (T.map fun t => t.1 * t.2.1 a).sum := by
        funext a
        rw [List.map_cons, List.sum_cons, ENNReal.ofReal_add (mul_nonneg hw (hd.nonneg a)) (h1 a), ENNReal.ofReal_mul hw]
      have h5 := h4 a
      have h6 := hd.one a
      rw [e]
      simp only [lmarginal] at h5 h6 ⊢
      rw [lintegral_add_right, lintegral_const_mul, h5, h6, mul_one, List.map_cons, List.sum_cons, ENNReal.ofReal_add hw hws]
      · exact (hd.meas.comp measurable_updateFinset).ennreal_ofReal
      · exact (h2.comp measurable_updateFinset).ennreal_ofReal

/-- A weighted mean of densities over the same variables is a density. -/
theorem mean_density {S : Finset ℕ} (T : Terms) (h : ∀ t ∈ T, 0 ≤ t.1 ∧ Density types t.2.1 S) (hpos : 0 < (T.map fun t => t.1).sum) :
    Density types (fun a => weightedMean (T.map fun t => (t.1, t.2.1 a))) S := by
  obtain ⟨h1, h2, h3, h4⟩ := sum_terms T h
  have e : ∀ a, weightedMean (T.map fun t => (t.1, t.2.1 a)) = (T.map fun t => t.1 * t.2.1 a).sum * (1 / (T.map fun t => t.1).sum) := by
    intro a
    rw [weightedMean, List.map_map, List.map_map, mul_one_div]
    rfl
  refine ⟨fun a => ?_, ?_, ?_, fun a => ?_⟩
  · rw [e]; exact mul_nonneg (h1 a) (by positivity)
  · simp only [e]; exact h2.mul_const _
  · intro a b hab
    simp only [e]
    rw [h3 a b hab]
  · have e' : (fun a => ENNReal.ofReal (weightedMean (T.map fun t => (t.1, t.2.1 a))))
        = fun a => ENNReal.ofReal (1 / (T.map fun t => t.1).sum) * ENNReal.ofReal (T.map fun t => t.1 * t.2.1 a).sum := by
      funext a
      rw [e, ENNReal.ofReal_mul (h1 a), mul_comm]
    have h5 := h4 a
    rw [e']
    simp only [lmarginal] at h5 ⊢
    rw [lintegral_const_mul, h5, ← ENNReal.ofReal_mul (by positivity), one_div_mul_cancel hpos.ne', ENNReal.ofReal_one]
    exact (h2.comp measurable_updateFinset).ennreal_ofReal

theorem Density.mul {f g : (ℕ → ℝ) → ℝ} {S R : Finset ℕ} (hf : Density types f S) (hg : Density types g R) (hd : Disjoint S R) :
    Density types (fun a => f a * g a) (S ∪ R) := by
  refine ⟨fun a => mul_nonneg (hf.nonneg a) (hg.nonneg a), hf.meas.mul hg.meas, ?_, fun a => ?_⟩
  · intro a b hab
    rw [hf.dep a b fun v hv => hab v (Finset.mem_union_left _ hv), hg.dep a b fun v hv => hab v (Finset.mem_union_right _ hv)]
  · rw [lmarginal_union _ (fun a => ENNReal.ofReal (f a * g a)) (hf.meas.mul hg.meas).ennreal_ofReal hd]
    have : lmarginal (fun v => (types v).measure) R (fun a => ENNReal.ofReal (f a * g a)) = fun a => ENNReal.ofReal (f a) := by
      funext a
      have h1 := hg.one a
      simp only [lmarginal] at h1 ⊢
      have e : ∀ y : R → ℝ, ENNReal.ofReal (f (Function.updateFinset a R y) * g (Function.updateFinset a R y))
          = ENNReal.ofReal (f a) * ENNReal.ofReal (g (Function.updateFinset a R y)) := by
        intro y
        rw [ENNReal.ofReal_mul (hf.nonneg _)]
        congr 2
        apply hf.dep
        intro v hv
        simp only [Function.updateFinset_def]
        exact dif_neg (Finset.disjoint_left.1 hd hv)
      simp only [e]
      rw [lintegral_const_mul, h1, mul_one]
      exact (hg.meas.comp measurable_updateFinset).ennreal_ofReal
    rw [this]
    exact hf.one a

theorem one_density : Density types (fun _ => 1) ∅ :=
  ⟨by simp, by simp, by simp, by simp⟩

/-- A product of densities over disjoint sets of variables is a density. -/
theorem prod_density : ∀ T : List (((ℕ → ℝ) → ℝ) × Finset ℕ), (∀ t ∈ T, Density types t.1 t.2) → (T.map Prod.snd).Pairwise Disjoint →
    Density types (fun a => (T.map fun t => t.1 a).prod) (unionOf (T.map Prod.snd))
  | [], _, _ => by simpa [unionOf] using one_density
  | t :: T, h, hd => by
    rw [List.map_cons, List.pairwise_cons] at hd
    have ih := prod_density T (fun t' ht' => h t' (List.mem_cons_of_mem _ ht')) hd.2
    simp only [List.map_cons, List.prod_cons]
    refine (h t (List.mem_cons_self ..)).mul ih ?_
    generalize T.map Prod.snd = l at hd
    have h1 := hd.1
    clear hd ih
    induction l with
    | nil => simp
    | cons s l ih =>
      rw [List.foldr_cons, Finset.disjoint_union_right]
      exact ⟨h1 s (List.mem_cons_self ..), ih fun s hs => h1 s (List.mem_cons_of_mem _ hs)⟩

theorem single_density {v : ℕ} {f : ℝ → ℝ} (h0 : ∀ y, 0 ≤ f y) (hm : Measurable f)
    (h1 : ∫⁻ y, ENNReal.ofReal (f y) ∂(types v).measure = 1) : Density types (fun a => f (a v)) {v} := by
  refine ⟨fun a => h0 _, hm.comp (measurable_pi_apply v), ?_, fun a => ?_⟩
  · intro a b hab
    rw [hab v (by simp)]
  · rw [lmarginal_singleton]
    simpa using h1

theorem measurable_stateIndex (k : ℕ) : Measurable (stateIndex k) := by
  have h1 : Measurable fun y : ℝ => if 0 ≤ y then ⌊y⌋ else ⌈y⌉ :=
    Measurable.ite measurableSet_Ici Int.measurable_floor Int.measurable_ceil
  exact (measurable_of_countable fun i : ℤ => min (if i < 0 then i + k else i).toNat (k - 1)).comp h1

theorem sum_range_getD : ∀ l : List ℝ, ∑ i ∈ Finset.range l.length, l.getD i 0 = l.sum
  | [] => by simp
  | x :: l => by
    rw [List.length_cons, Finset.sum_range_succ', List.sum_cons, ← sum_range_getD l]
    simp [add_comm]

/-- The nodes of an input layer are densities. -/
theorem input_density {v : ℕ} {f : InputNode} (h : NodeFits (types v) f) : Density types (fun a => (f.logDensity (a v)).exp) {v} := by
  refine single_density (fun y => LogP.exp_nonneg _) ?_ ?_
  · cases f with
    | uniform l u =>
      have : (fun y => ((InputNode.uniform l u).logDensity y).exp) = fun y => if y ∈ Set.Ioo l u then Real.exp (-Real.log (u - l)) else 0 := by
        funext y
        simp only [InputNode.logDensity, Set.mem_Ioo]
        split <;> rfl
      rw [this]
      exact Measurable.ite measurableSet_Ioo measurable_const measurable_const
    | dirac l c => cases ht : types v <;> simp [ht, NodeFits] at h
    | gaussian l s m =>
      have : (fun y => ((InputNode.gaussian l s m).logDensity y).exp) = ProbabilityTheory.gaussianPDFReal l (Leaf.nnvar (scale s m)) := by
        funext y
        rw [InputNode.logDensity, LogP.exp_log (ProbabilityTheory.gaussianPDFReal_nonneg ..)]
      rw [this]
      exact ProbabilityTheory.measurable_gaussianPDFReal _ _
    | discrete logs =>
      exact (measurable_of_countable fun i : ℕ => (logs.getD i .negInf - LogP.logsumexp logs).exp).comp (measurable_stateIndex logs.length)
  · cases f with
    | uniform l u =>
      cases ht : types v with
      | states n => simp [ht, NodeFits] at h
      | real =>
        have hlu : l < u := by simpa [ht, NodeFits] using h
        have : (fun y => ENNReal.ofReal ((InputNode.uniform l u).logDensity y).exp)
            = (Set.Ioo l u).indicator fun _ => ENNReal.ofReal (1 / (u - l)) := by
          funext y
          simp only [InputNode.logDensity, Set.indicator, Set.mem_Ioo]
          split
          · rw [LogP.exp_fin, Real.exp_neg, Real.exp_log (by linarith), one_div]
          · simp
        rw [VarType.measure, this, lintegral_indicator measurableSet_Ioo]
        simp only [lintegral_const, MeasurableSet.univ, Measure.restrict_apply, Set.univ_inter, Real.volume_Ioo]
        rw [← ENNReal.ofReal_mul (by have : 0 < u - l := by linarith
                                     positivity), one_div_mul_cancel (by linarith), ENNReal.ofReal_one]
    | dirac l c => cases ht : types v <;> simp [ht, NodeFits] at h
    | gaussian l s m =>
      cases ht : types v with
      | states n => simp [ht, NodeFits] at h
      | real =>
        have hm : 0 ≤ m := by simpa [ht, NodeFits] using h
        have hs : 0 < scale s m := add_pos_of_pos_of_nonneg (Real.exp_pos _) hm
        have hv : Leaf.nnvar (scale s m) ≠ 0 := by
          intro h0
          have : (Leaf.nnvar (scale s m) : ℝ) = 0 := by rw [h0]; rfl
          exact hs.ne' (pow_eq_zero_iff (two_ne_zero) |>.1 this)
        rw [VarType.measure, ← ProbabilityTheory.lintegral_gaussianPDFReal_eq_one l hv]
        congr 1
        funext y
        rw [InputNode.logDensity, LogP.exp_log (ProbabilityTheory.gaussianPDFReal_nonneg ..)]
    | discrete logs =>
      cases ht : types v with
      | real => simp [ht, NodeFits] at h
      | states n =>
        obtain ⟨hl, l, hl1, hl2⟩ : logs.length = n ∧ ∃ l ∈ logs, l ≠ LogP.negInf := by simpa [ht, NodeFits] using h
        subst hl
        have hpos := sum_pos_of_mem hl1 hl2
        rw [VarType.measure, lintegral_finsetSum_measure]
        simp only [lintegral_dirac]
        rw [← ENNReal.ofReal_sum_of_nonneg fun i _ => LogP.exp_nonneg _]
        have : ∑ i ∈ Finset.range logs.length, ((InputNode.discrete logs).logDensity (i : ℝ)).exp = 1 := by
          have e : ∀ i ∈ Finset.range logs.length, ((InputNode.discrete logs).logDensity (i : ℝ)).exp
              = (logs.map LogP.exp).getD i 0 / (logs.map LogP.exp).sum := by
            intro i hi
            rw [Finset.mem_range] at hi
            rw [InputNode.logDensity, stateIndex_nat hi, LogP.exp_sub (LogP.exp_pos.1 (by rw [LogP.exp_logsumexp]; exact hpos)), LogP.exp_logsumexp, exp_getD]
          rw [Finset.sum_congr rfl e, ← Finset.sum_div]
          have : ∑ i ∈ Finset.range logs.length, (logs.map LogP.exp).getD i 0 = (logs.map LogP.exp).sum := by
            rw [← List.length_map (f := LogP.exp)]
            exact sum_range_getD _
          rw [this, div_self hpos.ne']
        rw [this, ENNReal.ofReal_one]

end PM.Jax
