import Verif.Circuit.ValueLemmas
import Mathlib.MeasureTheory.Integral.Marginal

/-! Integrals of circuit values: the Fubini argument.  Helper lemmas for C04–C06 and C16. -/

set_option linter.unusedSectionVars false

namespace PM

open Spec Graph MeasureTheory
open scoped ENNReal

/-- Circuit values in `[0,∞]`. -/
structure ECircuitValue {D : Type} (g : Graph D) (ℓ : D → ℝ≥0∞) (f : Node → ℝ≥0∞) : Prop where
  leaf : ∀ n d, g.kind? n = some (.leaf d) → f n = ℓ d
  sum : ∀ n, g.kind? n = some .sum → f n = ((g.outEdges n).map fun e => ENNReal.ofReal (linWeight e) * f e.dst).sum
  prod : ∀ n, g.kind? n = some .prod → f n = ((g.outEdges n).map fun e => f e.dst).prod

theorem ofReal_list_sum {α : Type} (l : List α) (f : α → ℝ) (h : ∀ a ∈ l, 0 ≤ f a) :
    ENNReal.ofReal (l.map f).sum = (l.map fun a => ENNReal.ofReal (f a)).sum := by
  induction l with
  | nil => simp
  | cons a l ih =>
    have hl : ∀ a ∈ l, 0 ≤ f a := fun b hb => h b (by simp [hb])
    have hs : 0 ≤ (l.map f).sum := List.sum_nonneg (by
      intro x hx; obtain ⟨b, hb, rfl⟩ := List.mem_map.1 hx; exact hl b hb)
    simp only [List.map_cons, List.sum_cons]
    rw [ENNReal.ofReal_add (h a (by simp)) hs, ih hl]

theorem ofReal_list_prod {α : Type} (l : List α) (f : α → ℝ) (h : ∀ a ∈ l, 0 ≤ f a) :
    ENNReal.ofReal (l.map f).prod = (l.map fun a => ENNReal.ofReal (f a)).prod := by
  induction l with
  | nil => simp
  | cons a l ih =>
    simp only [List.map_cons, List.prod_cons]
    rw [ENNReal.ofReal_mul (h a (by simp)), ih (fun b hb => h b (by simp [hb]))]

/-- A real non-negative circuit value is a `[0,∞]` circuit value. -/
theorem ecv_ofReal {D : Type} {g : Graph D} (hw : g.WF) (ha : g.Acyclic) {ℓ : D → ℝ} {f : Node → ℝ}
    (h : CircuitValue g ℓ f) (hℓ : ∀ n d, g.kind? n = some (.leaf d) → 0 ≤ ℓ d) :
    ECircuitValue g (fun d => ENNReal.ofReal (ℓ d)) (fun n => ENNReal.ofReal (f n)) := by
  have hnn := circuitValue_nonneg hw ha h hℓ
  have hch : ∀ n, ∀ e ∈ g.outEdges n, 0 ≤ f e.dst := fun n e he => hnn _ (succ_mem_ids hw (dst_mem_succ he))
  refine ⟨fun n d hk => by rw [h.leaf n d hk], fun n hk => ?_, fun n hk => ?_⟩
  · rw [h.sum n hk, ofReal_list_sum _ _ (fun e he => mul_nonneg (linWeight_nonneg e) (hch n e he))]
    congr 1
    exact List.map_congr_left (fun e _ => ENNReal.ofReal_mul (linWeight_nonneg e))
  · rw [h.prod n hk, ofReal_list_prod _ _ (fun e he => hch n e he)]

theorem ecv_unique {D : Type} {g : Graph D} (hw : g.WF) (ha : g.Acyclic) {ℓ : D → ℝ≥0∞} {f f' : Node → ℝ≥0∞}
    (h : ECircuitValue g ℓ f) (h' : ECircuitValue g ℓ f') : ∀ n ∈ g.ids, f n = f' n := by
  suffices H : ∀ n, n ∈ g.ids → f n = f' n from H
  refine ha.induct ?_
  intro n ih hn
  obtain ⟨k, hk⟩ := exists_kind? hn
  have hch : ∀ e ∈ g.outEdges n, f e.dst = f' e.dst := fun e he =>
    ih _ (dst_mem_succ he) (succ_mem_ids hw (dst_mem_succ he))
  cases k with
  | leaf d => rw [h.leaf n d hk, h'.leaf n d hk]
  | sum =>
    rw [h.sum n hk, h'.sum n hk]
    congr 1
    exact List.map_congr_left (fun e he => by rw [hch e he])
  | prod =>
    rw [h.prod n hk, h'.prod n hk]
    congr 1
    exact List.map_congr_left (fun e he => hch e he)

theorem ecv_congr {D : Type} {g : Graph D} {ℓ ℓ' : D → ℝ≥0∞} {f : Node → ℝ≥0∞} (h : ECircuitValue g ℓ f)
    (he : ∀ n d, g.kind? n = some (.leaf d) → ℓ d = ℓ' d) : ECircuitValue g ℓ' f :=
  ⟨fun n d hk => by rw [h.leaf n d hk, he n d hk], h.sum, h.prod⟩

noncomputable def evalueFuel {D : Type} (g : Graph D) (ℓ : D → ℝ≥0∞) : Nat → Node → ℝ≥0∞
  | 0, _ => 0
  | k + 1, n =>
    match g.kind? n with
    | none => 0
    | some (.leaf d) => ℓ d
    | some .sum => ((g.outEdges n).map fun e => ENNReal.ofReal (linWeight e) * evalueFuel g ℓ k e.dst).sum
    | some .prod => ((g.outEdges n).map fun e => evalueFuel g ℓ k e.dst).prod

theorem exists_ecv {D : Type} {g : Graph D} (ha : g.Acyclic) (ℓ : D → ℝ≥0∞) : ∃ f, ECircuitValue g ℓ f := by
  obtain ⟨rank, hr⟩ := ha
  have st : ∀ k n, rank n < k → evalueFuel g ℓ (k + 1) n = evalueFuel g ℓ k n := by
    intro k
    induction k with
    | zero => intro n h; omega
    | succ k ih =>
      intro n hn
      have hch : ∀ e ∈ g.outEdges n, evalueFuel g ℓ (k + 1) e.dst = evalueFuel g ℓ k e.dst := by
        intro e he
        obtain ⟨he1, he2⟩ := mem_outEdges.1 he
        have := hr e he1
        rw [he2] at this
        exact ih _ (by omega)
      rw [evalueFuel.eq_2 g ℓ n (k + 1), evalueFuel.eq_2 g ℓ n k]
      have h1 : ((g.outEdges n).map fun e => ENNReal.ofReal (linWeight e) * evalueFuel g ℓ (k + 1) e.dst)
          = (g.outEdges n).map fun e => ENNReal.ofReal (linWeight e) * evalueFuel g ℓ k e.dst :=
        List.map_congr_left (fun e he => by rw [hch e he])
      have h2 : ((g.outEdges n).map fun e => evalueFuel g ℓ (k + 1) e.dst)
          = (g.outEdges n).map fun e => evalueFuel g ℓ k e.dst :=
        List.map_congr_left (fun e he => hch e he)
      rw [h1, h2]
  have st' : ∀ k j n, rank n < k → k ≤ j → evalueFuel g ℓ j n = evalueFuel g ℓ k n := by
    intro k j n h hj
    induction j, hj using Nat.le_induction with
    | base => rfl
    | succ j hj ih => rw [st j n (by omega), ih]
  refine ⟨fun n => evalueFuel g ℓ (rank n + 1) n, ?_, ?_, ?_⟩
  · intro n d h; simp [evalueFuel, h]
  · intro n h
    simp only [evalueFuel, h]
    congr 1
    apply List.map_congr_left
    intro e he
    obtain ⟨he1, he2⟩ := mem_outEdges.1 he
    have := hr e he1
    rw [he2] at this
    rw [st' (rank e.dst + 1) (rank n) e.dst (by omega) (by omega)]
    rfl
  · intro n h
    simp only [evalueFuel, h]
    congr 1
    apply List.map_congr_left
    intro e he
    obtain ⟨he1, he2⟩ := mem_outEdges.1 he
    have := hr e he1
    rw [he2] at this
    exact st' (rank e.dst + 1) (rank n) e.dst (by omega) (by omega)

/-! ### Marginal integrals of sums and products -/

variable {μ : Var → Measure ℝ} [∀ v, SigmaFinite (μ v)]

theorem lmarginal_add {s : Finset Var} {f h : (Var → ℝ) → ℝ≥0∞} (hf : Measurable f) :
    (∫⋯∫⁻_s, (fun x => f x + h x) ∂μ) = fun x => (∫⋯∫⁻_s, f ∂μ) x + (∫⋯∫⁻_s, h ∂μ) x := by
  funext x
  simp only [lmarginal]
  exact lintegral_add_left (hf.comp measurable_updateFinset) _

theorem lmarginal_const_mul {s : Finset Var} {f : (Var → ℝ) → ℝ≥0∞} (hf : Measurable f) (c : ℝ≥0∞) :
    (∫⋯∫⁻_s, (fun x => c * f x) ∂μ) = fun x => c * (∫⋯∫⁻_s, f ∂μ) x := by
  funext x
  simp only [lmarginal]
  exact lintegral_const_mul _ (hf.comp measurable_updateFinset)

theorem lmarginal_zero {s : Finset Var} : (∫⋯∫⁻_s, (fun _ => 0) ∂μ) = fun _ => 0 := by
  funext x
  simp [lmarginal]

theorem lmarginal_list_sum {α : Type} {s : Finset Var} (l : List α) (F : α → (Var → ℝ) → ℝ≥0∞)
    (hF : ∀ a ∈ l, Measurable (F a)) :
    (∫⋯∫⁻_s, (fun x => (l.map fun a => F a x).sum) ∂μ) = fun x => (l.map fun a => (∫⋯∫⁻_s, F a ∂μ) x).sum := by
  induction l with
  | nil => simpa using lmarginal_zero
  | cons a l ih =>
    simp only [List.map_cons, List.sum_cons]
    rw [lmarginal_add (hF a (by simp)), ih (fun b hb => hF b (by simp [hb]))]

theorem measurable_list_sum {α : Type} (l : List α) (F : α → (Var → ℝ) → ℝ≥0∞) (hF : ∀ a ∈ l, Measurable (F a)) :
    Measurable fun x => (l.map fun a => F a x).sum := by
  induction l with
  | nil => simp
  | cons a l ih =>
    simp only [List.map_cons, List.sum_cons]
    exact (hF a (by simp)).add (ih (fun b hb => hF b (by simp [hb])))

theorem measurable_list_prod {α : Type} (l : List α) (F : α → (Var → ℝ) → ℝ≥0∞) (hF : ∀ a ∈ l, Measurable (F a)) :
    Measurable fun x => (l.map fun a => F a x).prod := by
  induction l with
  | nil => simp
  | cons a l ih =>
    simp only [List.map_cons, List.prod_cons]
    exact (hF a (by simp)).mul (ih (fun b hb => hF b (by simp [hb])))

/-- `f` only looks at the variables in `s`. -/
def DependsOn (f : (Var → ℝ) → ℝ≥0∞) (s : Finset Var) : Prop := ∀ x y : Var → ℝ, (∀ v ∈ s, x v = y v) → f x = f y

theorem lmarginal_mul_left {s t : Finset Var} {f h : (Var → ℝ) → ℝ≥0∞} (hf : DependsOn f s) (hst : Disjoint s t)
    (hh : Measurable h) : (∫⋯∫⁻_t, (fun x => f x * h x) ∂μ) = fun x => f x * (∫⋯∫⁻_t, h ∂μ) x := by
  funext x
  simp only [lmarginal]
  have hm : Measurable fun y : (i : t) → ℝ => h (Function.updateFinset x t y) := hh.comp measurable_updateFinset
  rw [← lintegral_const_mul _ hm]
  congr 1
  funext y
  rw [hf (Function.updateFinset x t y) x]
  intro v hv
  have : v ∉ t := Finset.disjoint_left.1 hst hv
  simp [Function.updateFinset, this]

theorem lmarginal_list_prod {α : Type} (l : List α) (F : α → (Var → ℝ) → ℝ≥0∞) (S : α → Finset Var) (G : α → ℝ≥0∞)
    (hF : ∀ a ∈ l, Measurable (F a)) (hd : ∀ a ∈ l, DependsOn (F a) (S a))
    (hp : l.Pairwise fun a b => Disjoint (S a) (S b)) (hG : ∀ a ∈ l, (∫⋯∫⁻_(S a), F a ∂μ) = fun _ => G a) :
    (∫⋯∫⁻_((l.map S).foldr (· ∪ ·) ∅), (fun x => (l.map fun a => F a x).prod) ∂μ) = fun _ => (l.map G).prod := by
  induction l with
  | nil => simp
  | cons a l ih =>
    have hl := measurable_list_prod l F (fun b hb => hF b (by simp [hb]))
    have hdis : Disjoint (S a) ((l.map S).foldr (· ∪ ·) ∅) := by
      rw [Finset.disjoint_left]
      intro v hv hv'
      obtain ⟨s, hs, hvs⟩ := (mem_foldr_union _ _).1 hv'
      obtain ⟨b, hb, rfl⟩ := List.mem_map.1 hs
      exact Finset.disjoint_left.1 ((List.pairwise_cons.1 hp).1 b hb) hv hvs
    simp only [List.map_cons, List.foldr_cons, List.prod_cons]
    rw [lmarginal_union μ (fun x => F a x * (l.map fun a => F a x).prod) ((hF a (by simp)).mul hl) hdis, lmarginal_mul_left (hd a (by simp)) hdis hl,
      ih (fun b hb => hF b (by simp [hb])) (fun b hb => hd b (by simp [hb])) (List.pairwise_cons.1 hp).2
        (fun b hb => hG b (by simp [hb]))]
    simp only
    have : (fun x => F a x * (l.map G).prod) = fun x => (l.map G).prod * F a x := by
      funext x; exact mul_comm _ _
    rw [this, lmarginal_const_mul (hF a (by simp)), hG a (by simp)]
    funext x
    exact mul_comm _ _

/-! ### The network polynomial -/

variable {g : Circuit} {sc : Node → Finset Var}

theorem ecv_measurable (hw : g.WF) (ha : g.Acyclic) {ψ : Leaf → ℝ → ℝ≥0∞} (hψ : ∀ d, Measurable (ψ d))
    {F : (Var → ℝ) → Node → ℝ≥0∞} (hF : ∀ x, ECircuitValue g (fun d => ψ d (x d.var)) (F x)) :
    ∀ n ∈ g.ids, Measurable fun x => F x n := by
  suffices H : ∀ n, n ∈ g.ids → Measurable fun x => F x n from H
  refine ha.induct ?_
  intro n ih hn
  obtain ⟨k, hk⟩ := exists_kind? hn
  have hch : ∀ e ∈ g.outEdges n, Measurable fun x => F x e.dst := fun e he =>
    ih _ (dst_mem_succ he) (succ_mem_ids hw (dst_mem_succ he))
  cases k with
  | leaf d =>
    have : (fun x => F x n) = fun x : Var → ℝ => ψ d (x d.var) := by
      funext x; exact (hF x).leaf n d hk
    rw [this]
    exact (hψ d).comp (measurable_pi_apply _)
  | sum =>
    have : (fun x => F x n) = fun x => ((g.outEdges n).map fun e => ENNReal.ofReal (linWeight e) * F x e.dst).sum := by
      funext x; exact (hF x).sum n hk
    rw [this]
    exact measurable_list_sum _ (fun e x => ENNReal.ofReal (linWeight e) * F x e.dst)
      (fun e he => (hch e he).const_mul _)
  | prod =>
    have : (fun x => F x n) = fun x => ((g.outEdges n).map fun e => F x e.dst).prod := by
      funext x; exact (hF x).prod n hk
    rw [this]
    exact measurable_list_prod _ (fun (e : Edge) x => F x e.dst) hch

theorem ecv_dependsOn (hw : g.WF) (ha : g.Acyclic) (hs : Scoped g sc) {ψ : Leaf → ℝ → ℝ≥0∞}
    {F : (Var → ℝ) → Node → ℝ≥0∞} (hF : ∀ x, ECircuitValue g (fun d => ψ d (x d.var)) (F x)) :
    ∀ n ∈ g.ids, DependsOn (fun x => F x n) (sc n) := by
  suffices H : ∀ n, n ∈ g.ids → DependsOn (fun x => F x n) (sc n) from H
  refine ha.induct ?_
  intro n ih hn x y hxy
  obtain ⟨k, hk⟩ := exists_kind? hn
  have hch : ∀ e ∈ g.outEdges n, sc e.dst ⊆ sc n → F x e.dst = F y e.dst := fun e he hsub =>
    ih _ (dst_mem_succ he) (succ_mem_ids hw (dst_mem_succ he)) x y (fun v hv => hxy v (hsub hv))
  cases k with
  | leaf d =>
    simp only [(hF x).leaf n d hk, (hF y).leaf n d hk]
    rw [hxy d.var (by simp [hs.leaf n d hk])]
  | sum =>
    simp only [(hF x).sum n hk, (hF y).sum n hk]
    congr 1
    exact List.map_congr_left (fun e he => by rw [hch e he (hs.sum n hk _ (dst_mem_succ he)).subset])
  | prod =>
    simp only [(hF x).prod n hk, (hF y).prod n hk]
    congr 1
    exact List.map_congr_left (fun e he => hch e he (fun v hv => (hs.prod n hk v).2 ⟨_, dst_mem_succ he, hv⟩))

/-- Integrating the value of a smooth decomposable circuit over the variables of a unit means integrating the leaves. -/
theorem lmarginal_ecv (hw : g.WF) (ha : g.Acyclic) (hs : Scoped g sc) (hdec : Decomposable g sc)
    {ψ : Leaf → ℝ → ℝ≥0∞} (hψ : ∀ d, Measurable (ψ d))
    {F : (Var → ℝ) → Node → ℝ≥0∞} (hF : ∀ x, ECircuitValue g (fun d => ψ d (x d.var)) (F x))
    {G : Node → ℝ≥0∞} (hG : ECircuitValue g (fun d => ∫⁻ t, ψ d t ∂μ d.var) G) :
    ∀ n ∈ g.ids, (∫⋯∫⁻_(sc n), (fun x => F x n) ∂μ) = fun _ => G n := by
  suffices H : ∀ n, n ∈ g.ids → (∫⋯∫⁻_(sc n), (fun x => F x n) ∂μ) = fun _ => G n from H
  have hmeas := ecv_measurable hw ha hψ hF
  have hdep := ecv_dependsOn hw ha hs hF
  refine ha.induct ?_
  intro n ih hn
  obtain ⟨k, hk⟩ := exists_kind? hn
  have hmem : ∀ e ∈ g.outEdges n, e.dst ∈ g.ids := fun e he => succ_mem_ids hw (dst_mem_succ he)
  have hch := fun e he => ih _ (dst_mem_succ he) (hmem e he)
  cases k with
  | leaf d =>
    have : (fun x => F x n) = fun x : Var → ℝ => ψ d (x d.var) := by
      funext x; exact (hF x).leaf n d hk
    rw [this, hs.leaf n d hk, lmarginal_singleton, hG.leaf n d hk]
    funext x
    simp
  | sum =>
    have : (fun x => F x n) = fun x => ((g.outEdges n).map fun e => ENNReal.ofReal (linWeight e) * F x e.dst).sum := by
      funext x; exact (hF x).sum n hk
    rw [this, lmarginal_list_sum _ (fun e x => ENNReal.ofReal (linWeight e) * F x e.dst)
      (fun e he => (hmeas _ (hmem e he)).const_mul _), hG.sum n hk]
    funext x
    congr 1
    apply List.map_congr_left
    intro e he
    rw [lmarginal_const_mul (hmeas _ (hmem e he)), ← hs.sum n hk _ (dst_mem_succ he), hch e he]
  | prod =>
    have : (fun x => F x n) = fun x => ((g.outEdges n).map fun e => F x e.dst).prod := by
      funext x; exact (hF x).prod n hk
    have hsc : sc n = ((g.outEdges n).map fun e => sc e.dst).foldr (· ∪ ·) ∅ := by
      ext v
      rw [mem_foldr_union, hs.prod n hk v]
      simp [succ]
    rw [this, hsc, lmarginal_list_prod (g.outEdges n) (fun e x => F x e.dst) (fun e => sc e.dst) (fun e => G e.dst)
      (fun e he => hmeas _ (hmem e he)) (fun e he => hdep _ (hmem e he)) ?_ hch, hG.prod n hk]
    have := hdec n hk
    simpa [succ, List.pairwise_map] using this

end PM
