import Verif.Jax.FitLemmas

/-!
# The skeleton determines which points are possible
-/

namespace PM.Jax
open PM.Spec

/-- Both numbers are positive or both are zero. -/
def SameSign (x y : ℝ) : Prop := 0 ≤ x ∧ 0 ≤ y ∧ (0 < x ↔ 0 < y)

theorem sameSign_zero : SameSign 0 0 := ⟨le_rfl, le_rfl, Iff.rfl⟩

theorem SameSign.eq_zero {x y : ℝ} (h : SameSign x y) : x = 0 ↔ y = 0 := by
  obtain ⟨hx, hy, hxy⟩ := h
  constructor
  · rintro rfl
    by_contra h
    exact lt_irrefl 0 (hxy.2 (lt_of_le_of_ne hy (Ne.symm h)))
  · rintro rfl
    by_contra h
    exact lt_irrefl 0 (hxy.1 (lt_of_le_of_ne hx (Ne.symm h)))

theorem sameSign_of {x y : ℝ} (hx : 0 ≤ x) (hy : 0 ≤ y) (h : x = 0 ↔ y = 0) : SameSign x y := by
  refine ⟨hx, hy, ?_⟩
  rw [lt_iff_le_and_ne, lt_iff_le_and_ne, ne_comm, ne_comm (a := (0 : ℝ)) (b := y), ne_eq, ne_eq, h]
  simp [hx, hy]

theorem SameSign.mul {x y x' y' : ℝ} (h : SameSign x y) (h' : SameSign x' y') : SameSign (x * x') (y * y') := by
  refine sameSign_of (mul_nonneg h.1 h'.1) (mul_nonneg h.2.1 h'.2.1) ?_
  rw [mul_eq_zero, mul_eq_zero, h.eq_zero, h'.eq_zero]

theorem SameSign.add {x y x' y' : ℝ} (h : SameSign x y) (h' : SameSign x' y') : SameSign (x + x') (y + y') := by
  refine sameSign_of (add_nonneg h.1 h'.1) (add_nonneg h.2.1 h'.2.1) ?_
  rw [add_eq_zero_iff_of_nonneg h.1 h'.1, add_eq_zero_iff_of_nonneg h.2.1 h'.2.1, h.eq_zero, h'.eq_zero]

theorem SameSign.div {x y x' y' : ℝ} (h : SameSign x y) (h' : SameSign x' y') : SameSign (x / x') (y / y') := by
  refine sameSign_of (div_nonneg h.1 h'.1) (div_nonneg h.2.1 h'.2.1) ?_
  rw [div_eq_zero_iff, div_eq_zero_iff, h.eq_zero, h'.eq_zero]

theorem sameSign_sum {l m : List ℝ} (h : List.Forall₂ SameSign l m) : SameSign l.sum m.sum := by
  induction h with
  | nil => exact sameSign_zero
  | cons h _ ih => rw [List.sum_cons, List.sum_cons]; exact h.add ih

theorem sameSign_prod {l m : List ℝ} (h : List.Forall₂ SameSign l m) : SameSign l.prod m.prod := by
  induction h with
  | nil => exact ⟨by simp, by simp, by simp⟩
  | cons h _ ih => rw [List.prod_cons, List.prod_cons]; exact h.mul ih

theorem sameSign_weightedMean {l m : List (ℝ × ℝ)} (h : List.Forall₂ (fun p q => SameSign p.1 q.1 ∧ SameSign p.2 q.2) l m) :
    SameSign (weightedMean l) (weightedMean m) := by
  unfold weightedMean
  refine (sameSign_sum ?_).div (sameSign_sum ?_)
  · rw [List.forall₂_map_left_iff, List.forall₂_map_right_iff]
    exact h.imp fun p q h => h.1.mul h.2
  · rw [List.forall₂_map_left_iff, List.forall₂_map_right_iff]
    exact h.imp fun p q h => h.1

theorem sameSign_getD {l m : List ℝ} (h : List.Forall₂ SameSign l m) (i : ℕ) : SameSign (l.getD i 0) (m.getD i 0) := by
  induction h generalizing i with
  | nil => exact sameSign_zero
  | cons h _ ih =>
    cases i with
    | zero => exact h
    | succ i => exact ih i

theorem sameSign_exp {p q : LogP} (h : p = .negInf ↔ q = .negInf) : SameSign p.exp q.exp :=
  sameSign_of p.exp_nonneg q.exp_nonneg (by rw [LogP.exp_eq_zero, LogP.exp_eq_zero, h])

theorem sameSign_blank (p : LogP) : SameSign p.exp (blankLog p).exp := sameSign_exp blank_eq_negInf.symm

theorem sameSign_refl {x : ℝ} (h : 0 ≤ x) : SameSign x x := ⟨h, h, Iff.rfl⟩

theorem logsumexp_ne {logs : List LogP} (h : ∃ l ∈ logs, l ≠ LogP.negInf) : LogP.logsumexp logs ≠ .negInf := by
  obtain ⟨l, hl, hne⟩ := h
  rw [← LogP.exp_pos, LogP.exp_logsumexp]
  refine lt_of_lt_of_le (LogP.exp_pos.2 hne) (List.single_le_sum ?_ _ (List.mem_map_of_mem hl))
  intro x hx
  obtain ⟨p, _, rfl⟩ := List.mem_map.1 hx
  exact p.exp_nonneg

theorem getD_blank (logs : List LogP) (i : ℕ) : (logs.map blankLog).getD i .negInf = blankLog (logs.getD i .negInf) := by
  rw [List.getD_eq_getElem?_getD, List.getD_eq_getElem?_getD, List.getElem?_map]
  cases logs[i]? <;> rfl

theorem sameSign_node {t : VarType} {f : InputNode} (hf : NodeFits t f) (y : ℝ) :
    SameSign (f.logDensity y).exp ((blankInput f).logDensity y).exp := by
  cases f with
  | uniform lower upper => exact sameSign_refl (LogP.exp_nonneg _)
  | dirac location cap => exact sameSign_refl (LogP.exp_nonneg _)
  | gaussian location logScale minScale =>
    have hm : 0 ≤ minScale := by
      cases t with
      | real => exact hf
      | states n => exact hf.elim
    have pos : ∀ l s : ℝ, 0 < (LogP.log (ProbabilityTheory.gaussianPDFReal l (Leaf.nnvar (scale s minScale)) y)).exp := by
      intro l s
      rw [LogP.exp_log (ProbabilityTheory.gaussianPDFReal_nonneg _ _ _)]
      apply ProbabilityTheory.gaussianPDFReal_pos
      intro h
      have : 0 < scale s minScale := by unfold scale; positivity
      have h2 := congrArg NNReal.toReal h
      simp [Leaf.nnvar] at h2
      exact absurd h2 (pow_pos this 2).ne'
    exact ⟨(pos _ _).le, (pos _ _).le, fun _ => pos _ _, fun _ => pos _ _⟩
  | discrete logs =>
    have hs : ∃ l ∈ logs, l ≠ LogP.negInf := by
      cases t with
      | real => exact hf.elim
      | states n => exact hf.2
    have hs' : ∃ l ∈ logs.map blankLog, l ≠ LogP.negInf := by
      obtain ⟨l, hl, hne⟩ := hs
      exact ⟨blankLog l, List.mem_map_of_mem hl, fun h => hne (blank_eq_negInf.1 h)⟩
    simp only [blankInput, InputNode.logDensity]
    rw [LogP.exp_sub (logsumexp_ne hs), LogP.exp_sub (logsumexp_ne hs'), getD_blank, List.length_map]
    refine (sameSign_blank _).div ?_
    exact sameSign_exp ⟨fun h => absurd h (logsumexp_ne hs), fun h => absurd h (logsumexp_ne hs')⟩

theorem forall₂_zip {α β γ δ : Type} {R : α → β → Prop} {S : γ → δ → Prop} {l : List α} {m : List β} (h : List.Forall₂ R l m) :
    ∀ {l' : List γ} {m' : List δ}, List.Forall₂ S l' m' → List.Forall₂ (fun p q => R p.1 q.1 ∧ S p.2 q.2) (l.zip l') (m.zip m') := by
  induction h with
  | nil => intro l' m' _; exact .nil
  | cons h _ ih =>
    intro l' m' h'
    cases h' with
    | nil => exact .nil
    | cons h1 h2 => exact .cons ⟨h, h1⟩ (ih h2)

theorem forall₂_flatMap {α β γ δ : Type} {R : α → β → Prop} {S : γ → δ → Prop} {l : List α} {m : List β} (h : List.Forall₂ R l m)
    {f : α → List γ} {f' : β → List δ} (hf : ∀ x y, R x y → List.Forall₂ S (f x) (f' y)) : List.Forall₂ S (l.flatMap f) (m.flatMap f') := by
  induction h with
  | nil => exact .nil
  | cons h _ ih => rw [List.flatMap_cons, List.flatMap_cons]; exact List.rel_append (hf _ _ h) ih

mutual
theorem sameSign_skeleton (types : ℕ → VarType) (a : ℕ → ℝ) : ∀ L : Layer, TypedInputs types L →
    List.Forall₂ SameSign (layerValue a L) (layerValue a (skeleton L))
  | .input v nodes, h => by
    cases h with
    | input _ _ fits =>
      rw [skeleton, layerValue, layerValue, List.map_map, List.forall₂_map_left_iff, List.forall₂_map_right_iff, List.forall₂_same]
      exact fun f hf => sameSign_node (fits f hf) _
  | .sparseSum ws cs, h => by
    cases h with
    | sparseSum _ _ children =>
      have hn := skeleton_numberOfNodes (.sparseSum ws cs)
      rw [skeleton] at hn ⊢
      rw [layerValue, layerValue, hn, List.forall₂_map_left_iff, List.forall₂_map_right_iff, List.forall₂_same]
      intro i _
      apply sameSign_weightedMean
      refine forall₂_flatMap (forall₂_zip (R := fun (w w' : Coo) => w'.entries = w.entries.map fun e => (e.1, e.2.1, blankLog e.2.2)) ?_
        (sameSign_skeletons types a cs children)) ?_
      · rw [List.forall₂_map_right_iff, List.forall₂_same]
        exact fun w _ => rfl
      · rintro ⟨w, vs⟩ ⟨w', vs'⟩ ⟨he, hv⟩
        simp only [sparseTerms] at he hv ⊢
        rw [he, List.filter_map, List.map_map, List.forall₂_map_left_iff, List.forall₂_map_right_iff]
        exact List.forall₂_same.2 fun e _ => ⟨sameSign_blank _, sameSign_getD hv _⟩
  | .denseSum ws cs, h => by
    cases h with
    | denseSum _ _ children =>
      have hn := skeleton_numberOfNodes (.denseSum ws cs)
      rw [skeleton] at hn ⊢
      rw [layerValue, layerValue, hn, List.forall₂_map_left_iff, List.forall₂_map_right_iff, List.forall₂_same]
      intro i _
      apply sameSign_weightedMean
      refine forall₂_flatMap (forall₂_zip (R := fun (w w' : List (List LogP)) => w' = w.map fun row => row.map blankLog) ?_
        (sameSign_skeletons types a cs children)) ?_
      · rw [List.forall₂_map_right_iff, List.forall₂_same]
        exact fun w _ => rfl
      · rintro ⟨w, vs⟩ ⟨w', vs'⟩ ⟨he, hv⟩
        simp only [denseTerms] at he hv ⊢
        have : w'.getD i [] = (w.getD i []).map blankLog := by
          rw [he, List.getD_eq_getElem?_getD, List.getD_eq_getElem?_getD, List.getElem?_map]
          cases w[i]? <;> rfl
        rw [this, List.map_map]
        refine forall₂_zip ?_ hv
        rw [List.forall₂_map_left_iff, List.forall₂_map_right_iff, List.forall₂_same]
        exact fun p _ => sameSign_blank p
  | .product n es cs, h => by
    cases h with
    | product _ _ _ children =>
      rw [skeleton, layerValue, layerValue, List.forall₂_map_left_iff, List.forall₂_map_right_iff, List.forall₂_same]
      intro i _
      apply sameSign_prod
      refine forall₂_flatMap (forall₂_zip (R := fun (e e' : List (ℕ × ℕ)) => e = e') (List.forall₂_same.2 fun _ _ => rfl)
        (sameSign_skeletons types a cs children)) ?_
      rintro ⟨e, vs⟩ ⟨e', vs'⟩ ⟨he, hv⟩
      simp only [productFactors] at he hv ⊢
      rw [← he, List.forall₂_map_left_iff, List.forall₂_map_right_iff, List.forall₂_same]
      exact fun p _ => sameSign_getD hv _
theorem sameSign_skeletons (types : ℕ → VarType) (a : ℕ → ℝ) : ∀ cs : List Layer, (∀ c ∈ cs, TypedInputs types c) →
    List.Forall₂ (List.Forall₂ SameSign) (layerValues a cs) (layerValues a (skeletons cs))
  | [], _ => .nil
  | c :: cs, h => .cons (sameSign_skeleton types a c (h c (by simp))) (sameSign_skeletons types a cs fun d hd => h d (by simp [hd]))
end

/-- Layers with the same skeleton have the same possible points. -/
theorem possible_of_skeleton {types : ℕ → VarType} {L L' : Layer} (h : skeleton L' = skeleton L) (hT : TypedInputs types L) (a : ℕ → ℝ) (i : ℕ) :
    0 < (layerValue a L').getD i 0 ↔ 0 < (layerValue a L).getD i 0 := by
  have hT' : TypedInputs types L' := (skeleton_typed types L').1 (h ▸ (skeleton_typed types L).2 hT)
  have h1 := sameSign_getD (sameSign_skeleton types a L hT) i
  have h2 := sameSign_getD (sameSign_skeleton types a L' hT') i
  rw [h] at h2
  exact h2.2.2.trans h1.2.2.symm

theorem skeleton_fitLoop {S : Type} (opt : Optimizer S) (loss : Layer → Except PyErr LogP) (grad : Layer → List ℝ) : ∀ (epochs : ℕ)
    (L : Layer) (s : S) (L' : Layer), fitLoop opt loss grad epochs L s = .ok L' → skeleton L' = skeleton L
  | 0, L, s, L', h => by
    simp only [fitLoop, Except.ok.injEq] at h
    rw [h]
  | epochs + 1, L, s, L', h => by
    rw [fitLoop] at h
    cases hl : loss L with
    | error e => simp [hl, bind, Except.bind] at h
    | ok v =>
      simp only [hl, bind, Except.bind] at h
      rw [skeleton_fitLoop opt loss grad epochs _ _ L' h, skeleton_applyUpdates]

theorem fitLoop_ok {S : Type} (opt : Optimizer S) (loss : Layer → Except PyErr LogP) (grad : Layer → List ℝ) (P : Layer → Prop)
    (hP : ∀ L L', skeleton L' = skeleton L → P L → P L') (hl : ∀ L, P L → ∃ v, loss L = .ok v) : ∀ (epochs : ℕ)
    (L : Layer) (s : S), P L → ∃ L', fitLoop opt loss grad epochs L s = .ok L'
  | 0, L, s, _ => ⟨L, rfl⟩
  | epochs + 1, L, s, h => by
    obtain ⟨v, hv⟩ := hl L h
    obtain ⟨L', hL'⟩ := fitLoop_ok opt loss grad P hP hl epochs (L.applyUpdates (opt.update (grad L) s L).1).1
      (opt.update (grad L) s L).2 (hP _ _ (skeleton_applyUpdates _ _) h)
    exact ⟨L', by rw [fitLoop]; simp only [hv, bind, Except.bind]; exact hL'⟩

end PM.Jax
