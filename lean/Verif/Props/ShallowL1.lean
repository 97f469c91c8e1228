import Verif.Circuit.ShallowL1Lemmas
import Verif.MonteCarlo.CircuitDensity
import Verif.Props.MonteCarlo

/-! # C114: the L1 distance of shallow circuits -/

namespace PM.Props
open PM.Graph Spec MeasureTheory Classical

section
variable {X : Type*} [MeasurableSpace X] {μ : Measure X} {p q : X → ℝ}

/-- Twice the difference of the probabilities of a set between the one where the first density is higher by more than the tolerance and the
one where it is higher. -/
theorem between_l1 (hp : IsDensity μ p) (hq : IsDensity μ q) {A : Set X} (hA : MeasurableSet A) {t : ℝ}
    (h1 : ∀ x, t < p x - q x → x ∈ A) (h2 : ∀ x ∈ A, q x < p x) (ht : 0 ≤ t) :
    2 * ((∫ x in A, p x ∂μ) - ∫ x in A, q x ∂μ) ≤ l1Distance μ p q ∧
    (∀ M, 0 ≤ M → μ {x | p x ≠ 0} ≤ ENNReal.ofReal M →
      l1Distance μ p q - 2 * t * M ≤ 2 * ((∫ x in A, p x ∂μ) - ∫ x in A, q x ∂μ)) ∧
    ((∀ x, p x ≤ q x ∨ t < p x - q x) → 2 * ((∫ x in A, p x ∂μ) - ∫ x in A, q x ∂μ) = l1Distance μ p q) := by
  have hi : Integrable (fun x => p x - q x) μ := (density_integrable hp).sub (density_integrable hq)
  have hmono : ∀ {B C : Set X}, MeasurableSet B → MeasurableSet C → (∀ x ∈ B, x ∈ C) → (∀ x ∈ C, 0 ≤ p x - q x) →
      ∫ x in B, (p x - q x) ∂μ ≤ ∫ x in C, (p x - q x) ∂μ := by
    intro B C hB hC hBC h0
    rw [← integral_indicator hB, ← integral_indicator hC]
    refine integral_mono (hi.indicator hB) (hi.indicator hC) fun x => ?_
    by_cases hxB : x ∈ B
    · rw [Set.indicator_of_mem hxB, Set.indicator_of_mem (hBC x hxB)]
    · rw [Set.indicator_of_notMem hxB]
      exact Set.indicator_nonneg h0 x
  rw [← integral_sub (density_integrable hp).integrableOn (density_integrable hq).integrableOn]
  have hup : 2 * ∫ x in A, (p x - q x) ∂μ ≤ l1Distance μ p q := by
    rw [l1_eq hp hq]
    exact mul_le_mul_of_nonneg_left (hmono hA (measurableSet_higher hp hq 0) (fun x hx => sub_pos.2 (h2 x hx))
      fun x hx => le_of_lt hx) two_pos.le
  refine ⟨hup, fun M hM hsize => ?_, fun h => le_antisymm hup ?_⟩
  · refine (C73_tolerance_partial hp hq one_ne_zero ht hM hsize).1.trans ?_
    rw [C73_expected hp hq t one_ne_zero,
      ← integral_sub (density_integrable hp).integrableOn (density_integrable hq).integrableOn]
    exact mul_le_mul_of_nonneg_left (hmono (measurableSet_higher hp hq t) hA (fun x hx => h1 x hx)
      fun x hx => (sub_pos.2 (h2 x hx)).le) two_pos.le
  · rw [l1_eq hp hq]
    refine mul_le_mul_of_nonneg_left (hmono (measurableSet_higher hp hq 0) hA (fun x hx => ?_)
      fun x hx => (sub_pos.2 (h2 x hx)).le) two_pos.le
    have hx : 0 < p x - q x := hx
    rcases h x with h3 | h3
    · linarith
    · exact h1 x h3

end

/-- What `l1` needs of a circuit: a deterministic sum of products of uniform distributions and distributions of one integer (as
`replace_discrete_distribution_with_deterministic_sum` makes them). -/
structure FitForL1 (g : Circuit) : Prop where
  shallow : ∃ r, ShallowForm g r
  flat : ∀ n d, g.kind? n = some (.leaf d) → (∃ v lo hi l r, d = .uniform v lo hi l r) ∨ ∃ v k w, d = .integer v [(k, w)]
  weights : PositiveWeights g
  deterministic : (g.isDeterministic freshMem).2 = .ok true

/-- `represent` describes a set of points by simple events for the circuits that do not overlap. -/
structure RepresentedFor (p q : Circuit) (s : Finset Var) (E : Set (Var → ℝ)) (Es : Event) : Prop where
  fits : ∀ F ∈ Es, EventFor p s F ∧ EventFor q s F
  disjoint : DisjointFamily Es
  points : ∀ x, (∃ F ∈ Es, F.Mem x) ↔ x ∈ E

/-- What the loops find. -/
theorem higherSum_spec {ty : Var → VarType} {dom : Var → VSet} {s : Finset Var} {p q : Circuit} (hp : DensityCircuit ty dom s p)
    (hq : DensityCircuit ty dom s q) (hp1 : FitForL1 p) (hq1 : FitForL1 q) {t : ℝ} (ht : 0 ≤ t) {lp lq : (Var → ℝ) → ℝ}
    (hlp : ∀ x, p.likelihood freshMem x = .ok (lp x)) (hlq : ∀ x, q.likelihood freshMem x = .ok (lq x)) :
    ∃ E, p.higherSum q t = .ok E ∧ (∀ x, t < lp x - lq x → x ∈ E) ∧ ∀ x ∈ E, lq x < lp x := by
  -- one circuit at a time
  have key : ∀ {g : Circuit} {l : (Var → ℝ) → ℝ}, DensityCircuit ty dom s g → FitForL1 g → (∀ x, g.likelihood freshMem x = .ok (l x)) →
      ∃ r, g.root = .ok r ∧ (∀ x, 0 ≤ l x) ∧ (∃ A, (g.support freshMem).2 = .ok A ∧ ∀ x, A.Mem x ↔ 0 < l x) ∧
      ∃ A : Node → Event, ∃ V : Node → Finset Var, (∀ c ∈ g.succ r, ((g.subgraphOf c).support freshMem).2 = .ok (A c) ∧
        BoxEvent (fun v => ty v == .symbolic) (V c) (A c) ∧ (∀ x x', (A c).Mem x → (A c).Mem x' → l x = l x')) ∧
        ∀ x, 0 < l x → ∃ c ∈ g.succ r, (A c).Mem x := by
    intro g l hg hg1 hl
    obtain ⟨r, sc, hL, hs, hdec, hr⟩ := hg.shape
    obtain ⟨r', hsh⟩ := hg1.shallow
    have hrr : r' = r := Except.ok.inj (hsh.1.symm.trans hL.root)
    subst hrr
    choose f hf using fun x : Var → ℝ => exists_circuitValue hL.graded.acyclic fun d : Leaf => leafDensity d (x d.var)
    have hlf : ∀ x, l x = f x r' := fun x => by
      obtain ⟨_, _, _, _, h1⟩ := C01_loglikelihood hL hs hg.valid x (hf x) freshMem
      exact Except.ok.inj ((hl x).symm.trans h1)
    have hri := (root_mem hL.root).1
    obtain ⟨S, hS⟩ := exists_possiblePoints hL.graded.acyclic
    obtain ⟨b, hb1, hb2⟩ := C14_is_deterministic hL hs hg.products hg.typed hg.valid hS freshMem
    rw [hg1.deterministic] at hb1
    have hdet := hb2.1 (Except.ok.inj hb1).symm r' hsh.2.1
    obtain ⟨A, hA1, hA2, hA3⟩ := C13_support hL hs hg.products hg.typed hg.valid freshMem
    have hbox : ∀ c ∈ g.succ r', ∃ Es, ((g.subgraphOf c).support freshMem).2 = .ok Es ∧
        BoxEvent (fun v => ty v == .symbolic) (sc c) Es ∧ ∀ x, Es.Mem x ↔ x ∈ S c := fun c hc =>
      product_support hL hs hdec hg.products hg.typed hg.valid hg1.flat hS (succ_mem_ids hL.wf hc)
        (hsh.2.2.2 c hc).1 (hsh.2.2.2 c hc).2 freshMem
    choose! B hB1 hB2 hB3 using hbox
    refine ⟨r', hL.root, fun x => ?_, ⟨A, hA1, fun x => ?_⟩, B, sc, fun c hc => ⟨hB1 c hc, hB2 c hc, fun x x' hx hx' => ?_⟩, fun x hx => ?_⟩
    · rw [hlf]
      exact circuitValue_nonneg hL.wf hL.graded.acyclic (hf x)
        (fun n d h => by rw [← exp_logLik (hg.valid n d h)]; exact LogP.exp_nonneg _) r' hri
    · rw [hlf]
      exact ⟨hA3 hg1.weights x (f x) (hf x), hA2 x (f x) (hf x)⟩
    · rw [hlf, hlf]
      exact value_constant hL hg.valid hg1.flat hsh hS hdet hc ((hB3 c hc x).1 hx) ((hB3 c hc x').1 hx') (hf x) (hf x')
    · rw [hlf] at hx
      obtain ⟨c, hc, hxc⟩ := (hS.sum r' hsh.2.1 x).1 (possible_of_pos hL.wf hL.graded.acyclic hg.valid hS (hf x) r' hri hx)
      exact ⟨c, hc, (hB3 c hc x).2 hxc⟩
  obtain ⟨r, hr, hp0, ⟨S, hS1, hS2⟩, A, V, hA, hAc⟩ := key hp hp1 hlp
  obtain ⟨r', hr', hq0, ⟨S', hS1', hS2'⟩, B, W, hB, hBc⟩ := key hq hq1 hlq
  have hF : ∀ c ∈ (p.succ r).product (q.succ r'), ∃ E, p.higherProduct q t c.1 c.2 = .ok E ∧
      ∀ x, x ∈ E ↔ ((A c.1).Mem x ∧ (B c.2).Mem x) ∧ t < lp x - lq x := by
    intro c hc
    obtain ⟨h1, h2⟩ := List.mem_product.1 hc
    exact higherProduct_spec (hA _ h1).1 (hB _ h2).1 (hA _ h1).2.1 (hB _ h2).2.1 hlp hlq (hA _ h1).2.2 (hB _ h2).2.2
  choose! F hF1 hF2 using hF
  obtain ⟨E, hE1, hE2⟩ := higherLoop_spec (p := p) (q := q) (t := t) (F := F) ((p.succ r).product (q.succ r'))
    ({x | S.Mem x} \ {x | S'.Mem x}) hF1
  refine ⟨E, ?_, fun x hx => (hE2 x).2 ?_, fun x hx => ?_⟩
  · unfold higherSum
    simp only [bind, Except.bind, hr, hr', hS1, hS1']
    exact hE1
  · have h1 : 0 < lp x := by linarith [hq0 x]
    by_cases h2 : 0 < lq x
    · obtain ⟨c, hc, hxc⟩ := hAc x h1
      obtain ⟨c', hc', hxc'⟩ := hBc x h2
      exact .inr ⟨(c, c'), List.mem_product.2 ⟨hc, hc'⟩, (hF2 _ (List.mem_product.2 ⟨hc, hc'⟩) x).2 ⟨⟨hxc, hxc'⟩, hx⟩⟩
    · exact .inl ⟨(hS2 x).2 h1, fun h => h2 ((hS2' x).1 h)⟩
  · rcases (hE2 x).1 hx with ⟨h1, h2⟩ | ⟨c, hc, h1⟩
    · have h3 := (hS2 x).1 h1
      have h4 : ¬ 0 < lq x := fun h => h2 ((hS2' x).2 h)
      linarith
    · have := ((hF2 c hc x).1 h1).2
      linarith

/-- The probability of an event is the integral of the density over it. -/
theorem probability_setIntegral {ty : Var → VarType} {dom : Var → VSet} {s : Finset Var} {g : Circuit} (hg : DensityCircuit ty dom s g)
    {Es : Event} (hE : ∀ F ∈ Es, EventFor g s F) (hdis : DisjointFamily Es) :
    (g.probability freshMem dom Es).2 = .ok (∫ y in {y | ∃ F ∈ Es, F.Mem (assign s y)}, densityOf s g y ∂baseOn ty s) := by
  obtain ⟨r, sc, hL, hs, hdec, hr⟩ := hg.shape
  choose f hf using fun x : Var → ℝ => exists_circuitValue hL.graded.acyclic fun d : Leaf => leafDensity d (x d.var)
  have hlik : ∀ x, g.likelihood freshMem x = .ok (f x r) := fun x => by
    obtain ⟨_, _, _, _, h1⟩ := C01_loglikelihood hL hs hg.valid x (hf x) freshMem
    exact h1
  obtain ⟨a, ha0, ha1, ha2⟩ := C04_probability_is_integral hL hs hdec hg.valid hg.base hg.domain (Es := Es) (by rwa [hr]) hdis hlik freshMem
  rw [ha1]
  congr 1
  rw [hr, integralOver_eq] at ha2
  have hA : MeasurableSet {y : s → ℝ | ∃ F ∈ Es, SimpleEvent.Mem F (assign s y)} := measurable_assign s (measurableSet_event Es)
  have hd := isDensity_circuit hg
  rw [integral_eq_lintegral_of_nonneg_ae (Filter.Eventually.of_forall hd.nonneg) hd.measurable.aestronglyMeasurable,
    ← lintegral_indicator hA]
  have : ∀ y, {y : s → ℝ | ∃ F ∈ Es, SimpleEvent.Mem F (assign s y)}.indicator (fun y => ENNReal.ofReal (densityOf s g y)) y
      = if ∃ F ∈ Es, SimpleEvent.Mem F (assign s y) then ENNReal.ofReal (f (assign s y) r) else 0 := by
    intro y
    have h1 : densityOf s g y = f (assign s y) r := by rw [densityOf, hlik]
    rw [Set.indicator_apply, h1]
    rfl
  simp only [this]
  rw [← ha2, ENNReal.toReal_ofReal ha0]

/-- **C114**: for deterministic sums of products of uniform distributions and single integers, `l1` is at most the L1 distance of the densities, it is less by at
most twice the tolerance times the size of the support, and it is the distance if no density is higher by an amount up to the
tolerance.  Missing: without determinism, or with other leaves, the value can be wrong by any amount (`C114_full_false`). -/
theorem C114_l1_partial {ty : Var → VarType} {dom : Var → VSet} {s : Finset Var} {p q : Circuit} (hp : DensityCircuit ty dom s p)
    (hq : DensityCircuit ty dom s q) (hp1 : FitForL1 p) (hq1 : FitForL1 q) {t : ℝ} (ht : 0 ≤ t)
    {represent : Set (Var → ℝ) → Event} (hrep : ∀ E, p.higherSum q t = .ok E → RepresentedFor p q s E (represent E)) :
    ∃ d, shallowL1 dom represent p q t = .ok d ∧ d ≤ l1Distance (baseOn ty s) (densityOf s p) (densityOf s q) ∧
      (∀ M, 0 ≤ M → baseOn ty s {y | densityOf s p y ≠ 0} ≤ ENNReal.ofReal M →
        l1Distance (baseOn ty s) (densityOf s p) (densityOf s q) - 2 * t * M ≤ d) ∧
      ((∀ y, densityOf s p y ≤ densityOf s q y ∨ t < densityOf s p y - densityOf s q y) →
        d = l1Distance (baseOn ty s) (densityOf s p) (densityOf s q)) := by
  have lik : ∀ {g : Circuit}, DensityCircuit ty dom s g → ∃ l : (Var → ℝ) → ℝ, ∀ x, g.likelihood freshMem x = .ok (l x) := by
    intro g hg
    obtain ⟨r, sc, hL, hs, hdec, hr⟩ := hg.shape
    choose f hf using fun x : Var → ℝ => exists_circuitValue hL.graded.acyclic fun d : Leaf => leafDensity d (x d.var)
    exact ⟨fun x => f x r, fun x => by
      obtain ⟨_, _, _, _, h1⟩ := C01_loglikelihood hL hs hg.valid x (hf x) freshMem
      exact h1⟩
  obtain ⟨lp, hlp⟩ := lik hp
  obtain ⟨lq, hlq⟩ := lik hq
  obtain ⟨E, hE1, hE2, hE3⟩ := higherSum_spec hp hq hp1 hq1 ht hlp hlq
  obtain ⟨h1, h2, h3⟩ := hrep E hE1
  have hdp : ∀ y, densityOf s p y = lp (assign s y) := fun y => by rw [densityOf, hlp]
  have hdq : ∀ y, densityOf s q y = lq (assign s y) := fun y => by rw [densityOf, hlq]
  refine ⟨_, ?_, between_l1 (isDensity_circuit hp) (isDensity_circuit hq)
    (A := {y | ∃ F ∈ represent E, F.Mem (assign s y)}) (measurable_assign s (measurableSet_event _)) (t := t) ?_ ?_ ht⟩
  · unfold shallowL1
    simp only [bind, Except.bind, pure, Except.pure, hE1, probability_setIntegral hp (fun F hF => (h1 F hF).1) h2,
      probability_setIntegral hq (fun F hF => (h1 F hF).2) h2]
  · intro y hy
    rw [hdp, hdq] at hy
    exact (h3 _).2 (hE2 _ hy)
  · intro y hy
    rw [hdp, hdq]
    exact hE3 _ ((h3 _).1 hy)

end PM.Props
