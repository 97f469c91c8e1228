import Verif.Circuit.CondUnion
import Verif.Props.Confined

/-!
# C96: what `conditional` computes for a union of simple events

C88 is about one simple event.  For several of them the library conditions a copy of the circuit on each and mixes the answers.  The mixture
has the right weights, so everything that C08, C88 and C95 say about one simple event carries over.
-/

namespace PM.Props

open Spec Graph MeasureTheory

variable {g : Circuit} {r : Node} {sc : Node → Finset Var} {dom : Var → VSet} {E : SimpleEvent} {Es : Event}

/-- What later queries need to know about the leaves of a conditional circuit. -/
def FromLeaf (g : Circuit) (d' : Leaf) : Prop := ∃ n d, g.kind? n = some (.leaf d) ∧ d'.Valid ∧ d'.var = d.var ∧
  (∀ X, Fits d X → Fits d' X) ∧ ∀ X, MeasurableSet X → leafLaw d X = 0 → leafLaw d' X = 0

theorem domain_fromLeaf {g' : Circuit} (h : ∀ n d, g'.kind? n = some (.leaf d) → FromLeaf g d) (hdom : DomainFor g dom) : DomainFor g' dom := by
  refine ⟨hdom.disjoint, fun n d' hk => ?_, fun n d' hk => ?_⟩
  · obtain ⟨n', d, hd, _, hvar, hfit, _⟩ := h n d' hk
    rw [hvar]; exact hfit _ (hdom.fits n' d hd)
  · obtain ⟨n', d, hd, _, hvar, _, hnull⟩ := h n d' hk
    rw [hvar]; exact hnull _ (VSet.measurableSet_toSet _).compl (hdom.covers n' d hd)

theorem event_fromLeaf {g' : Circuit} {V : Finset Var} (h : ∀ n d, g'.kind? n = some (.leaf d) → FromLeaf g d) {F : SimpleEvent}
    (hF : EventFor g V F) : EventFor g' V F := by
  refine ⟨hF.nodup, hF.keys, hF.disjoint, fun q hq n d' hk hd' => ?_⟩
  obtain ⟨n', d, hd, _, hvar, hfit, _⟩ := h n d' hk
  exact hfit _ (hF.fits q hq n' d hd (hvar ▸ hd'))

/-- The answer for one of the simple events. -/
theorem piece_tree (hL : Layered g r) (hs : Scoped g sc) (hdec : Decomposable g sc)
    (hv : ∀ n d, g.kind? n = some (.leaf d) → d.Valid) (hp : PositiveWeights g) (ht : TreeShaped g)
    (hdom : DomainFor g dom) (hE : EventFor g (sc r) E) (hpr : ProperEvent g dom E) (hone : OneInterval g dom E)
    {P T : Node → ℝ} (hP : CircuitValue g (fun d => (leafLaw d).real (allowed E d.var)) P) (hT : RemainingWeight g P T)
    (hpos : P r ≠ 0) :
    ∃ G M p q o F, Piece g.copy.copy G M p q o (sc r) F (E.fillMissing dom ((sc r).sort (· ≤ ·))) ∧ p.exp = P r ∧
      (∀ n d, G.kind? n = some (.leaf d) → FromLeaf g d) ∧
      Unsplit g (E.fillMissing dom ((sc r).sort (· ≤ ·))) (allowed E) ∧
      ∀ φ ℓ : Leaf → ℝ, (∀ n d, g.kind? n = some (.leaf d) → (leafLaw d).real (allowed E d.var) ≠ 0 →
          φ (newLeaf (E.fillMissing dom ((sc r).sort (· ≤ ·))) d) = ℓ d) → ∀ C, PrunedValue g P T ℓ C → F φ = C r := by
  have hL1 := Layered.copy hL
  have hL2 := Layered.copy hL1
  have hk2 : ∀ n, g.copy.copy.kind? n = g.kind? n := fun n => by rw [kind?_copy, kind?_copy]
  have hU := unsplit_ready hL2 (Scoped.copy hL1.wf (Scoped.copy hL.wf hs)) (fun n d hk => hv n d (by rwa [hk2] at hk))
    (DomainFor.copy (DomainFor.copy hdom)) (EventFor.copy (EventFor.copy hE)) (ProperEvent.copy (ProperEvent.copy hpr))
    (OneInterval.copy (OneInterval.copy hone))
  obtain ⟨g', r', m', p, h1, h2, _, ⟨q, hq, _⟩, hL', hs', hdec', hsc, hn', hp', ht', _, hleaf, _, hval⟩ := conditionSimple_pruned
    hL2 (Scoped.copy hL1.wf (Scoped.copy hL.wf hs)) (Decomposable.copy hL1.wf (Decomposable.copy hL.wf hdec))
    (PositiveWeights.copy hL1.wf (PositiveWeights.copy hL.wf hp)) (TreeShaped.copy hL1.wf (TreeShaped.copy hL.wf ht))
    (CircuitValue.copy hL1.wf (CircuitValue.copy hL.wf hP)) hU (RemainingWeight.copy hL1.wf (RemainingWeight.copy hL.wf hT)) hpos freshMem
  have hfrom : ∀ n d', g'.kind? n = some (.leaf d') → FromLeaf g d' := by
    intro n d' hk
    obtain ⟨d, q, hd, _, h3, h4, _, h5, h6, h7⟩ := hleaf n d' hk
    rw [hk2] at hd
    refine ⟨n, d, hd, h4, h5, h6, fun X hX h0 => ?_⟩
    have hfin := finite_leafLaw (hv n d hd)
    have hfin' := finite_leafLaw h4
    have := h7 X hX
    rw [measureReal_def (leafLaw d) (_ ∩ X), measure_mono_null Set.inter_subset_right h0] at this
    simp only [ENNReal.toReal_zero, zero_div] at this
    exact (measureReal_eq_zero_iff).1 this
  choose f hf using fun ℓ : Leaf → ℝ => exists_circuitValue hL'.graded.acyclic ℓ
  refine ⟨g', m', p, q, r', fun ℓ => f ℓ r', ⟨h1, ?_, ⟨hL', ⟨sc, hs', hdec', hsc⟩, ?_, ?_⟩, ⟨ht', hn', hp'⟩, hq⟩, h2, hfrom, unsplit_ready hL hs hv hdom hE hpr hone, ?_⟩
  · rw [← LogP.exp_pos.trans Iff.rfl, h2]
    exact lt_of_le_of_ne (by rw [← h2]; exact LogP.exp_nonneg p) (Ne.symm hpos)
  · intro n d hk
    obtain ⟨_, _, _, h, _⟩ := hfrom n d hk
    exact h
  · intro ℓ φ hφ
    exact circuitValue_unique hL'.wf hL'.graded.acyclic hφ (hf ℓ) r' (root_mem hL'.root).1
  · intro φ ℓ hφ C hC
    obtain ⟨f', h3, h4⟩ := hval φ ℓ (fun n d hk => hφ n d (by rwa [hk2] at hk)) C (PrunedValue.copy hL1.wf (PrunedValue.copy hL.wf hC))
    rw [← h4]
    exact circuitValue_unique hL'.wf hL'.graded.acyclic (hf _) h3 r' (root_mem hL'.root).1

theorem sum_filter_eq {α : Type} (l : List α) (b : α → Bool) (φ : α → ℝ) (h : ∀ x ∈ l, b x = false → φ x = 0) :
    ((l.filter b).map φ).sum = (l.map φ).sum := by
  induction l with
  | nil => rfl
  | cons a l ih =>
    have ih := ih fun x hx => h x (by simp [hx])
    by_cases hb : b a = true
    · rw [List.filter_cons_of_pos hb, List.map_cons, List.map_cons, List.sum_cons, List.sum_cons, ih]
    · rw [List.filter_cons_of_neg hb, List.map_cons, List.sum_cons, ih, h a (by simp) (by simpa using hb), zero_add]

/-- What is known about each of the simple events. -/
structure UnionFor (g : Circuit) (V : Finset Var) (dom : Var → VSet) (Es : Event) : Prop where
  event : ∀ E ∈ Es, EventFor g V E
  proper : ∀ E ∈ Es, ProperEvent g dom E
  one : ∀ E ∈ Es, OneInterval g dom E

/-- `C96_union` together with what later queries on the result need. -/
theorem union_full (hL : Layered g r) (hs : Scoped g sc) (hdec : Decomposable g sc)
    (hv : ∀ n d, g.kind? n = some (.leaf d) → d.Valid) (hp : PositiveWeights g) (ht : TreeShaped g)
    (hdom : DomainFor g dom) (hE : UnionFor g (sc r) dom Es) (hlen : 2 ≤ Es.length)
    {P T : SimpleEvent → Node → ℝ} (hP : ∀ E ∈ Es, CircuitValue g (fun d => (leafLaw d).real (allowed E d.var)) (P E))
    (hT : ∀ E ∈ Es, RemainingWeight g (P E) (T E)) :
    ((∀ E ∈ Es, P E r = 0) → g.conditional dom Es = .ok (none, 0)) ∧
    ((∃ E ∈ Es, P E r ≠ 0) → ∃ g' r' sc' x, g.conditional dom Es = .ok (some g', x) ∧ Layered g' r' ∧ Scoped g' sc' ∧ Decomposable g' sc' ∧
      sc' r' = sc r ∧ Neat g' ∧ (∀ n d, g'.kind? n = some (.leaf d) → d.Valid) ∧ DomainFor g' dom ∧
      (∀ F, EventFor g (sc r) F → EventFor g' (sc' r') F) ∧
      (∀ (φ : Leaf → ℝ) (ℓ : SimpleEvent → Leaf → ℝ), (∀ E ∈ Es, ∀ n d, g.kind? n = some (.leaf d) →
        (leafLaw d).real (allowed E d.var) ≠ 0 → φ (newLeaf (E.fillMissing dom ((sc r).sort (· ≤ ·))) d) = ℓ E d) →
        ∀ C : SimpleEvent → Node → ℝ, (∀ E ∈ Es, PrunedValue g (P E) (T E) (ℓ E) (C E)) → ∀ f', CircuitValue g' φ f' →
        f' r' = (Es.map fun E => P E r * C E r).sum / (Es.map fun E => P E r).sum) ∧
      ∀ Fs : Event, (∀ F ∈ Fs, EventFor g (sc r) F) → ∀ C : SimpleEvent → SimpleEvent → Node → ℝ,
        (∀ E ∈ Es, ∀ F ∈ Fs, PrunedValue g (P E) (T E)
          (fun d => (leafLaw d).real (allowed E d.var ∩ allowed F d.var) / (leafLaw d).real (allowed E d.var)) (C E F)) →
        ∀ m, (g'.probability m dom Fs).2 =
          .ok (Fs.map fun F => (Es.map fun E => P E r * C E F r).sum / (Es.map fun E => P E r).sum).sum) := by
  classical
  have hpiece : ∀ E, ∃ G M p q o F, E ∈ Es → P E r ≠ 0 →
      Piece g.copy.copy G M p q o (sc r) F (E.fillMissing dom ((sc r).sort (· ≤ ·))) ∧ p.exp = P E r ∧
      (∀ n d, G.kind? n = some (.leaf d) → FromLeaf g d) ∧
      Unsplit g (E.fillMissing dom ((sc r).sort (· ≤ ·))) (allowed E) ∧
      ∀ φ ℓ : Leaf → ℝ, (∀ n d, g.kind? n = some (.leaf d) → (leafLaw d).real (allowed E d.var) ≠ 0 →
          φ (newLeaf (E.fillMissing dom ((sc r).sort (· ≤ ·))) d) = ℓ d) → ∀ C, PrunedValue g (P E) (T E) ℓ C → F φ = C r := by
    intro E
    by_cases h : E ∈ Es ∧ P E r ≠ 0
    · obtain ⟨G, M, p, q, o, F, h1⟩ := piece_tree hL hs hdec hv hp ht hdom (hE.event E h.1) (hE.proper E h.1) (hE.one E h.1) (hP E h.1)
        (hT E h.1) h.2
      exact ⟨G, M, p, q, o, F, fun _ _ => h1⟩
    · exact ⟨g, freshMem, 0, 0, 0, fun _ => 0, fun h1 h2 => absurd ⟨h1, h2⟩ h⟩
  choose G M p q o F hpiece using hpiece
  have hL1 := Layered.copy hL
  have hL2 := Layered.copy hL1
  have hk2 : ∀ n, g.copy.copy.kind? n = g.kind? n := fun n => by rw [kind?_copy, kind?_copy]
  have hs2 := Scoped.copy hL1.wf (Scoped.copy hL.wf hs)
  have hdead : ∀ E ∈ Es, P E r = 0 →
      g.copy.copy.conditionSimple freshMem (E.fillMissing dom ((sc r).sort (· ≤ ·))) = .ok (none, .negInf) := by
    intro E hEm h0
    have hU := unsplit_ready hL2 hs2 (fun n d hk => hv n d (by rwa [hk2] at hk))
      (DomainFor.copy (DomainFor.copy hdom)) (EventFor.copy (EventFor.copy (hE.event E hEm))) (ProperEvent.copy (ProperEvent.copy (hE.proper E hEm)))
      (OneInterval.copy (OneInterval.copy (hE.one E hEm)))
    exact conditionSimple_dead hL2 hs2.sumNe (CircuitValue.copy hL1.wf (CircuitValue.copy hL.wf (hP E hEm))) hU h0 freshMem
  have hcond : ∀ res, g.copy.logConditionalInPlace freshMem (Es.map fun E => E.fillMissing dom ((sc r).sort (· ≤ ·))) = .ok res →
      g.conditional dom Es = .ok (res.1, res.2.exp) := by
    intro res h
    unfold conditional
    rw [circuitVars_eq hL.wf hL.graded.acyclic hs hL.root]
    simp only [logConditional, bind, Except.bind]
    rw [h]
  obtain ⟨hnone, hsome⟩ := logConditional_union (g := g.copy) (φ := fun E => E.fillMissing dom ((sc r).sort (· ≤ ·))) (G := G) (M := M) (p := p)
    (q := q) (o := o) (F := F) (V := sc r) (fun E => decide (P E r ≠ 0)) (Es := Es) hlen
    (fun E hEm h => (hpiece E hEm (by simpa using h)).1) (fun E hEm h => hdead E hEm (by simpa using h)) freshMem
  have hmem : ∀ E, E ∈ Es.filter (fun E => decide (P E r ≠ 0)) ↔ E ∈ Es ∧ P E r ≠ 0 := by
    intro E
    rw [List.mem_filter, decide_eq_true_eq]
  constructor
  · intro h0
    have := hcond _ (hnone (by
      rw [List.eq_nil_iff_forall_not_mem]
      intro E hEm
      exact ((hmem E).1 hEm).2 (h0 E ((hmem E).1 hEm).1)))
    simpa using this
  rintro ⟨E₀, hE₀, hE₁⟩
  obtain ⟨g', x, h1, _, hD, hN, hleaf⟩ := hsome (fun h => by
    have : E₀ ∈ Es.filter (fun E => decide (P E r ≠ 0)) := (hmem E₀).2 ⟨hE₀, hE₁⟩
    rw [h] at this
    cases this)
  obtain ⟨sc', hs', hdec', hsc'⟩ := hD.scope
  have hfrom := hleaf (FromLeaf g) fun E hEm => (hpiece E ((hmem E).1 hEm).1 ((hmem E).1 hEm).2).2.2.1
  have hdom' := domain_fromLeaf hfrom hdom
  have hEv : ∀ F, EventFor g (sc r) F → EventFor g' (sc' 0) F := fun F hF => by rw [hsc']; exact event_fromLeaf hfrom hF
  have hgen : ∀ (φ : Leaf → ℝ) (ℓ : SimpleEvent → Leaf → ℝ), (∀ E ∈ Es, ∀ n d, g.kind? n = some (.leaf d) →
      (leafLaw d).real (allowed E d.var) ≠ 0 → φ (newLeaf (E.fillMissing dom ((sc r).sort (· ≤ ·))) d) = ℓ E d) →
      ∀ C : SimpleEvent → Node → ℝ, (∀ E ∈ Es, P E r ≠ 0 → PrunedValue g (P E) (T E) (ℓ E) (C E)) → ∀ f', CircuitValue g' φ f' →
      f' 0 = (Es.map fun E => P E r * C E r).sum / (Es.map fun E => P E r).sum := by
    intro φ ℓ hφ C hC f' hf'
    rw [hD.value _ _ hf']
    congr 1
    · rw [← sum_filter_eq Es (fun E => decide (P E r ≠ 0)) (fun E => P E r * C E r)
        (fun E _ h => by rw [show P E r = 0 by simpa using h, zero_mul])]
      congr 1
      refine List.map_congr_left fun E hEm => ?_
      obtain ⟨h3, h4⟩ := (hmem E).1 hEm
      obtain ⟨_, h5, _, _, h6⟩ := hpiece E h3 h4
      rw [h5, h6 φ (ℓ E) (hφ E h3) (C E) (hC E h3 h4)]
    · rw [← sum_filter_eq Es (fun E => decide (P E r ≠ 0)) (fun E => P E r) (fun E _ h => by simpa using h)]
      congr 1
      refine List.map_congr_left fun E hEm => ?_
      obtain ⟨h3, h4⟩ := (hmem E).1 hEm
      exact (hpiece E h3 h4).2.1
  refine ⟨g', 0, sc', x.exp, hcond _ h1, hD.layered, hs', hdec', hsc', hN, hD.valid, hdom', hEv,
    fun φ ℓ hφ C hC => hgen φ ℓ hφ C fun E hEm _ => hC E hEm, ?_⟩
  intro Fs hF C hC m
  choose f hf using fun F : SimpleEvent => exists_circuitValue hD.layered.graded.acyclic fun d : Leaf => (leafLaw d).real (allowed F d.var)
  rw [probability_eq hD.layered hs' hD.valid hdom' (fun F hFm => hEv F (hF F hFm)) (p := f) (fun F _ => hf F) m]
  congr 2
  refine List.map_congr_left fun X hX => ?_
  exact hgen _ (fun E d => (leafLaw d).real (allowed E d.var ∩ allowed X d.var) / (leafLaw d).real (allowed E d.var))
    (fun E hEm => newLeaf_real (unsplit_ready hL hs hv hdom (hE.event E hEm) (hE.proper E hEm) (hE.one E hEm))
      fun v => measurableSet_allowed X v) (fun E => C E X) (fun E hEm _ => hC E hEm X hX) _ (hf X)

/-- **C96**: on every smooth, decomposable tree without zero weights and every union of at least two simple events that meet the support of
every leaf in at most one interval, at least one of them possible, `conditional` returns a valid tree over the same variables with
normalized sums.  Every event `Fs` has in it the average of the probabilities that pruning (C88) gives for the single simple events,
weighted with the probabilities of these.  (The returned number is wrong, `C07_full_false`.)  If all are impossible, the answer is `None`. -/
theorem C96_union (hL : Layered g r) (hs : Scoped g sc) (hdec : Decomposable g sc)
    (hv : ∀ n d, g.kind? n = some (.leaf d) → d.Valid) (hp : PositiveWeights g) (ht : TreeShaped g)
    (hdom : DomainFor g dom) (hE : UnionFor g (sc r) dom Es) (hlen : 2 ≤ Es.length)
    {P T : SimpleEvent → Node → ℝ} (hP : ∀ E ∈ Es, CircuitValue g (fun d => (leafLaw d).real (allowed E d.var)) (P E))
    (hT : ∀ E ∈ Es, RemainingWeight g (P E) (T E)) :
    ((∀ E ∈ Es, P E r = 0) → g.conditional dom Es = .ok (none, 0)) ∧
    ((∃ E ∈ Es, P E r ≠ 0) → ∃ g' r' sc' x, g.conditional dom Es = .ok (some g', x) ∧ Layered g' r' ∧ Scoped g' sc' ∧ Decomposable g' sc' ∧
      sc' r' = sc r ∧ TreeShaped g' ∧ NormalizedSums g' ∧ PositiveWeights g' ∧
      ∀ Fs : Event, (∀ F ∈ Fs, EventFor g (sc r) F) → ∀ C : SimpleEvent → SimpleEvent → Node → ℝ,
        (∀ E ∈ Es, ∀ F ∈ Fs, PrunedValue g (P E) (T E)
          (fun d => (leafLaw d).real (allowed E d.var ∩ allowed F d.var) / (leafLaw d).real (allowed E d.var)) (C E F)) →
        ∀ m, (g'.probability m dom Fs).2 =
          .ok (Fs.map fun F => (Es.map fun E => P E r * C E F r).sum / (Es.map fun E => P E r).sum).sum) := by
  obtain ⟨h0, h⟩ := union_full hL hs hdec hv hp ht hdom hE hlen hP hT
  refine ⟨h0, fun hpos => ?_⟩
  obtain ⟨g', r', sc', x, h1, h2, h3, h4, h5, h6, _, _, _, _, h7⟩ := h hpos
  exact ⟨g', r', sc', x, h1, h2, h3, h4, h5, h6.tree, h6.norm, h6.pos, h7⟩

/-- The probabilities of the intersections of `Es` with `Fs`, unit by unit. -/
theorem probability_inter (hL : Layered g r) (hs : Scoped g sc) (hv : ∀ n d, g.kind? n = some (.leaf d) → d.Valid)
    (hdom : DomainFor g dom) {Fs : Event} (hE : ∀ E ∈ Es, EventFor g (sc r) E) (hF : ∀ F ∈ Fs, EventFor g (sc r) F)
    {f : SimpleEvent → SimpleEvent → Node → ℝ}
    (hf : ∀ E ∈ Es, ∀ F ∈ Fs, CircuitValue g (fun d => (leafLaw d).real (allowed E d.var ∩ allowed F d.var)) (f E F)) (m : Mem ℝ) :
    (g.probability m dom (Es.flatMap fun E => Fs.map fun F => E.inter F)).2 = .ok (Es.map fun E => (Fs.map fun F => f E F r).sum).sum := by
  have := probability_eq hL hs hv hdom (Es := Es.flatMap fun E => Fs.map fun F => E.inter F)
    (by
      intro X hX
      obtain ⟨E, hEm, hX⟩ := List.mem_flatMap.1 hX
      obtain ⟨F, hFm, rfl⟩ := List.mem_map.1 hX
      exact eventFor_inter hL hs (hE E hEm) (hF F hFm))
    (p := fun X => Classical.choose (exists_probValue hL X))
    (fun X _ => Classical.choose_spec (exists_probValue hL X)) m
  rw [this]
  congr 1
  have hu : ∀ E ∈ Es, ∀ F ∈ Fs, Classical.choose (exists_probValue hL (E.inter F)) r = f E F r := by
    intro E hEm F hFm
    have hfF : ∀ φ, CircuitValue g (fun d => (leafLaw d).real (allowed (E.inter F) d.var)) φ →
        CircuitValue g (fun d => (leafLaw d).real (allowed E d.var ∩ allowed F d.var)) φ := by
      intro φ hφ
      simp only [allowed_inter (hF F hFm).nodup (compatible_of hL hs (hE E hEm) (hF F hFm))] at hφ
      exact hφ
    exact circuitValue_unique hL.wf hL.graded.acyclic (hfF _ (Classical.choose_spec (exists_probValue hL (E.inter F)))) (hf E hEm F hFm) r
      (root_mem hL.root).1
  clear this hE hf
  induction Es with
  | nil => rfl
  | cons E l ih =>
    rw [List.flatMap_cons, List.map_append, List.sum_append, List.map_cons, List.sum_cons, ih fun E hE => hu E (by simp [hE]), List.map_map]
    congr 2
    exact List.map_congr_left fun F hFm => hu E (by simp) F hFm

theorem sum_swap {α β : Type} (l : List α) (k : List β) (φ : α → β → ℝ) :
    (l.map fun a => (k.map fun b => φ a b).sum).sum = (k.map fun b => (l.map fun a => φ a b).sum).sum := by
  induction l with
  | nil => simp
  | cons a l ih => simp only [List.map_cons, List.sum_cons, ih, List.sum_map_add]

/-- **C08, proved part, for unions**: if at every sum unit and for every one of the simple events the probabilities of the possible children
are proportional to the weights left below them (for instance if the circuit has no sum units), the conditional circuit follows Bayes'
rule. -/
theorem C08_union_partial (hL : Layered g r) (hs : Scoped g sc) (hdec : Decomposable g sc)
    (hv : ∀ n d, g.kind? n = some (.leaf d) → d.Valid) (hp : PositiveWeights g) (ht : TreeShaped g)
    (hdom : DomainFor g dom) (hE : UnionFor g (sc r) dom Es) (hlen : 2 ≤ Es.length)
    {P T : SimpleEvent → Node → ℝ} (hP : ∀ E ∈ Es, CircuitValue g (fun d => (leafLaw d).real (allowed E d.var)) (P E))
    (hT : ∀ E ∈ Es, RemainingWeight g (P E) (T E)) (hprop : ∀ E ∈ Es, Proportional g (P E) (T E))
    {pE : ℝ} {m₀ : Mem ℝ} (hpE : (g.probability m₀ dom Es).2 = .ok pE) (hpos : 0 < pE) :
    ∃ g' r' sc' x, g.conditional dom Es = .ok (some g', x) ∧ Layered g' r' ∧ Scoped g' sc' ∧ Decomposable g' sc' ∧
      sc' r' = sc r ∧ NormalizedSums g' ∧
      ∀ Fs : Event, (∀ F ∈ Fs, EventFor g (sc r) F) → ∀ m m', ∃ q, (g'.probability m dom Fs).2 = .ok q ∧
        (g.probability m' dom (Es.flatMap fun E => Fs.map fun F => E.inter F)).2 = .ok (q * pE) := by
  have hr := (root_mem hL.root).1
  rw [probability_eq hL hs hv hdom hE.event (p := P) hP] at hpE
  simp only [Except.ok.injEq] at hpE
  subst hpE
  have hex : ∃ E ∈ Es, P E r ≠ 0 := by
    by_contra hno
    push Not at hno
    refine hpos.ne' (List.sum_eq_zero fun x hx => ?_)
    obtain ⟨E, hEm, rfl⟩ := List.mem_map.1 hx
    exact hno E hEm
  obtain ⟨g', r', sc', x, h1, h2, h3, h4, h5, _, h6, _, h7⟩ := (C96_union hL hs hdec hv hp ht hdom hE hlen hP hT).2 hex
  refine ⟨g', r', sc', x, h1, h2, h3, h4, h5, h6, fun Fs hF m m' => ?_⟩
  choose f hf using fun (E F : SimpleEvent) => exists_circuitValue hL.graded.acyclic
    fun d : Leaf => (leafLaw d).real (allowed E d.var ∩ allowed F d.var)
  have hle : ∀ E F : SimpleEvent, ∀ n d, g.kind? n = some (.leaf d) →
      (leafLaw d).real (allowed E d.var ∩ allowed F d.var) ≤ (leafLaw d).real (allowed E d.var) := by
    intro E F n d hk
    have := finite_leafLaw (hv n d hk)
    exact measureReal_mono Set.inter_subset_left
  refine ⟨_, h7 Fs hF (fun E F n => f E F n / P E n) (fun E hEm F hFm =>
    prunedValue_of_proportional hL hp (hP E hEm) (hprop E hEm) (hf E F) (fun _ _ _ => measureReal_nonneg) (hle E F)) m, ?_⟩
  rw [probability_inter hL hs hv hdom hE.event hF (fun E _ F _ => hf E F) m', sum_swap, ← sum_map_quot, div_mul_cancel₀ _ hpos.ne']
  congr 2
  refine List.map_congr_left fun F _ => ?_
  congr 1
  refine List.map_congr_left fun E hEm => ?_
  by_cases h0 : P E r = 0
  · have := circuitValue_mono hL.graded.acyclic hL.wf (hf E F) (hP E hEm) (fun _ _ _ => measureReal_nonneg) (hle E F) r hr
    rw [h0] at this ⊢
    rw [zero_mul]
    exact le_antisymm this.2 this.1
  · rw [mul_div_cancel₀ _ h0]

/-- A unit whose scope contains a variable with an impossible value is impossible. -/
theorem value_zero (hL : Layered g r) (hs : Scoped g sc) {ℓ : Leaf → ℝ} {f : Node → ℝ} (hf : CircuitValue g ℓ f) {v : Var}
    (h0 : ∀ d : Leaf, d.var = v → ℓ d = 0) : ∀ n, n ∈ g.ids → v ∈ sc n → f n = 0 := by
  refine hL.graded.acyclic.induct ?_
  intro n ih hn hvn
  obtain ⟨K, hk⟩ := exists_kind? hn
  cases K with
  | leaf d =>
    rw [hs.leaf n d hk, Finset.mem_singleton] at hvn
    rw [hf.leaf n d hk]
    exact h0 d hvn.symm
  | sum =>
    rw [hf.sum n hk]
    refine List.sum_eq_zero fun x hx => ?_
    obtain ⟨e, he, rfl⟩ := List.mem_map.1 hx
    have hc := dst_mem_succ he
    rw [ih _ hc (hL.wf.dstMem e (mem_outEdges.1 he).1) (by rw [hs.sum n hk _ hc]; exact hvn), mul_zero]
  | prod =>
    rw [hf.prod n hk]
    obtain ⟨c, hc, hvc⟩ := (hs.prod n hk v).1 hvn
    obtain ⟨e, he, rfl⟩ := List.mem_map.1 hc
    exact List.prod_eq_zero (List.mem_map.2 ⟨e, he, ih _ hc (hL.wf.dstMem e (mem_outEdges.1 he).1) hvc⟩)

/-- Disjoint simple events are disjoint in one of the variables. -/
theorem disjoint_coordinate {E F : SimpleEvent} (h : ∀ x, ¬ (E.Mem x ∧ F.Mem x)) : ∃ v, allowed E v ∩ allowed F v = ∅ := by
  by_contra hno
  push Not at hno
  choose x hx using fun v => hno v
  exact h x ⟨fun p hp => (hx p.1).1 p hp rfl, fun p hp => (hx p.1).2 p hp rfl⟩

theorem sum_diagonal {α : Type} : ∀ (l : List α) (p : α → ℝ) (c : α → α → ℝ), (∀ a ∈ l, p a * c a a = p a) →
    l.Pairwise (fun a b => p a * c a b = 0 ∧ p b * c b a = 0) → (l.map fun b => (l.map fun a => p a * c a b).sum).sum = (l.map p).sum
  | [], _, _, _, _ => rfl
  | x :: l, p, c, h, hp => by
    rw [List.pairwise_cons] at hp
    have ih := sum_diagonal l p c (fun a ha => h a (by simp [ha])) hp.2
    have h1 : (l.map fun a => p a * c a x).sum = 0 := List.sum_eq_zero fun y hy => by
      obtain ⟨a, ha, rfl⟩ := List.mem_map.1 hy
      exact (hp.1 a ha).2
    have h2 : (l.map fun b => p x * c x b + (l.map fun a => p a * c a b).sum) = l.map fun b => (l.map fun a => p a * c a b).sum :=
      List.map_congr_left fun b hb => by rw [(hp.1 b hb).1, zero_add]
    simp only [List.map_cons, List.sum_cons]
    rw [h2, ih, h1, h x (by simp), add_zero]

/-- **C95 for unions**: on every smooth, decomposable tree without zero weights and every possible union of at least two disjoint simple
events that meet the support of every leaf in at most one interval, `conditional` returns a model in which the union has probability one and
in which an event `Fs` is impossible exactly if its intersection with the union is impossible in the original model. -/
theorem C95_union (hL : Layered g r) (hs : Scoped g sc) (hdec : Decomposable g sc)
    (hv : ∀ n d, g.kind? n = some (.leaf d) → d.Valid) (hp : PositiveWeights g) (ht : TreeShaped g)
    (hdom : DomainFor g dom) (hE : UnionFor g (sc r) dom Es) (hlen : 2 ≤ Es.length) (hdis : DisjointFamily Es)
    {pE : ℝ} {m₀ : Mem ℝ} (hpE : (g.probability m₀ dom Es).2 = .ok pE) (hpos : 0 < pE) :
    ∃ g' r' sc' x, g.conditional dom Es = .ok (some g', x) ∧ Layered g' r' ∧ Scoped g' sc' ∧ sc' r' = sc r ∧
      (∀ m, (g'.probability m dom Es).2 = .ok 1) ∧
      ∀ Fs : Event, (∀ F ∈ Fs, EventFor g (sc r) F) → ∀ m m', ∃ q p, (g'.probability m dom Fs).2 = .ok q ∧
        (g.probability m' dom (Es.flatMap fun E => Fs.map fun F => E.inter F)).2 = .ok p ∧ 0 ≤ q ∧ (q = 0 ↔ p = 0) := by
  have hr := (root_mem hL.root).1
  choose P T hP hT hC using fun E => C88_defined hL E
  choose C hC using hC
  rw [probability_eq hL hs hv hdom hE.event (p := P) fun E _ => hP E] at hpE
  simp only [Except.ok.injEq] at hpE
  subst hpE
  have hex : ∃ E ∈ Es, P E r ≠ 0 := by
    by_contra hno
    push Not at hno
    refine hpos.ne' (List.sum_eq_zero fun x hx => ?_)
    obtain ⟨E, hEm, rfl⟩ := List.mem_map.1 hx
    exact hno E hEm
  obtain ⟨g', r', sc', x, h1, h2, h3, _, h5, _, _, _, h7⟩ :=
    (C96_union hL hs hdec hv hp ht hdom hE hlen (fun E _ => hP E) fun E _ => hT E).2 hex
  choose f hf using fun (E F : SimpleEvent) => exists_circuitValue hL.graded.acyclic
    fun d : Leaf => (leafLaw d).real (allowed E d.var ∩ allowed F d.var)
  have hle : ∀ E F : SimpleEvent, ∀ n d, g.kind? n = some (.leaf d) →
      (leafLaw d).real (allowed E d.var ∩ allowed F d.var) ≤ (leafLaw d).real (allowed E d.var) := by
    intro E F n d hk
    have := finite_leafLaw (hv n d hk)
    exact measureReal_mono Set.inter_subset_left
  have hmono := fun E F => circuitValue_mono hL.graded.acyclic hL.wf (hf E F) (hP E) (fun _ _ _ => measureReal_nonneg) (hle E F) r hr
  have hposs := fun E F (h : P E r ≠ 0) => pruned_possible hL hp (hP E) (hT E) (hf E F) (hC E F) (fun _ _ _ => measureReal_nonneg)
    (hle E F) r hr h
  have hnn : ∀ E F, 0 ≤ P E r * C E F r := by
    intro E F
    by_cases h0 : P E r = 0
    · rw [h0, zero_mul]
    · exact mul_nonneg ((hmono E F).1.trans (hmono E F).2) (hposs E F h0).2.1
  have hzero : ∀ E F, P E r * C E F r = 0 ↔ f E F r = 0 := by
    intro E F
    by_cases h0 : P E r = 0
    · have := hmono E F
      rw [h0] at this ⊢
      rw [zero_mul]
      exact ⟨fun _ => le_antisymm this.2 this.1, fun _ => rfl⟩
    · rw [mul_eq_zero, or_iff_right h0]
      exact (hposs E F h0).2.2.1
  refine ⟨g', r', sc', x, h1, h2, h3, h5, fun m => ?_, fun Fs hF m m' => ?_⟩
  · rw [h7 Es hE.event C (fun E _ F _ => hC E F) m, ← sum_map_quot, sum_diagonal Es (fun E => P E r) (fun E F => C E F r), div_self hpos.ne']
    · intro E _
      by_cases h0 : P E r = 0
      · rw [h0, zero_mul]
      · rw [(hposs E E h0).2.2.2 (fun _ d _ => by rw [Set.inter_self]), mul_one]
    · refine List.Pairwise.imp_of_mem ?_ hdis
      intro E F hEm hFm hEF
      obtain ⟨v, hv0⟩ := disjoint_coordinate hEF
      rw [hzero, hzero]
      have hvr : v ∈ sc r := by
        by_contra hv'
        have h8 : allowed E v = Set.univ := allowed_of_not_mem fun h => hv' ((hE.event E hEm).keys _ h)
        have h9 : allowed F v = Set.univ := allowed_of_not_mem fun h => hv' ((hE.event F hFm).keys _ h)
        rw [h8, h9, Set.inter_self] at hv0
        exact Set.univ_nonempty.ne_empty hv0
      refine ⟨value_zero hL hs (hf E F) (fun d hd => ?_) r hr hvr, value_zero hL hs (hf F E) (fun d hd => ?_) r hr hvr⟩
      · rw [hd, hv0, measureReal_empty]
      · rw [hd, Set.inter_comm, hv0, measureReal_empty]
  · refine ⟨_, _, h7 Fs hF C (fun E _ F _ => hC E F) m, probability_inter hL hs hv hdom hE.event hF (fun E _ F _ => hf E F) m', ?_, ?_⟩
    · refine List.sum_nonneg fun y hy => ?_
      obtain ⟨F, _, rfl⟩ := List.mem_map.1 hy
      refine div_nonneg (List.sum_nonneg fun y hy => ?_) hpos.le
      obtain ⟨E, _, rfl⟩ := List.mem_map.1 hy
      exact hnn E F
    · rw [← sum_map_quot, div_eq_zero_iff, or_iff_left hpos.ne', sum_swap Es Fs]
      refine sum_eq_zero_iff_map (fun F _ => List.sum_nonneg fun y hy => ?_) (fun F _ => List.sum_nonneg fun y hy => ?_) fun F _ =>
        sum_eq_zero_iff_map (fun E _ => hnn E F) (fun E _ => (hmono E F).1) fun E _ => hzero E F
      · obtain ⟨E, _, rfl⟩ := List.mem_map.1 hy
        exact hnn E F
      · obtain ⟨E, _, rfl⟩ := List.mem_map.1 hy
        exact (hmono E F).1

/-! ### A concrete case: `U[0,4] × U[0,4]` given the boxes `[0,1]²` and `[2,3]²` -/

theorem boxes_for : UnionFor square (squareScope 0) (fun _ => realLine) [both 0 1, both 2 3] := by
  refine ⟨?_, ?_, ?_⟩ <;> intro E hE <;> simp only [List.mem_cons, List.not_mem_nil, or_false] at hE <;> rcases hE with rfl | rfl
  · exact square_event (by norm_num)
  · exact square_event (by norm_num)
  · exact square_proper (by norm_num)
  · exact square_proper (by norm_num)
  · exact square_one 0 1
  · exact square_one 2 3

theorem boxes_value : ∀ E ∈ [both 0 1, both 2 3], CircuitValue square (fun d => (leafLaw d).real (allowed E d.var))
    fun n => if n = 0 then 1 / 16 else 1 / 4 := by
  intro E hE
  simp only [List.mem_cons, List.not_mem_nil, or_false] at hE
  rcases hE with rfl | rfl
  · exact square_value (by norm_num) (by norm_num) (by norm_num)
  · exact square_value (by norm_num) (by norm_num) (by norm_num)

theorem square_noSum (n : Node) : square.kind? n ≠ some .sum := fun h =>
  Ex.forall_kind (P := fun _ k => k = .sum → False) (by simp [square]) n _ h rfl

theorem boxes_probability (m : Mem ℝ) : (square.probability m (fun _ => realLine) [both 0 1, both 2 3]).2 = .ok (1 / 8) := by
  rw [probability_eq square_layered square_scoped square_valid square_domain boxes_for.event
    (p := fun _ n => if n = 0 then 1 / 16 else 1 / 4) boxes_value m]
  norm_num

theorem boxes_disjoint : DisjointFamily [both 0 1, both 2 3] := by
  simp only [DisjointFamily, List.pairwise_cons, List.mem_singleton, forall_eq, List.not_mem_nil, false_imp_iff,
    implies_true, List.Pairwise.nil, and_self, and_true]
  rintro x ⟨ha, hb⟩
  have ha := ha (0, .interval [cc 0 1]) (by simp)
  have hb := hb (0, .interval [cc 2 3]) (by simp)
  change x 0 ∈ (VSet.interval [cc 0 1]).toSet at ha
  change x 0 ∈ (VSet.interval [cc 2 3]).toSet at hb
  rw [cc_toSet] at ha hb
  have := ha.2
  have := hb.1
  linarith

/-- `C08_union_partial` (and with it `C96_union`) applies: the conditional circuit follows Bayes' rule. -/
example : ∃ g' r' x, square.conditional (fun _ => realLine) [both 0 1, both 2 3] = .ok (some g', x) ∧ Layered g' r' ∧
    ∀ Fs : Event, (∀ F ∈ Fs, EventFor square (squareScope 0) F) → ∀ m m', ∃ q, (g'.probability m (fun _ => realLine) Fs).2 = .ok q ∧
      (square.probability m' (fun _ => realLine) ([both 0 1, both 2 3].flatMap fun E => Fs.map fun F => E.inter F)).2 = .ok (q * (1 / 8)) := by
  obtain ⟨g', r', _, x, h1, h2, _, _, _, _, h3⟩ := C08_union_partial square_layered square_scoped square_decomposable square_valid
    (fun n hk => absurd hk (square_noSum n)) (by simp [TreeShaped, square]) square_domain boxes_for (by simp)
    (P := fun _ n => if n = 0 then 1 / 16 else 1 / 4) (T := fun _ _ => 1) boxes_value
    (fun _ _ => ⟨fun _ _ _ => rfl, fun _ _ _ => rfl, fun n hk _ => absurd hk (square_noSum n), fun _ _ _ => rfl⟩)
    (fun _ _ n hk => absurd hk (square_noSum n)) (boxes_probability freshMem) (by norm_num)
  exact ⟨g', r', x, h1, h2, h3⟩

/-- `C95_union` applies: the boxes have probability one afterwards. -/
example : ∃ g' x, square.conditional (fun _ => realLine) [both 0 1, both 2 3] = .ok (some g', x) ∧
    ∀ m, (g'.probability m (fun _ => realLine) [both 0 1, both 2 3]).2 = .ok 1 := by
  obtain ⟨g', _, _, x, h1, _, _, _, h2, _⟩ := C95_union square_layered square_scoped square_decomposable square_valid
    (fun n hk => absurd hk (square_noSum n)) (by simp [TreeShaped, square]) square_domain boxes_for (by simp) boxes_disjoint
    (boxes_probability freshMem) (by norm_num)
  exact ⟨g', x, h1, h2⟩

end PM.Props
