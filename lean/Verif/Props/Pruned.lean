import Verif.Circuit.CondPruned
import Verif.Props.Conditional
import Verif.Props.ConditionalExamples

/-!
# C88: what `conditional` computes

C08 says which conditional circuits are right.  C88 says what the result is on every tree and for every simple event that does not cut a
leaf into pieces: `conditional` always returns, the result is a valid circuit, the returned number is the probability of the event, and the
weights of the mixture are the old weights of the children that are still possible, rescaled to one.  How probable the event is below a child
does not matter (only whether it is zero).
-/

namespace PM.Props

open Spec Graph MeasureTheory

variable {g : Circuit} {r : Node} {sc : Node → Finset Var} {dom : Var → VSet} {E : SimpleEvent}

theorem possibleEdges_copy (hw : g.WF) (P : Node → ℝ) (n : Node) : (possibleEdges g.copy P n).Perm (possibleEdges g P n) := by
  have hperm := outEdges_copyAt_perm hw 0 n
  have hid : shiftEdge 0 = id := by funext e; cases e; simp [shiftEdge]
  rw [Nat.zero_add, hid, List.map_id] at hperm
  exact hperm.filter _

theorem RemainingWeight.copy (hw : g.WF) {P T : Node → ℝ} (h : RemainingWeight g P T) : RemainingWeight g.copy P T := by
  refine ⟨fun n d hk => h.leaf n d (by rwa [kind?_copy] at hk), fun n e he => ?_, fun n hk hl => ?_, fun n hk hl => ?_⟩
  · have := possibleEdges_copy hw P n
    rw [he] at this
    exact h.single n e (List.perm_singleton.1 this.symm)
  · have hp := possibleEdges_copy hw P n
    rw [h.sum n (by rwa [kind?_copy] at hk) (by rwa [← hp.length_eq])]
    exact (hp.symm.map _).sum_eq
  · have hp := possibleEdges_copy hw P n
    exact h.prod n (by rwa [kind?_copy] at hk) (by rwa [← hp.length_eq])

theorem PrunedValue.copy (hw : g.WF) {P T : Node → ℝ} {ℓ : Leaf → ℝ} {C : Node → ℝ} (h : PrunedValue g P T ℓ C) :
    PrunedValue g.copy P T ℓ C := by
  refine ⟨fun n d hk => h.leaf n d (by rwa [kind?_copy] at hk), fun n hk => ?_, fun n hk => ?_⟩
  · have hp := possibleEdges_copy hw P n
    rw [h.sum n (by rwa [kind?_copy] at hk), (hp.symm.map _).sum_eq, (hp.symm.map fun e => linWeight e * T e.dst).sum_eq]
  · rw [h.prod n (by rwa [kind?_copy] at hk)]
    have hperm := outEdges_copyAt_perm hw 0 n
    have hid : shiftEdge 0 = id := by funext e; cases e; simp [shiftEdge]
    rw [Nat.zero_add, hid, List.map_id] at hperm
    exact (hperm.symm.map _).prod_eq

/-- `C88_pruned` together with what later queries on the result need. -/
theorem pruned_full (hL : Layered g r) (hs : Scoped g sc) (hdec : Decomposable g sc)
    (hv : ∀ n d, g.kind? n = some (.leaf d) → d.Valid) (hp : PositiveWeights g) (ht : TreeShaped g)
    (hdom : DomainFor g dom) (hE : EventFor g (sc r) E) (hpr : ProperEvent g dom E) (hone : OneInterval g dom E)
    {P T : Node → ℝ} (hP : CircuitValue g (fun d => (leafLaw d).real (allowed E d.var)) P) (hT : RemainingWeight g P T)
    (hpos : 0 < P r) :
    ∃ g' r', g.conditional dom [E] = .ok (some g', P r) ∧ Layered g' r' ∧ Scoped g' sc ∧ Decomposable g' sc ∧
      sc r' = sc r ∧ NormalizedSums g' ∧ (∀ n d, g'.kind? n = some (.leaf d) → d.Valid) ∧ DomainFor g' dom ∧
      (∀ F, EventFor g (sc r) F → EventFor g' (sc r') F) ∧
      (∀ φ ℓ : Leaf → ℝ, (∀ n d, g.kind? n = some (.leaf d) → (leafLaw d).real (allowed E d.var) ≠ 0 →
        φ (newLeaf (E.fillMissing dom ((sc r).sort (· ≤ ·))) d) = ℓ d) → ∀ C, PrunedValue g P T ℓ C →
        ∃ f', CircuitValue g' φ f' ∧ f' r' = C r) ∧
      ∀ Fs : Event, (∀ F ∈ Fs, EventFor g (sc r) F) → ∀ C : SimpleEvent → Node → ℝ,
        (∀ F ∈ Fs, PrunedValue g P T (fun d => (leafLaw d).real (allowed E d.var ∩ allowed F d.var) / (leafLaw d).real (allowed E d.var))
          (C F)) →
        ∀ m, (g'.probability m dom Fs).2 = .ok (Fs.map fun F => C F r).sum := by
  have hvc : ∀ n d, g.copy.kind? n = some (.leaf d) → d.Valid := fun n d hk => hv n d (by rwa [kind?_copy] at hk)
  have hU := unsplit_ready (Layered.copy hL) (Scoped.copy hL.wf hs) hvc (DomainFor.copy hdom) (EventFor.copy hE) (ProperEvent.copy hpr)
    (OneInterval.copy hone)
  obtain ⟨g', r', m', p, h1, h2, _, _, hL', hs', hdec', hsc, hn', _, _, _, hleaf, _, hval⟩ := conditionSimple_pruned
    (Layered.copy hL) (Scoped.copy hL.wf hs) (Decomposable.copy hL.wf hdec) (PositiveWeights.copy hL.wf hp)
    (TreeShaped.copy hL.wf ht) (CircuitValue.copy hL.wf hP) hU (RemainingWeight.copy hL.wf hT) hpos.ne' freshMem
  have hcond : g.conditional dom [E] = .ok (some g', P r) := by
    unfold conditional
    rw [circuitVars_eq hL.wf hL.graded.acyclic hs hL.root]
    simp only [List.map_cons, List.map_nil, logConditional, logConditionalInPlace, bind, Except.bind]
    rw [h1]
    simp [h2]
  have hold : ∀ n d', g'.kind? n = some (.leaf d') → ∃ d, g.kind? n = some (.leaf d) ∧ d'.Valid ∧ d'.var = d.var ∧
      (∀ X, Fits d X → Fits d' X) ∧ ∀ X, MeasurableSet X → leafLaw d X = 0 → leafLaw d' X = 0 := by
    intro n d' hk
    obtain ⟨d, q, hd, _, h3, h4, _, h5, h6, h7⟩ := hleaf n d' hk
    rw [kind?_copy] at hd
    refine ⟨d, hd, h4, h5, h6, fun X hX h0 => ?_⟩
    have hfin := finite_leafLaw (hv n d hd)
    have hfin' := finite_leafLaw h4
    have := h7 X hX
    rw [measureReal_def (leafLaw d) (_ ∩ X), measure_mono_null Set.inter_subset_right h0] at this
    simp only [ENNReal.toReal_zero, zero_div] at this
    exact (measureReal_eq_zero_iff).1 this
  have hdom' : DomainFor g' dom := by
    refine ⟨hdom.disjoint, fun n d' hk => ?_, fun n d' hk => ?_⟩
    · obtain ⟨d, hd, _, hvar, hfit, _⟩ := hold n d' hk
      rw [hvar]; exact hfit _ (hdom.fits n d hd)
    · obtain ⟨d, hd, _, hvar, _, hnull⟩ := hold n d' hk
      rw [hvar]; exact hnull _ (VSet.measurableSet_toSet _).compl (hdom.covers n d hd)
  have hEv : ∀ F, EventFor g (sc r) F → EventFor g' (sc r') F := by
    intro F h
    refine ⟨h.nodup, by rw [hsc]; exact h.keys, h.disjoint, fun q hq n d' hk hd' => ?_⟩
    obtain ⟨d, hd, _, hvar, hfit, _⟩ := hold n d' hk
    exact hfit _ (h.fits q hq n d hd (hvar ▸ hd'))
  refine ⟨g', r', hcond, hL', hs', hdec', hsc, hn', fun n d' hk => by obtain ⟨_, _, h, _⟩ := hold n d' hk; exact h, hdom', hEv,
    fun φ ℓ hφ C hC => hval φ ℓ (fun n d hk => hφ n d (by rwa [kind?_copy] at hk)) C (PrunedValue.copy hL.wf hC), ?_⟩
  intro Fs hF C hC m
  have hF' : ∀ F ∈ Fs, EventFor g' (sc r') F := fun F hFm => hEv F (hF F hFm)
  have hnew : ∀ F : SimpleEvent, ∃ f', F ∈ Fs → CircuitValue g' (fun d => (leafLaw d).real (allowed F d.var)) f' ∧
      f' r' = C F r := by
    intro F
    by_cases hFm : F ∈ Fs
    · obtain ⟨f', h3, h4⟩ := hval (fun d => (leafLaw d).real (allowed F d.var)) _ (newLeaf_real hU fun v => measurableSet_allowed F v) (C F) (PrunedValue.copy hL.wf (hC F hFm))
      exact ⟨f', fun _ => ⟨h3, h4⟩⟩
    · exact ⟨fun _ => 0, fun h => absurd h hFm⟩
  choose f' hf' using hnew
  rw [probability_eq hL' hs' (fun n d' hk => by obtain ⟨_, _, h, _⟩ := hold n d' hk; exact h) hdom' hF'
      (fun F hFm => (hf' F hFm).1) m]
  congr 2
  exact List.map_congr_left fun F hFm => (hf' F hFm).2

/-- **C88**: on every smooth, decomposable tree without zero weights and every simple event `E` of positive probability that meets the
support of every leaf in at most one interval, `conditional(E)` returns a valid circuit over the same variables with normalized sums,
together with the probability of `E`.  Every event `F` has the probability in it that pruning (`PrunedValue`) gives. -/
theorem C88_pruned (hL : Layered g r) (hs : Scoped g sc) (hdec : Decomposable g sc)
    (hv : ∀ n d, g.kind? n = some (.leaf d) → d.Valid) (hp : PositiveWeights g) (ht : TreeShaped g)
    (hdom : DomainFor g dom) (hE : EventFor g (sc r) E) (hpr : ProperEvent g dom E) (hone : OneInterval g dom E)
    {P T : Node → ℝ} (hP : CircuitValue g (fun d => (leafLaw d).real (allowed E d.var)) P) (hT : RemainingWeight g P T)
    (hpos : 0 < P r) :
    ∃ g' r', g.conditional dom [E] = .ok (some g', P r) ∧ Layered g' r' ∧ Scoped g' sc ∧ Decomposable g' sc ∧
      sc r' = sc r ∧ NormalizedSums g' ∧
      ∀ Fs : Event, (∀ F ∈ Fs, EventFor g (sc r) F) → ∀ C : SimpleEvent → Node → ℝ,
        (∀ F ∈ Fs, PrunedValue g P T (fun d => (leafLaw d).real (allowed E d.var ∩ allowed F d.var) / (leafLaw d).real (allowed E d.var))
          (C F)) →
        ∀ m, (g'.probability m dom Fs).2 = .ok (Fs.map fun F => C F r).sum := by
  obtain ⟨g', r', h1, h2, h3, h4, h5, h6, _, _, _, _, h7⟩ := pruned_full hL hs hdec hv hp ht hdom hE hpr hone hP hT hpos
  exact ⟨g', r', h1, h2, h3, h4, h5, h6, h7⟩

/-- The remaining weights and the pruned values exist: `C88_pruned` applies to every such tree and event. -/
theorem C88_defined (hL : Layered g r) (E : SimpleEvent) : ∃ P T, CircuitValue g (fun d => (leafLaw d).real (allowed E d.var)) P ∧
    RemainingWeight g P T ∧ ∀ F : SimpleEvent, ∃ C, PrunedValue g P T (fun d => (leafLaw d).real (allowed E d.var ∩ allowed F d.var) /
      (leafLaw d).real (allowed E d.var)) C := by
  obtain ⟨P, hP⟩ := exists_circuitValue hL.graded.acyclic fun d : Leaf => (leafLaw d).real (allowed E d.var)
  obtain ⟨T, hT⟩ := exists_remainingWeight hL.graded.acyclic hL.leaves P
  exact ⟨P, T, hP, hT, fun F => exists_prunedValue hL.graded.acyclic P T _⟩

/-- What vanishes at the leaves that are impossible vanishes at all units that are impossible. -/
theorem circuitValue_null (hL : Layered g r) {P f : Node → ℝ} {B ℓ : Leaf → ℝ} (hP : CircuitValue g B P) (hf : CircuitValue g ℓ f)
    (hB : ∀ n d, g.kind? n = some (.leaf d) → 0 ≤ B d) (hz : ∀ n d, g.kind? n = some (.leaf d) → B d = 0 → ℓ d = 0) :
    ∀ n, n ∈ g.ids → P n = 0 → f n = 0 := by
  have hnn := circuitValue_nonneg hL.wf hL.graded.acyclic hP hB
  refine hL.graded.acyclic.induct ?_
  intro n ih hn h0
  have hid : ∀ e ∈ g.outEdges n, e.dst ∈ g.ids := fun e he => hL.wf.dstMem e (mem_outEdges.1 he).1
  obtain ⟨K, hk⟩ := exists_kind? hn
  cases K with
  | leaf d =>
    rw [hf.leaf n d hk]
    rw [hP.leaf n d hk] at h0
    exact hz n d hk h0
  | sum =>
    rw [hf.sum n hk]
    rw [hP.sum n hk] at h0
    have hall : ∀ x ∈ (g.outEdges n).map fun e => linWeight e * P e.dst, 0 ≤ x := by
      intro x hx
      obtain ⟨e, he, rfl⟩ := List.mem_map.1 hx
      refine mul_nonneg ?_ (hnn _ (hid e he))
      unfold linWeight
      split
      · exact LogP.exp_nonneg _
      · exact le_rfl
    refine List.sum_eq_zero fun x hx => ?_
    obtain ⟨e, he, rfl⟩ := List.mem_map.1 hx
    have hm : linWeight e * P e.dst ∈ (g.outEdges n).map fun e => linWeight e * P e.dst := List.mem_map.2 ⟨e, he, rfl⟩
    have h1 : linWeight e * P e.dst = 0 := le_antisymm (h0 ▸ List.single_le_sum hall _ hm) (hall _ hm)
    rcases mul_eq_zero.1 h1 with h2 | h2
    · rw [h2, zero_mul]
    · rw [ih _ (dst_mem_succ he) (hid e he) h2, mul_zero]
  | prod =>
    rw [hf.prod n hk]
    rw [hP.prod n hk, List.prod_eq_zero_iff, List.mem_map] at h0
    obtain ⟨e, he, h1⟩ := h0
    exact List.prod_eq_zero (List.mem_map.2 ⟨e, he, ih _ (dst_mem_succ he) (hid e he) h1⟩)

/-- If the probabilities are proportional to the remaining weights, pruning is conditioning. -/
theorem prunedValue_of_null (hL : Layered g r) (hp : PositiveWeights g) {P T : Node → ℝ} {B ℓ : Leaf → ℝ}
    (hP : CircuitValue g B P) (hpr : Proportional g P T)
    {f : Node → ℝ} (hf : CircuitValue g ℓ f) (hB : ∀ n d, g.kind? n = some (.leaf d) → 0 ≤ B d)
    (hz : ∀ n d, g.kind? n = some (.leaf d) → B d = 0 → ℓ d = 0) :
    PrunedValue g P T (fun d => ℓ d / B d) fun n => f n / P n := by
  have hzero := circuitValue_null hL hP hf hB hz
  have hPnn := circuitValue_nonneg hL.wf hL.graded.acyclic hP hB
  have hsum : ∀ (n : Node) (φ : Edge → ℝ), (∀ e ∈ g.outEdges n, P e.dst = 0 → φ e = 0) →
      ((g.outEdges n).map φ).sum = ((possibleEdges g P n).map φ).sum := by
    intro n φ
    unfold possibleEdges
    generalize g.outEdges n = l
    intro h
    induction l with
    | nil => rfl
    | cons a l ih =>
      rw [List.map_cons, List.sum_cons, ih fun e he => h e (by simp [he])]
      by_cases h0 : P a.dst = 0
      · rw [List.filter_cons_of_neg (by simpa using h0), h a (by simp) h0, zero_add]
      · rw [List.filter_cons_of_pos (by simpa using h0), List.map_cons, List.sum_cons]
  refine ⟨fun n d hk => by rw [hf.leaf n d hk, hP.leaf n d hk], fun n hk => ?_, fun n hk => ?_⟩
  · have hPn : P n = ((possibleEdges g P n).map fun e => linWeight e * P e.dst).sum := by
      rw [hP.sum n hk]
      exact hsum n (fun e => linWeight e * P e.dst) fun e _ h => by simp only [h, mul_zero]
    have hfn : f n = ((possibleEdges g P n).map fun e => linWeight e * f e.dst).sum := by
      rw [hf.sum n hk]
      exact hsum n (fun e => linWeight e * f e.dst) fun e he h => by
        simp only [hzero e.dst (hL.wf.dstMem e (mem_outEdges.1 he).1) h, mul_zero]
    by_cases h0 : P n = 0
    · rw [h0, div_zero]
      have hnil : possibleEdges g P n = [] := by
        rw [List.eq_nil_iff_forall_not_mem]
        intro e he
        have hz := hPn
        rw [h0] at hz
        have hall : ∀ x ∈ (possibleEdges g P n).map fun e => linWeight e * P e.dst, 0 ≤ x := by
          intro x hx
          obtain ⟨e, he, rfl⟩ := List.mem_map.1 hx
          refine mul_nonneg ?_ (hPnn _ (hL.wf.dstMem e (mem_outEdges.1 (mem_possibleEdges.1 he).1).1))
          unfold linWeight
          split
          · exact LogP.exp_nonneg _
          · exact le_rfl
        have hpos : 0 < linWeight e * P e.dst := by
          obtain ⟨h1, h2⟩ := mem_possibleEdges.1 he
          obtain ⟨x, hx⟩ := hp n hk e h1
          refine mul_pos ?_ (lt_of_le_of_ne (hPnn _ (hL.wf.dstMem e (mem_outEdges.1 h1).1)) (Ne.symm h2))
          unfold linWeight
          rw [hx]
          exact Real.exp_pos x
        have := List.single_le_sum hall _ (List.mem_map.2 ⟨e, he, rfl⟩)
        linarith
      rw [hnil]
      simp
    · obtain ⟨c, hc⟩ := hpr n hk h0
      have hc0 : c ≠ 0 := by
        rintro rfl
        apply h0
        rw [hPn]
        refine List.sum_eq_zero fun x hx => ?_
        obtain ⟨e, he, rfl⟩ := List.mem_map.1 hx
        rw [hc e he, zero_mul, mul_zero]
      have e1 : ((possibleEdges g P n).map fun e => linWeight e * T e.dst * (f e.dst / P e.dst)) =
          (possibleEdges g P n).map fun e => linWeight e * f e.dst / c := by
        refine List.map_congr_left fun e he => ?_
        have h2 := (mem_possibleEdges.1 he).2
        have hT : T e.dst = P e.dst / c := by rw [hc e he]; field_simp
        rw [hT]
        field_simp
      have e2 : ((possibleEdges g P n).map fun e => linWeight e * T e.dst) =
          (possibleEdges g P n).map fun e => linWeight e * P e.dst / c := by
        refine List.map_congr_left fun e he => ?_
        rw [hc e he]
        field_simp
      rw [e1, e2, ← sum_map_quot, ← sum_map_quot, ← hPn, ← hfn, div_div_div_cancel_right₀ hc0]
  · rw [hf.prod n hk, hP.prod n hk]
    generalize g.outEdges n = l
    induction l with
    | nil => simp
    | cons a l ih => simp only [List.map_cons, List.prod_cons, ← ih, mul_div_mul_comm]

theorem prunedValue_of_proportional (hL : Layered g r) (hp : PositiveWeights g) {P T : Node → ℝ} {B ℓ : Leaf → ℝ}
    (hP : CircuitValue g B P) (hpr : Proportional g P T)
    {f : Node → ℝ} (hf : CircuitValue g ℓ f) (hℓ : ∀ n d, g.kind? n = some (.leaf d) → 0 ≤ ℓ d)
    (hle : ∀ n d, g.kind? n = some (.leaf d) → ℓ d ≤ B d) :
    PrunedValue g P T (fun d => ℓ d / B d) fun n => f n / P n :=
  prunedValue_of_null hL hp hP hpr hf (fun n d hk => (hℓ n d hk).trans (hle n d hk))
    fun n d hk h0 => le_antisymm (h0 ▸ hle n d hk) (hℓ n d hk)

/-- **C08, proved part**: the conditional circuit is right whenever, at every sum unit, the probabilities of the possible children are
proportional to the weights that are left below them; for instance if the event removes whole components of a mixture and leaves the others
alone. -/
theorem C08_proportional_partial (hL : Layered g r) (hs : Scoped g sc) (hdec : Decomposable g sc)
    (hv : ∀ n d, g.kind? n = some (.leaf d) → d.Valid) (hp : PositiveWeights g) (ht : TreeShaped g)
    (hdom : DomainFor g dom) (hE : EventFor g (sc r) E) (hpr : ProperEvent g dom E) (hone : OneInterval g dom E)
    {P T : Node → ℝ} (hP : CircuitValue g (fun d => (leafLaw d).real (allowed E d.var)) P) (hT : RemainingWeight g P T)
    (hprop : Proportional g P T) (hpos : 0 < P r) :
    ∃ g' r', g.conditional dom [E] = .ok (some g', P r) ∧ Layered g' r' ∧ Scoped g' sc ∧ Decomposable g' sc ∧
      sc r' = sc r ∧ NormalizedSums g' ∧
      ∀ Fs : Event, (∀ F ∈ Fs, EventFor g (sc r) F) → ∀ m m', ∃ q, (g'.probability m dom Fs).2 = .ok q ∧
        (g.probability m' dom (Fs.map fun F => E.inter F)).2 = .ok (q * P r) := by
  obtain ⟨g', r', h1, h2, h3, h4, h5, h6, h7⟩ := C88_pruned hL hs hdec hv hp ht hdom hE hpr hone hP hT hpos
  refine ⟨g', r', h1, h2, h3, h4, h5, h6, fun Fs hF m m'' => ?_⟩
  choose f hf using fun F : SimpleEvent => exists_probValue hL (E.inter F)
  have hfF : ∀ F ∈ Fs, CircuitValue g (fun d => (leafLaw d).real (allowed E d.var ∩ allowed F d.var)) (f F) := by
    intro F hFm
    have := hf F
    simp only [allowed_inter (hF F hFm).nodup (compatible_of hL hs hE (hF F hFm))] at this
    exact this
  have hq := h7 Fs hF (fun F n => f F n / P n) (fun F hFm =>
    prunedValue_of_proportional hL hp hP hprop (hfF F hFm) (fun _ _ _ => measureReal_nonneg)
      fun n d hk => by
        have := finite_leafLaw (hv n d hk)
        exact measureReal_mono Set.inter_subset_left) m
  refine ⟨_, hq, ?_⟩
  have := probability_eq hL hs hv hdom (Es := Fs.map fun F => E.inter F)
    (by intro X hX; obtain ⟨F, hFm, rfl⟩ := List.mem_map.1 hX; exact eventFor_inter hL hs hE (hF F hFm))
    (p := fun X => Classical.choose (exists_probValue hL X))
    (fun X _ => Classical.choose_spec (exists_probValue hL X)) m''
  rw [this, List.map_map]
  congr 1
  have hu : ∀ F, Classical.choose (exists_probValue hL (E.inter F)) r = f F r := fun F =>
    circuitValue_unique hL.wf hL.graded.acyclic (Classical.choose_spec (exists_probValue hL (E.inter F))) (hf F) r
      (root_mem hL.root).1
  clear hq this hfF h7 hF
  induction Fs with
  | nil => simp
  | cons F l ih =>
    simp only [List.map_cons, List.sum_cons, Function.comp, add_mul] at ih ⊢
    rw [ih, hu, div_mul_cancel₀ _ hpos.ne']

/-! ### Concrete cases -/

/-- The probabilities of `[0, 2]` in `½ U[0,1] + ½ U[0,4]`. -/
noncomputable def mixP : Node → ℝ := fun n => if n = 0 then 3 / 4 else if n = 1 then 1 else 1 / 2

theorem mixP_value : CircuitValue mix (fun d => (leafLaw d).real (allowed upTo2 d.var)) mixP := by
  have := mix_value 0 2
  convert this using 1
  funext n
  unfold mixP
  norm_num

theorem mix_possible : possibleEdges mix mixP 0 = [⟨0, 1, Ex.lw (1 / 2)⟩, ⟨0, 2, Ex.lw (1 / 2)⟩] := by
  have h : mix.outEdges 0 = [⟨0, 1, Ex.lw (1 / 2)⟩, ⟨0, 2, Ex.lw (1 / 2)⟩] := rfl
  unfold possibleEdges
  rw [h, List.filter_eq_self]
  intro e he
  simp only [List.mem_cons, List.not_mem_nil, or_false] at he
  rcases he with rfl | rfl <;> simp [mixP]

theorem mix_remaining : RemainingWeight mix mixP fun _ => 1 := by
  have hkind : ∀ n, mix.kind? n = some .sum → n = 0 := fun n h =>
    Ex.forall_kind (P := fun n k => k = .sum → n = 0) (by simp [mix]) n _ h rfl
  refine ⟨fun _ _ _ => rfl, fun _ _ _ => rfl, fun n hk _ => ?_, fun _ _ _ => rfl⟩
  rw [hkind n hk, mix_possible]
  simp (disch := norm_num) [Ex.linWeight_lw, -one_div]

/-- `C88_pruned` on `½ U[0,1] + ½ U[0,4]` given `[0, 2]`: the result is `½ U[0,1] + ½ U[0,2]`, in which `[0, 1]` has probability ¾ (by the
definition of conditional probability it is ⅚). -/
theorem mix_pruned : ∃ g' r', mix.conditional (fun _ => realLine) [upTo2] = .ok (some g', 3 / 4) ∧ Layered g' r' ∧ NormalizedSums g' ∧
    ∀ m, (g'.probability m (fun _ => realLine) [[(0, .interval [cc 0 1])]]).2 = .ok (3 / 4) := by
  obtain ⟨g', r', h1, h2, _, _, _, h3, h4⟩ := C88_pruned mix_layered mix_scoped mix_decomposable mix_valid
    (Ex.positive_of (by simp [mix, outEdges, Ex.lw])) (by simp [TreeShaped, mix]) mix_domain (mix_event (by norm_num)) mix_proper mix_one
    mixP_value mix_remaining (by simp [mixP])
  refine ⟨g', r', by rw [h1]; simp [mixP], h2, h3, fun m => ?_⟩
  rw [h4 [[(0, .interval [cc 0 1])]] (by simpa using mix_event (show (0 : ℝ) ≤ 1 by norm_num))
    (fun _ n => if n = 0 then 3 / 4 else if n = 1 then 1 else 1 / 2) ?_ m]
  · simp
  intro F hF
  simp only [List.mem_singleton] at hF
  subst hF
  have hkind : ∀ n, mix.kind? n = some .sum → n = 0 := fun n h =>
    Ex.forall_kind (P := fun n k => k = .sum → n = 0) (by simp [mix]) n _ h rfl
  refine ⟨?_, fun n hk => ?_, fun n hk => ?_⟩
  · intro n d hk
    have a1 := uniform_real 0 (show (0 : ℝ) < 1 by norm_num) 0 2
    have a2 := uniform_real 0 (show (0 : ℝ) < 4 by norm_num) 0 2
    have b1 := uniform_real 0 (show (0 : ℝ) < 1 by norm_num) 0 1
    have b2 := uniform_real 0 (show (0 : ℝ) < 4 by norm_num) 0 1
    have hint : Set.Icc (0 : ℝ) 2 ∩ Set.Icc 0 1 = Set.Icc 0 1 := by
      rw [Set.Icc_inter_Icc]; norm_num
    refine Ex.forall_kind (P := fun n k => ∀ d, k = .leaf d → (if n = 0 then (3 / 4 : ℝ) else if n = 1 then 1 else 1 / 2) =
      (leafLaw d).real (allowed upTo2 d.var ∩ allowed [(0, .interval [cc 0 1])] d.var) / (leafLaw d).real (allowed upTo2 d.var))
      ?_ n _ hk d rfl
    intro q hq d hd
    simp only [mix, List.mem_cons, List.not_mem_nil, or_false] at hq
    rcases hq with rfl | rfl | rfl
    · cases hd
    · simp only [Kind.leaf.injEq] at hd
      subst hd
      simp only [Leaf.var, allowed_single, hint]
      rw [a1, b1]
      norm_num
    · simp only [Kind.leaf.injEq] at hd
      subst hd
      simp only [Leaf.var, allowed_single, hint]
      rw [a2, b2]
      norm_num
  · rw [hkind n hk, mix_possible]
    simp (disch := norm_num) [Ex.linWeight_lw, -one_div]
    norm_num
  · exact absurd rfl (Ex.forall_kind (P := fun _ k => k = .prod → (0 : ℕ) ≠ 0) (by simp [mix]) n _ hk rfl)

/-- `½ U[0,1] + ¼ U[2,3] + ¼ U[4,5]`. -/
noncomputable def three : Circuit where
  nodes := [(0, .sum), (1, .leaf (.uniform 0 0 1 .closed .closed)), (2, .leaf (.uniform 0 2 3 .closed .closed)),
    (3, .leaf (.uniform 0 4 5 .closed .closed))]
  edges := [⟨0, 1, Ex.lw (1 / 2)⟩, ⟨0, 2, Ex.lw (1 / 4)⟩, ⟨0, 3, Ex.lw (1 / 4)⟩]

theorem three_leaf {Q : Leaf → Prop} (h1 : Q (.uniform 0 0 1 .closed .closed)) (h2 : Q (.uniform 0 2 3 .closed .closed))
    (h3 : Q (.uniform 0 4 5 .closed .closed)) : ∀ n d, three.kind? n = some (.leaf d) → Q d := fun n d h =>
  Ex.forall_kind (P := fun _ k => ∀ d, k = .leaf d → Q d) (by simp [three]; exact ⟨h1, h2, h3⟩) n _ h d rfl

/-- The probabilities of `[0, 3]` below the units. -/
noncomputable def threeP : Node → ℝ := fun n => if n = 0 then 3 / 4 else if n = 3 then 0 else 1

noncomputable def threeT : Node → ℝ := fun n => if n = 0 then 3 / 4 else 1

theorem three_out : three.outEdges 0 = [⟨0, 1, Ex.lw (1 / 2)⟩, ⟨0, 2, Ex.lw (1 / 4)⟩, ⟨0, 3, Ex.lw (1 / 4)⟩] := rfl

theorem three_possible : possibleEdges three threeP 0 = [⟨0, 1, Ex.lw (1 / 2)⟩, ⟨0, 2, Ex.lw (1 / 4)⟩] := by
  unfold possibleEdges
  rw [three_out]
  simp [threeP]

theorem three_sum (n : Node) (h : three.kind? n = some .sum) : n = 0 :=
  Ex.forall_kind (P := fun n k => k = .sum → n = 0) (by simp [three]) n _ h rfl

/-- The hypotheses of `C08_proportional_partial` hold for `½ U[0,1] + ¼ U[2,3] + ¼ U[4,5]` and `[0, 3]`, which removes a component (so that
`C08_balanced_partial` does not apply). -/
example : ∃ g' r', three.conditional (fun _ => realLine) [[(0, .interval [cc 0 3])]] = .ok (some g', 3 / 4) ∧ Layered g' r' ∧
    NormalizedSums g' ∧ ∀ Fs : Event, (∀ F ∈ Fs, EventFor three {0} F) → ∀ m m', ∃ q, (g'.probability m (fun _ => realLine) Fs).2 = .ok q ∧
      (three.probability m' (fun _ => realLine) (Fs.map fun F => SimpleEvent.inter [(0, .interval [cc 0 3])] F)).2 = .ok (q * (3 / 4)) := by
  have hL : Layered three 0 :=
    { wf := ⟨by decide, by simp [three], by simp [three, ids], by simp [three, ids]⟩
      graded := ⟨fun n => if n = 0 then 0 else 1, by simp [three]⟩
      leaves := Ex.leafTerminal_of (by simp [three, succ, outEdges])
      weighted := Ex.weighted_of (by simp [three, outEdges, Ex.lw])
      root := by simp [root, three, ids, inDegree, inEdges] }
  have hP : CircuitValue three (fun d => (leafLaw d).real (allowed [(0, .interval [cc 0 3])] d.var)) threeP := by
    refine Ex.value_of ?_ ?_ ?_
    · have h1 := uniform_real 0 (show (0 : ℝ) < 1 by norm_num) 0 3
      have h2 := uniform_real 0 (show (2 : ℝ) < 3 by norm_num) 0 3
      have h3 := uniform_real 0 (show (4 : ℝ) < 5 by norm_num) 0 3
      simp only [three]
      simp [Leaf.var, allowed_single, h1, h2, h3, threeP]
      norm_num
    · intro p hp hk
      have : p.1 = 0 := by
        simp only [three, List.mem_cons, List.not_mem_nil, or_false] at hp
        rcases hp with rfl | rfl | rfl | rfl <;> simp_all
      rw [this, three_out]
      simp (disch := norm_num) [Ex.linWeight_lw, threeP, -one_div]
      norm_num
    · simp [three]
  have hT : RemainingWeight three threeP threeT := by
    refine ⟨fun n d hk => ?_, fun n e he => ?_, fun n hk _ => ?_, fun n hk => ?_⟩
    · refine Ex.forall_kind (P := fun n k => ∀ d, k = .leaf d → threeT n = 1) ?_ n _ hk d rfl
      simp [three, threeT]
    · by_cases hn : n = 0
      · rw [hn, three_possible] at he
        cases he
      · have : three.outEdges n = [] := by simp [three, outEdges, Ne.symm hn]
        unfold possibleEdges at he
        rw [this] at he
        cases he
    · rw [three_sum n hk, three_possible]
      simp (disch := norm_num) [Ex.linWeight_lw, threeT, -one_div]
      norm_num
    · exact absurd rfl (Ex.forall_kind (P := fun _ k => k = .prod → (0 : ℕ) ≠ 0) (by simp [three]) n _ hk rfl)
  obtain ⟨g', r', h1, h2, _, _, _, h3, h4⟩ := C08_proportional_partial (sc := fun _ => {0}) (dom := fun _ => realLine)
    (E := [(0, .interval [cc 0 3])]) hL
    (Ex.scoped_of (by simp [three, Leaf.var]) (by simp [three, succ, outEdges]) (by simp [three]))
    (Ex.decomposable_of (by simp [three])) (Ex.valid_of (by simp [three, Leaf.Valid]; norm_num))
    (Ex.positive_of (by simp [three, outEdges, Ex.lw])) (by simp [TreeShaped, three])
    ⟨fun _ => realLine_disjoint, three_leaf (by simp [Fits, realLine]) (by simp [Fits, realLine]) (by simp [Fits, realLine]),
      fun _ _ _ => by simp [realLine_toSet]⟩
    ⟨by simp [SimpleEvent.keys], by simp [SimpleEvent.keys], by simpa using cc_disjoint (show (0 : ℝ) ≤ 3 by norm_num), by
      intro p hp n d hk _
      simp only [List.mem_singleton] at hp
      subst hp
      exact three_leaf (Q := fun d => Fits d _) (by simp [Fits]) (by simp [Fits]) (by simp [Fits]) n d hk⟩
    ⟨by
      intro p hp n d hk _
      simp only [List.mem_singleton] at hp
      subst hp
      exact three_leaf (Q := fun d => ProperOn d _) (proper_uniform (by norm_num)) (proper_uniform (by norm_num))
        (proper_uniform (by norm_num)) n d hk,
      three_leaf (Q := fun d => ProperOn d realLine) (proper_realLine (by norm_num)) (proper_realLine (by norm_num))
        (proper_realLine (by norm_num))⟩
    ⟨by
      intro p hp n d hk _
      simp only [List.mem_singleton] at hp
      subst hp
      exact three_leaf (Q := fun d => OneIntervalOn d _) (oneInterval_single _) (oneInterval_single _) (oneInterval_single _) n d hk,
      three_leaf (Q := fun d => OneIntervalOn d realLine) (oneInterval_single _) (oneInterval_single _) (oneInterval_single _)⟩
    hP hT (by
      intro n hk _
      rw [three_sum n hk]
      refine ⟨1, fun e he => ?_⟩
      rw [three_possible] at he
      simp only [List.mem_cons, List.not_mem_nil, or_false] at he
      rcases he with rfl | rfl <;> simp [threeP, threeT]) (by simp [threeP])
  refine ⟨g', r', by rw [h1]; simp [threeP], h2, h3, fun Fs hF m m' => ?_⟩
  obtain ⟨q, h5, h6⟩ := h4 Fs hF m m'
  exact ⟨q, h5, by rw [h6]; simp [threeP]⟩

end PM.Props
