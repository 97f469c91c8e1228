import Verif.Circuit.CondReady
import Verif.Props.Marginal

/-!
# C07 and C08: `conditional`

C07: for simple events, `conditional` returns the probability of the event, and `None` exactly for impossible events.  For
unions of several simple events the returned number is wrong.  C08: the returned circuit is the conditional distribution on
trees whose sum units need no new weights; in general it is not, because the weights of sum units are never updated.
-/

namespace PM.Props

open Spec Graph MeasureTheory

/-- **C07, the full statement.** -/
def C07_full : Prop := ∀ (g : Circuit) (r : Node) (sc : Node → Finset Var) (dom : Var → VSet) (Es : Event),
  Layered g r → Scoped g sc → Decomposable g sc → (∀ n d, g.kind? n = some (.leaf d) → d.Valid) →
  (∀ n d, g.kind? n = some (.leaf d) → d.Normalized) → NormalizedSums g → DomainFor g dom →
  (∀ E ∈ Es, EventFor g (sc r) E ∧ ProperEvent g dom E) → DisjointFamily Es →
  ∃ res p, g.conditional dom Es = .ok (res, p) ∧ (g.probability freshMem dom Es).2 = .ok p ∧ (res = none ↔ p = 0)

/-- **C08, the full statement**: the probability of `F` in the conditional circuit times the probability of `E` is the
probability of the intersection. -/
def C08_full : Prop := ∀ (g : Circuit) (r : Node) (sc : Node → Finset Var) (dom : Var → VSet) (E : SimpleEvent),
  Layered g r → Scoped g sc → Decomposable g sc → (∀ n d, g.kind? n = some (.leaf d) → d.Valid) →
  (∀ n d, g.kind? n = some (.leaf d) → d.Normalized) → NormalizedSums g → DomainFor g dom →
  EventFor g (sc r) E → ProperEvent g dom E → ∀ pE, (g.probability freshMem dom [E]).2 = .ok pE → 0 < pE →
  ∃ g' p, g.conditional dom [E] = .ok (some g', p) ∧
    ∀ F, EventFor g (sc r) F → ∃ q, (g'.probability freshMem dom [F]).2 = .ok q ∧
      (g.probability freshMem dom [E.inter F]).2 = .ok (q * pE)

variable {g : Circuit} {r : Node} {sc : Node → Finset Var} {dom : Var → VSet} {E : SimpleEvent}

theorem EventFor.copy {vs : Finset Var} (h : EventFor g vs E) : EventFor g.copy vs E :=
  ⟨h.nodup, h.keys, h.disjoint, fun p hp n d hk => h.fits p hp n d (by rwa [kind?_copy] at hk)⟩

theorem DomainFor.copy (h : DomainFor g dom) : DomainFor g.copy dom :=
  ⟨h.disjoint, fun n d hk => h.fits n d (by rwa [kind?_copy] at hk), fun n d hk => h.covers n d (by rwa [kind?_copy] at hk)⟩

theorem ProperEvent.copy (h : ProperEvent g dom E) : ProperEvent g.copy dom E :=
  ⟨fun p hp n d hk => h.event p hp n d (by rwa [kind?_copy] at hk), fun n d hk => h.domain n d (by rwa [kind?_copy] at hk)⟩

theorem OneInterval.copy (h : OneInterval g dom E) : OneInterval g.copy dom E :=
  ⟨fun p hp n d hk => h.event p hp n d (by rwa [kind?_copy] at hk), fun n d hk => h.domain n d (by rwa [kind?_copy] at hk)⟩

/-- The answer for one simple event, on a circuit. -/
theorem conditionSimple_answer (hL : Layered g r) (hs : Scoped g sc) (hv : ∀ n d, g.kind? n = some (.leaf d) → d.Valid)
    (hdom : DomainFor g dom) (hE : EventFor g (sc r) E) (hpr : ProperEvent g dom E) {P : Node → ℝ}
    (hP : CircuitValue g (fun d => (leafLaw d).real (allowed E d.var)) P) {m : Mem LogP}
    {res : Option (Circuit × Mem LogP)} {p : LogP}
    (h : g.conditionSimple m (E.fillMissing dom ((sc r).sort (· ≤ ·))) = .ok (res, p)) :
    p.exp = P r ∧ (res = none ↔ P r = 0) := by
  refine conditionSimple_sound hL hs.sumNe hP (fun n d hk => ?_) h
  obtain ⟨A, c, h1, h2, h3, _⟩ := leaf_ready hL hs hv hdom hE hpr n d hk
  exact ⟨A, c, h1, h2, h3⟩

/-- **C07 for simple events**: whenever `conditional` returns, its second component is the answer of `probability`, and its
first component is `None` iff that probability is zero.  The circuit may have shared units, and leaves may fall into
several pieces. -/
theorem C07_simple (hL : Layered g r) (hs : Scoped g sc) (hv : ∀ n d, g.kind? n = some (.leaf d) → d.Valid)
    (hdom : DomainFor g dom) (hE : EventFor g (sc r) E) (hpr : ProperEvent g dom E) {res : Option Circuit} {p : ℝ}
    (h : g.conditional dom [E] = .ok (res, p)) (m : Mem ℝ) :
    (g.probability m dom [E]).2 = .ok p ∧ (res = none ↔ p = 0) := by
  obtain ⟨P, hP⟩ := exists_probValue hL E
  rw [probability_eq hL hs hv hdom (by simpa using hE) (p := fun _ => P) (by simpa using hP)]
  unfold conditional at h
  rw [circuitVars_eq hL.wf hL.graded.acyclic hs hL.root] at h
  simp only [List.map_cons, List.map_nil, logConditional, logConditionalInPlace, bind, Except.bind] at h
  cases hc : g.copy.conditionSimple freshMem (E.fillMissing dom ((sc r).sort (· ≤ ·))) with
  | error e => rw [hc] at h; cases h
  | ok a =>
    obtain ⟨res', q⟩ := a
    rw [hc] at h
    simp only [Except.ok.injEq, Prod.mk.injEq] at h
    obtain ⟨h1, h2⟩ := conditionSimple_answer (Layered.copy hL) (Scoped.copy hL.wf hs) (fun n d hk => hv n d (by rwa [kind?_copy] at hk))
      (DomainFor.copy hdom) (EventFor.copy hE) (ProperEvent.copy hpr) (CircuitValue.copy hL.wf hP) hc
    obtain ⟨ha, hb⟩ := h
    rw [← hb, h1]
    refine ⟨by simp, ?_⟩
    rw [← h2, ← ha]
    simp

theorem C07_empty (hL : Layered g r) (hs : Scoped g sc) (m : Mem ℝ) :
    g.conditional dom [] = .ok (none, 0) ∧ (g.probability m dom []).2 = .ok 0 := by
  unfold conditional probability
  rw [circuitVars_eq hL.wf hL.graded.acyclic hs hL.root]
  refine ⟨?_, rfl⟩
  simp only [List.map_nil, logConditional, logConditionalInPlace, bind, Except.bind]
  rfl

/-- `mapM` answers element by element. -/
theorem mapM_forall₂ {α β : Type} {f : α → Except PyErr β} {l : List α} {l' : List β} (h : l.mapM f = .ok l') :
    List.Forall₂ (fun a b => f a = .ok b) l l' := by
  induction l generalizing l' with
  | nil => simp only [List.mapM_nil, pure, Except.pure, Except.ok.injEq] at h; subst h; exact .nil
  | cons a l ih =>
    rw [List.mapM_cons] at h
    simp only [bind, Except.bind] at h
    cases ha : f a with
    | error e => rw [ha] at h; cases h
    | ok b =>
      rw [ha] at h
      simp only at h
      cases hl : l.mapM f with
      | error e => rw [hl] at h; cases h
      | ok bs =>
        rw [hl] at h
        simp only [pure, Except.pure, Except.ok.injEq] at h
        subst h
        exact .cons ha (ih hl)

/-- **C07, second half, for all events**: whenever `conditional` returns, it returns `None` iff the event has probability
zero. -/
theorem C07_none (hL : Layered g r) (hs : Scoped g sc) (hv : ∀ n d, g.kind? n = some (.leaf d) → d.Valid)
    (hdom : DomainFor g dom) {Es : Event} (hE : ∀ E ∈ Es, EventFor g (sc r) E) (hpr : ∀ E ∈ Es, ProperEvent g dom E)
    {res : Option Circuit} {p : ℝ} (h : g.conditional dom Es = .ok (res, p)) (m : Mem ℝ) :
    res = none ↔ (g.probability m dom Es).2 = .ok 0 := by
  choose P hP using fun E : SimpleEvent => exists_probValue hL E
  have hvals := probability_eq hL hs hv hdom hE (p := P) (fun E _ => hP E) m
  match Es, hE, hpr, h, hvals with
  | [], _, _, h, hvals =>
    rw [(C07_empty hL hs m).1] at h
    simp only [Except.ok.injEq, Prod.mk.injEq] at h
    rw [(C07_empty hL hs m).2, ← h.1]
    simp
  | [E], hE, hpr, h, _ =>
    obtain ⟨h1, h2⟩ := C07_simple hL hs hv hdom (hE E (by simp)) (hpr E (by simp)) h m
    rw [h1, h2]
    simp
  | E₁ :: E₂ :: Es, hE, hpr, h, hvals =>
    rw [hvals]
    unfold conditional at h
    rw [circuitVars_eq hL.wf hL.graded.acyclic hs hL.root] at h
    simp only [List.map_cons, logConditional, logConditionalInPlace] at h
    rw [← List.map_cons, ← List.map_cons] at h
    generalize hl : E₁ :: E₂ :: Es = l at *
    cases hall : (l.map (SimpleEvent.fillMissing dom ((sc r).sort (· ≤ ·)))).mapM
        (fun E => g.copy.copy.conditionSimple freshMem E) with
    | error e => rw [hall] at h; simp only [bind, Except.bind] at h; cases h
    | ok as =>
      rw [hall] at h
      have hf := mapM_forall₂ hall
      rw [List.forall₂_map_left_iff] at hf
      have key : ∀ (l : Event) (as : List (Option (Circuit × Mem LogP) × LogP)),
          (∀ E ∈ l, EventFor g (sc r) E) → (∀ E ∈ l, ProperEvent g dom E) →
          List.Forall₂ (fun E a => g.copy.copy.conditionSimple freshMem
            (SimpleEvent.fillMissing dom ((sc r).sort (· ≤ ·)) E) = .ok a) l as →
          (possible as = [] ↔ (l.map fun E => P E r).sum = 0) := by
        intro l as hE hpr hf
        induction hf with
        | nil => simp [possible]
        | @cons E a l as ha _ ih =>
          obtain ⟨res', q⟩ := a
          have hEE := hE E (by simp)
          have hpp := hpr E (by simp)
          obtain ⟨h1, h2⟩ := conditionSimple_answer (Layered.copy (Layered.copy hL)) (Scoped.copy (Layered.copy hL).wf (Scoped.copy hL.wf hs))
            (fun n d hk => hv n d (by rwa [kind?_copy, kind?_copy] at hk))
            (DomainFor.copy (DomainFor.copy hdom)) (EventFor.copy (EventFor.copy hEE)) (ProperEvent.copy (ProperEvent.copy hpp))
            (CircuitValue.copy (Layered.copy hL).wf (CircuitValue.copy hL.wf (hP E))) ha
          have ih := ih (fun E h => hE E (by simp [h])) (fun E h => hpr E (by simp [h]))
          have hnn : ∀ E, 0 ≤ P E r := fun E => circuitValue_nonneg hL.wf hL.graded.acyclic (hP E)
            (fun _ _ _ => measureReal_nonneg) r (root_mem hL.root).1
          have hsum : 0 ≤ (l.map fun E => P E r).sum := List.sum_nonneg (by
            intro x hx; obtain ⟨E, _, rfl⟩ := List.mem_map.1 hx; exact hnn E)
          simp only [List.map_cons, List.sum_cons]
          rw [add_eq_zero_iff_of_nonneg (hnn E) hsum, ← ih, ← h2]
          cases res' with
          | none => simp [possible]
          | some gm =>
            obtain ⟨g', m'⟩ := gm
            have hq : q ≠ .negInf := by
              rintro rfl
              have : P E r = 0 := by rw [← h1]; rfl
              exact absurd (h2.2 this) (by simp)
            have : q.isNegInf = false := by cases q <;> simp_all [LogP.isNegInf]
            simp [possible, this]
      have hk := key l as hE hpr hf
      simp only [Except.ok.injEq]
      rw [← hk]
      simp only [bind, Except.bind] at h
      cases hp : possible as with
      | nil =>
        rw [hp] at h
        simp only [Except.ok.injEq, Prod.mk.injEq] at h
        simp [← h.1]
      | cons b bs =>
        rw [hp] at h
        simp only at h
        refine ⟨?_, fun h => by simp at h⟩
        rintro rfl
        exfalso
        split at h
        · cases h
        · rename_i v hv'
          split at hv'
          · cases hv'
          · split at hv'
            · cases hv'
            · split at hv'
              · cases hv'
              · simp only [Except.ok.injEq] at hv'
                subst hv'
                simp at h

/-- **C08, proved part**: on every smooth, decomposable, normalized tree without zero weights and every simple event `E` of
positive probability that meets the support of every leaf in at most one interval and leaves the weights of the sum units
alone (`Balanced`), `conditional(E)` returns a circuit that assigns every event over its variables its conditional
probability: `q · P(E)` is the probability of the intersection.  Missing: shared units, sum units whose children have
different positive probabilities (false: `C08_full_false`), leaves in several pieces (false: `C08_pieces_false`). -/
theorem C08_balanced_partial (hL : Layered g r) (hs : Scoped g sc) (hdec : Decomposable g sc)
    (hv : ∀ n d, g.kind? n = some (.leaf d) → d.Valid) (hn : NormalizedSums g) (hp : PositiveWeights g) (ht : TreeShaped g)
    (hdom : DomainFor g dom) (hE : EventFor g (sc r) E) (hpr : ProperEvent g dom E) (hone : OneInterval g dom E)
    (hb : ∀ P, CircuitValue g (fun d => (leafLaw d).real {t | ∀ q ∈ E, q.1 = d.var → q.2.Mem t}) P → Balanced g P)
    {pE : ℝ} {m₀ : Mem ℝ} (hpE : (g.probability m₀ dom [E]).2 = .ok pE) (hpos : 0 < pE) :
    ∃ g' r', g.conditional dom [E] = .ok (some g', pE) ∧ Layered g' r' ∧ Scoped g' sc ∧ Decomposable g' sc ∧
      sc r' = sc r ∧ NormalizedSums g' ∧
      ∀ Fs : Event, (∀ F ∈ Fs, EventFor g (sc r) F) → ∀ m m', ∃ q, (g'.probability m dom Fs).2 = .ok q ∧
        (g.probability m' dom (Fs.map fun F => E.inter F)).2 = .ok (q * pE) := by
  obtain ⟨P, hP⟩ := exists_probValue hL E
  rw [probability_eq hL hs hv hdom (by simpa using hE) (p := fun _ => P) (by simpa using hP)] at hpE
  simp only [List.map_cons, List.map_nil, List.sum_cons, List.sum_nil, add_zero, Except.ok.injEq] at hpE
  subst hpE
  have hbc : Balanced g.copy P := by
    intro n hk hPn
    rw [kind?_copy] at hk
    have hperm := outEdges_copyAt_perm hL.wf 0 n
    have hid : shiftEdge 0 = id := by funext e; cases e; simp [shiftEdge]
    rw [Nat.zero_add, hid, List.map_id] at hperm
    rcases hb P hP n hk hPn with ⟨e₀, h1, h2⟩ | h
    · exact .inl ⟨e₀, hperm.mem_iff.2 h1, fun e he => h2 e (hperm.mem_iff.1 he)⟩
    · exact .inr fun e he => h e (hperm.mem_iff.1 he)
  have hvc : ∀ n d, g.copy.kind? n = some (.leaf d) → d.Valid := fun n d hk => hv n d (by rwa [kind?_copy] at hk)
  have hU := unsplit_ready (Layered.copy hL) (Scoped.copy hL.wf hs) hvc (DomainFor.copy hdom) (EventFor.copy hE) (ProperEvent.copy hpr)
    (OneInterval.copy hone)
  obtain ⟨g', r', m', p, h1, h2, _, hL', hs', hdec', hsc, hn', _, _, hleaf, hval⟩ := conditionSimple_balanced
    (Layered.copy hL) (Scoped.copy hL.wf hs) (Decomposable.copy hL.wf hdec) hvc (NormalizedSums.copy hL.wf hn) (PositiveWeights.copy hL.wf hp)
    (TreeShaped.copy hL.wf ht) (CircuitValue.copy hL.wf hP) hU hbc hpos.ne' freshMem
  refine ⟨g', r', ?_, hL', hs', hdec', hsc, hn', ?_⟩
  · unfold conditional
    rw [circuitVars_eq hL.wf hL.graded.acyclic hs hL.root]
    simp only [List.map_cons, List.map_nil, logConditional, logConditionalInPlace, bind, Except.bind]
    rw [h1]
    simp [h2]
  intro Fs hF m m''
  have hold : ∀ n d', g'.kind? n = some (.leaf d') → ∃ d, g.kind? n = some (.leaf d) ∧ d'.Valid ∧ d'.var = d.var ∧
      (∀ X, Fits d X → Fits d' X) ∧ ∀ X, MeasurableSet X → leafLaw d X = 0 → leafLaw d' X = 0 := by
    intro n d' hk
    obtain ⟨d, q, hd, _, h3, h4, _, h5, h6, h7⟩ := hleaf n d' hk
    rw [kind?_copy] at hd
    refine ⟨d, hd, h4, h5, h6, fun X hX h0 => ?_⟩
    have hfin := finite_leafLaw (hv n d hd)
    have hfin' := finite_leafLaw h4
    have := h7 X hX
    rw [measureReal_def (leafLaw d) (_ ∩ X), measure_mono_null Set.inter_subset_right h0] at this
    simp only [ENNReal.toReal_zero, zero_div] at this
    exact (measureReal_eq_zero_iff).1 this
  have hdom' : DomainFor g' dom := by
    refine ⟨hdom.disjoint, fun n d' hk => ?_, fun n d' hk => ?_⟩
    · obtain ⟨d, hd, _, hvar, hfit, _⟩ := hold n d' hk
      rw [hvar]; exact hfit _ (hdom.fits n d hd)
    · obtain ⟨d, hd, _, hvar, _, hnull⟩ := hold n d' hk
      rw [hvar]; exact hnull _ (VSet.measurableSet_toSet _).compl (hdom.covers n d hd)
  have hF' : ∀ F ∈ Fs, EventFor g' (sc r') F := by
    intro F hFm
    have h := hF F hFm
    refine ⟨h.nodup, by rw [hsc]; exact h.keys, h.disjoint, fun q hq n d' hk hd' => ?_⟩
    obtain ⟨d, hd, _, hvar, hfit, _⟩ := hold n d' hk
    exact hfit _ (h.fits q hq n d hd (hvar ▸ hd'))
  choose f hf using fun F : SimpleEvent => exists_probValue hL (E.inter F)
  have hfF : ∀ F ∈ Fs, CircuitValue g (fun d => (leafLaw d).real (allowed E d.var ∩ allowed F d.var)) (f F) := by
    intro F hFm
    have := hf F
    simp only [allowed_inter (hF F hFm).nodup (compatible_of hL hs hE (hF F hFm))] at this
    exact this
  have hnew : ∀ F : SimpleEvent, ∃ f', F ∈ Fs → CircuitValue g' (fun d => (leafLaw d).real (allowed F d.var)) f' ∧
      f' r' = f F r / P r := by
    intro F
    by_cases hFm : F ∈ Fs
    · obtain ⟨f', h3, h4⟩ := hval (allowed F) (fun v => measurableSet_allowed F v) (f F) (CircuitValue.copy hL.wf (hfF F hFm))
      exact ⟨f', fun _ => ⟨h3, h4⟩⟩
    · exact ⟨fun _ => 0, fun h => absurd h hFm⟩
  choose f' hf' using hnew
  refine ⟨(Fs.map fun F => f' F r').sum, ?_, ?_⟩
  · exact probability_eq hL' hs' (fun n d' hk => by obtain ⟨_, _, h, _⟩ := hold n d' hk; exact h) hdom' hF'
      (fun F hFm => (hf' F hFm).1) m
  · have := probability_eq hL hs hv hdom (Es := Fs.map fun F => E.inter F)
      (by intro X hX; obtain ⟨F, hFm, rfl⟩ := List.mem_map.1 hX; exact eventFor_inter hL hs hE (hF F hFm))
      (p := fun X => Classical.choose (exists_probValue hL X))
      (fun X _ => Classical.choose_spec (exists_probValue hL X)) m''
    rw [this, List.map_map]
    congr 1
    have hu : ∀ F, Classical.choose (exists_probValue hL (E.inter F)) r = f F r := fun F =>
      circuitValue_unique hL.wf hL.graded.acyclic (Classical.choose_spec (exists_probValue hL (E.inter F))) (hf F) r
        (root_mem hL.root).1
    have : ∀ l : Event, (∀ F ∈ l, F ∈ Fs) → (l.map ((fun X => Classical.choose (exists_probValue hL X) r) ∘
        fun F => E.inter F)).sum = (l.map fun F => f' F r').sum * P r := by
      intro l hl
      induction l with
      | nil => simp
      | cons F l ih =>
        simp only [List.map_cons, List.sum_cons, Function.comp, add_mul]
        rw [ih fun F h => hl F (by simp [h]), hu, (hf' F (hl F (by simp))).2, div_mul_cancel₀ _ hpos.ne']
    exact this Fs fun _ h => h

end PM.Props
