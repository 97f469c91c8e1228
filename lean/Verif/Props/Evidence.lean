import Verif.Circuit.CondKind
import Verif.Props.Confined
import Verif.Circuit.CondUnion
import Verif.Props.SampleLaw
import Verif.Spec.NoNormal

/-!
# C102, C103: evidence that arrives step by step, and samples given evidence
-/

namespace PM.Props

open Spec Graph MeasureTheory

variable {g : Circuit} {r : Node} {sc : Node → Finset Var} {dom : Var → VSet} {E : SimpleEvent}

theorem _root_.PM.Spec.EvidenceModel.proper (hM : EvidenceModel g r sc dom) (hE : EvidenceFor g (sc r) E) : ProperEvent g dom E :=
  ⟨fun p hp n d hk hv => proper_of_open (hM.valid n d hk) (hM.noDirac n d hk) (hE.opens p hp n d hk hv),
    fun n d hk => proper_of_open (hM.valid n d hk) (hM.noDirac n d hk) (hM.line n d hk)⟩

theorem _root_.PM.Spec.EvidenceModel.one (hM : EvidenceModel g r sc dom) (hE : EvidenceFor g (sc r) E) : OneInterval g dom E :=
  ⟨fun p hp n d hk hv => oneInterval_of_open (hM.noDirac n d hk) (hE.opens p hp n d hk hv),
    fun n d hk => oneInterval_of_open (hM.noDirac n d hk) (hM.line n d hk)⟩

/-- No leaf has mass outside of the event. -/
def LeavesIn (g : Circuit) (E : SimpleEvent) : Prop := ∀ n d, g.kind? n = some (.leaf d) → leafLaw d (allowed E d.var)ᶜ = 0

theorem condSimple_normal {d d' : Leaf} {I : SimpleInterval} {p : LogP}
    (hd : (∀ v μ σ, d ≠ .gaussian v μ σ) ∧ ∀ v I μ σ, d ≠ .truncGaussian v I μ σ) (h : d.condSimple I = .ok (d', p)) :
    (∀ v μ σ, d' ≠ .gaussian v μ σ) ∧ ∀ v I μ σ, d' ≠ .truncGaussian v I μ σ := by
  unfold Leaf.condSimple at h
  split at h
  · cases h
    exact ⟨fun _ _ _ h => (by cases h), fun _ _ _ _ h => (by cases h)⟩
  · cases d with
    | gaussian v μ σ => exact absurd rfl (hd.1 v μ σ)
    | truncGaussian v J μ σ => exact absurd rfl (hd.2 v J μ σ)
    | uniform v lo hi l u =>
      cases h
      exact ⟨fun _ _ _ h => (by cases h), fun _ _ _ _ h => (by cases h)⟩
    | _ => cases h

/-- Conditioning makes no leaf normal. -/
theorem condInPlace_normal {d d' : Leaf} {A : VSet} {p : LogP}
    (hd : (∀ v μ σ, d ≠ .gaussian v μ σ) ∧ ∀ v I μ σ, d ≠ .truncGaussian v I μ σ) (h : d.condInPlace A = .ok (.one d' p)) :
    (∀ v μ σ, d' ≠ .gaussian v μ σ) ∧ ∀ v I μ σ, d' ≠ .truncGaussian v I μ σ := by
  have cont : ∀ B : VSet, (match d.support.inter B with
      | .symbols _ => .error .typeError
      | .interval [] => .ok .impossible
      | .interval [K] => (d.condSimple K).map fun r => .one r.1 r.2
      | .interval Ks => do
        let ps ← Ks.mapM d.condSimple
        match ps.filter fun q => 0 < q.2.exp with
        | [] => .ok .impossible
        | q :: qs => .ok (.several (q :: qs)) : Except PyErr LeafCond) = .ok (.one d' p) →
      (∀ v μ σ, d' ≠ .gaussian v μ σ) ∧ ∀ v I μ σ, d' ≠ .truncGaussian v I μ σ := by
    intro B hx
    cases hL : d.support.inter B with
    | symbols S => rw [hL] at hx; cases hx
    | interval L =>
      rw [hL] at hx
      match L, hx with
      | [], hx => cases hx
      | [K], hx =>
        cases hk : d.condSimple K with
        | error e => simp only [hk] at hx; cases hx
        | ok q =>
          simp only [hk] at hx
          cases hx
          exact condSimple_normal hd hk
      | K₁ :: K₂ :: Ks, hx =>
        exfalso
        simp only [bind, Except.bind] at hx
        split at hx
        · cases hx
        · split at hx <;> cases hx
  have disc : ∀ {mk : List (ℤ × ℝ) → Leaf} {kept : List (ℤ × ℝ)}, d.logConditional A = .ok (Leaf.discreteCond mk kept) →
      (match d.logConditional A with
        | .error e => .error e
        | .ok (none, _) => .ok .impossible
        | .ok (some d', p) => .ok (.one d' p) : Except PyErr LeafCond) = .ok (.one d' p) → ∃ l, d' = mk l := by
    intro mk kept h1 h2
    rw [h1, Leaf.discreteCond] at h2
    by_cases h0 : (kept.map Prod.snd).sum = 0
    · rw [if_pos h0] at h2
      cases h2
    · rw [if_neg h0] at h2
      cases h2
      exact ⟨_, rfl⟩
  cases d with
  | symbolic v ps =>
    cases A with
    | interval I => simp [Leaf.condInPlace, Leaf.logConditional] at h
    | symbols S =>
      obtain ⟨l, rfl⟩ := disc (mk := Leaf.symbolic v) rfl h
      exact ⟨fun _ _ _ h => (by cases h), fun _ _ _ _ h => (by cases h)⟩
  | integer v ps =>
    cases A with
    | symbols S => simp [Leaf.condInPlace, Leaf.logConditional] at h
    | interval I =>
      obtain ⟨l, rfl⟩ := disc (mk := Leaf.integer v) rfl h
      exact ⟨fun _ _ _ h => (by cases h), fun _ _ _ _ h => (by cases h)⟩
  | gaussian v μ σ => exact absurd rfl (hd.1 v μ σ)
  | truncGaussian v J μ σ => exact absurd rfl (hd.2 v J μ σ)
  | uniform v lo hi l u =>
    cases A with
    | symbols S => simp [Leaf.condInPlace] at h
    | interval I => exact cont _ h
  | dirac v x c =>
    cases A with
    | symbols S => simp [Leaf.condInPlace] at h
    | interval I => exact cont _ h

/-- One step: what the model is after conditioning. -/
theorem evidence_step (hM : EvidenceModel g r sc dom) (hE : EvidenceFor g (sc r) E) {pE : ℝ} {m₀ : Mem ℝ}
    (hpE : (g.probability m₀ dom [E]).2 = .ok pE) (hpos : 0 < pE) :
    ∃ g' r', g.conditional dom [E] = .ok (some g', pE) ∧ EvidenceModel g' r' sc dom ∧ sc r' = sc r ∧
      (∀ F, EvidenceFor g (sc r) F → EvidenceFor g' (sc r') F) ∧
      (∀ F, EventFor g (sc r) F → EventFor g' (sc r') F) ∧ LeavesIn g' E ∧ (∀ F, LeavesIn g F → LeavesIn g' F) ∧
      (∀ n ∈ g'.ids, n ∈ g.ids) ∧ (NoNormal g → NoNormal g') := by
  obtain ⟨P, T, hP, hT, _⟩ := C88_defined hM.layered E
  rw [probability_eq hM.layered hM.smooth hM.valid hM.domain (by simpa using hE.event) (p := fun _ => P) (by simpa using hP)] at hpE
  simp only [List.map_cons, List.map_nil, List.sum_cons, List.sum_nil, add_zero, Except.ok.injEq] at hpE
  subst hpE
  have hpr := hM.proper hE
  have hone := hM.one hE
  obtain ⟨g', r', h1, h2, h3, h4, h5, h6, h7, h8, h9, _⟩ := pruned_full hM.layered hM.smooth hM.decomposable hM.valid hM.positive hM.tree
    hM.domain hE.event hpr hone hP hT hpos
  have hvc : ∀ n d, g.copy.kind? n = some (.leaf d) → d.Valid := fun n d hk => hM.valid n d (by rwa [kind?_copy] at hk)
  have hL := hM.layered
  have hU := unsplit_ready (Layered.copy hL) (Scoped.copy hL.wf hM.smooth) hvc (DomainFor.copy hM.domain) (EventFor.copy hE.event)
    (ProperEvent.copy hpr) (OneInterval.copy hone)
  obtain ⟨g'', r'', m', p, k1, k2, _, _, _, _, _, _, _, hp', ht', hnew, hleaf, hids, _⟩ := conditionSimple_pruned
    (Layered.copy hL) (Scoped.copy hL.wf hM.smooth) (Decomposable.copy hL.wf hM.decomposable) (PositiveWeights.copy hL.wf hM.positive)
    (TreeShaped.copy hL.wf hM.tree) (CircuitValue.copy hL.wf hP) hU (RemainingWeight.copy hL.wf hT) hpos.ne' freshMem
  have hcond : g.conditional dom [E] = .ok (some g'', P r) := by
    unfold conditional
    rw [circuitVars_eq hL.wf hL.graded.acyclic hM.smooth hL.root]
    simp only [List.map_cons, List.map_nil, logConditional, logConditionalInPlace, bind, Except.bind]
    rw [k1]
    simp [k2]
  rw [h1] at hcond
  obtain rfl : g' = g'' := by
    have := Except.ok.inj hcond
    simpa using this
  have hkind : ∀ n d', g'.kind? n = some (.leaf d') → ∃ d, g.kind? n = some (.leaf d) ∧ d'.var = d.var ∧ (HasDensity d' → HasDensity d) ∧
      (∀ v l c, d' ≠ .dirac v l c) ∧ (((∀ v μ σ, d ≠ .gaussian v μ σ) ∧ ∀ v I μ σ, d ≠ .truncGaussian v I μ σ) →
        (∀ v μ σ, d' ≠ .gaussian v μ σ) ∧ ∀ v I μ σ, d' ≠ .truncGaussian v I μ σ) := by
    intro n d' hk
    obtain ⟨d, hd, hd'⟩ := hnew n d' hk
    obtain ⟨d₁, q, hd₁, _, hpos', _, _, hvar, _⟩ := hleaf n d' hk
    rw [hd] at hd₁
    obtain rfl : d = d₁ := by simpa using hd₁
    have hg : g.kind? n = some (.leaf d) := by rwa [kind?_copy] at hd
    obtain ⟨A, c, hA, hc, hspec, hsev⟩ := hU n d hd
    obtain ⟨A', c', hA', _, _, hor⟩ := leaf_ready (Layered.copy hL) (Scoped.copy hL.wf hM.smooth) hvc (DomainFor.copy hM.domain)
      (EventFor.copy hE.event) (ProperEvent.copy hpr) n d hd
    rw [hA] at hA'
    obtain rfl := Except.ok.inj hA'
    cases c with
    | impossible => exact absurd hspec hpos'.ne'
    | several ps => exact absurd rfl (hsev ps)
    | one d₂ p₂ =>
      have : newLeaf (E.fillMissing dom ((sc r).sort (· ≤ ·))) d = d₂ := by simp [newLeaf, hA, hc]
      rw [this] at hd'
      subst hd'
      have hprop : ProperOn d A := by
        rcases hor with ⟨a, ha, hav, rfl⟩ | rfl
        · exact hpr.event a ha n d hg hav
        · exact hpr.domain n d hg
      exact ⟨d, hg, hvar, (condInPlace_kind hprop hc).1, (condInPlace_kind hprop hc).2, fun h => condInPlace_normal h hc⟩
  have hlaw : ∀ n d', g'.kind? n = some (.leaf d') → ∃ d, g.kind? n = some (.leaf d) ∧ d'.var = d.var ∧ d'.Normalized ∧
      0 < (leafLaw d).real (allowed E d.var) ∧
      ∀ B, MeasurableSet B → (leafLaw d').real B = (leafLaw d).real (allowed E d.var ∩ B) / (leafLaw d).real (allowed E d.var) := by
    intro n d' hk
    obtain ⟨d, q, hd, _, a1, a2, a3, a4, a5, a6⟩ := hleaf n d' hk
    rw [kind?_copy] at hd
    exact ⟨d, hd, a4, a3, a1, a6⟩
  refine ⟨g', r', h1, ⟨h2, h3, h4, h7, hp', h6, fun n d hk => (hlaw n d hk).choose_spec.2.2.1, ht', h8,
    fun n d hk => (hkind n d hk).choose_spec.2.2.2.1, fun n d' hk hden => ?_⟩, h5, fun F hF => ⟨h9 F hF.event, fun a ha n d' hk hv hden => ?_⟩, h9, fun n d' hk => ?_, fun F hF n d' hk => ?_, fun n hn => ?_, fun hno n d' hk => ?_⟩
  · obtain ⟨d, hd, hvar, hk', _⟩ := hkind n d' hk
    rw [hvar]
    exact hM.line n d hd (hk' hden)
  · obtain ⟨d, hd, hvar, hk', _⟩ := hkind n d' hk
    exact hF.opens a ha n d hd (hvar ▸ hv) (hk' hden)
  · obtain ⟨d, hd, hvar, _, hps, hB⟩ := hlaw n d' hk
    have hfin := finite_leafLaw (h7 n d' hk)
    have := hB _ (measurableSet_allowed E d'.var).compl
    rw [hvar, Set.inter_compl_self, measureReal_empty, zero_div] at this
    rw [hvar]
    exact (measureReal_eq_zero_iff).1 this
  · obtain ⟨d, hd, hvar, _, hps, hB⟩ := hlaw n d' hk
    have hfin := finite_leafLaw (h7 n d' hk)
    have := hB _ (measurableSet_allowed F d'.var).compl
    rw [hvar, measureReal_def (leafLaw d) (_ ∩ _), measure_mono_null Set.inter_subset_right (hF n d hd)] at this
    simp only [ENNReal.toReal_zero, zero_div] at this
    rw [hvar]
    exact (measureReal_eq_zero_iff).1 this
  · obtain ⟨K, hK⟩ := exists_kind? (hids n hn)
    rw [kind?_copy] at hK
    exact mem_ids_of_kind? hK
  · obtain ⟨d, hd, _, _, _, h⟩ := hkind n d' hk
    exact h (hno n d hd)

/-- An event without mass outside has probability one. -/
theorem probability_one (hM : EvidenceModel g r sc dom) (hE : EventFor g (sc r) E) (hin : LeavesIn g E) (m : Mem ℝ) :
    (g.probability m dom [E]).2 = .ok 1 := by
  have hval : CircuitValue g (fun d => (leafLaw d).real (allowed E d.var)) fun _ => 1 := by
    refine ⟨fun n d hk => ?_, fun n hk => ?_, fun n hk => ?_⟩
    · have : IsProbabilityMeasure (leafLaw d) := ⟨leafLaw_univ (hM.valid n d hk) (hM.leaves n d hk)⟩
      rw [measureReal_def, (prob_compl_eq_zero_iff (measurableSet_allowed E d.var)).1 (hin n d hk)]
      rfl
    · simp [hM.normalized n hk]
    · simp
  rw [probability_eq hM.layered hM.smooth hM.valid hM.domain (by simpa using hE) (p := fun _ _ => 1) (by simpa using hval)]
  simp

theorem eventFor_nil (V : Finset Var) : EventFor g V [] :=
  ⟨by simp [SimpleEvent.keys], by simp [SimpleEvent.keys], by simp, by simp⟩

theorem leavesIn_nil : LeavesIn g [] := fun n d _ => by
  have : (allowed [] d.var)ᶜ = ∅ := by
    ext x
    simp [allowed]
  rw [this, measure_empty]

theorem eventFor_together (hM : EvidenceModel g r sc dom) {F : SimpleEvent} (hF : EventFor g (sc r) F) :
    ∀ Es : List SimpleEvent, (∀ E ∈ Es, EventFor g (sc r) E) → EventFor g (sc r) (together Es F)
  | [], _ => hF
  | E :: Es, hE => eventFor_inter hM.layered hM.smooth (hE E (by simp)) (eventFor_together hM hF Es fun E h => hE E (by simp [h]))

theorem leavesIn_together (hM : EvidenceModel g r sc dom) {F : SimpleEvent} (hF : EventFor g (sc r) F) (hin : LeavesIn g F) :
    ∀ Es : List SimpleEvent, (∀ E ∈ Es, EventFor g (sc r) E ∧ LeavesIn g E) → LeavesIn g (together Es F)
  | [], _ => hin
  | E :: Es, hE => by
    have ih := leavesIn_together hM hF hin Es fun E h => hE E (by simp [h])
    have hT := eventFor_together hM hF Es fun E h => (hE E (by simp [h])).1
    intro n d hk
    show leafLaw d (allowed (E.inter (together Es F)) d.var)ᶜ = 0
    rw [allowed_inter hT.nodup (compatible_of hM.layered hM.smooth (hE E (by simp)).1 hT), Set.compl_inter, measure_union_null_iff]
    exact ⟨(hE E (by simp)).2 n d hk, ih n d hk⟩

theorem conditional_dead (hM : EvidenceModel g r sc dom) (hE : EvidenceFor g (sc r) E) {P : Node → ℝ}
    (hP : CircuitValue g (fun d => (leafLaw d).real (allowed E d.var)) P) (h0 : P r = 0) : g.conditional dom [E] = .ok (none, 0) := by
  have hL := hM.layered
  have hvc : ∀ n d, g.copy.kind? n = some (.leaf d) → d.Valid := fun n d hk => hM.valid n d (by rwa [kind?_copy] at hk)
  have hU := unsplit_ready (Layered.copy hL) (Scoped.copy hL.wf hM.smooth) hvc (DomainFor.copy hM.domain) (EventFor.copy hE.event)
    (ProperEvent.copy (hM.proper hE)) (OneInterval.copy (hM.one hE))
  have := conditionSimple_dead (Layered.copy hL) (Scoped.copy hL.wf hM.smooth).sumNe (CircuitValue.copy hL.wf hP) hU h0 freshMem
  unfold conditional
  rw [circuitVars_eq hL.wf hL.graded.acyclic hM.smooth hL.root]
  simp only [List.map_cons, List.map_nil, logConditional, logConditionalInPlace, bind, Except.bind]
  rw [this]
  simp

/-- What a program gets that conditions step by step. -/
theorem observe_spec : ∀ (Es : List SimpleEvent) {g : Circuit} {r : Node}, EvidenceModel g r sc dom →
    (∀ E ∈ Es, EvidenceFor g (sc r) E) → ∃ res, observe dom g Es = .ok res ∧
      (∀ m p, (g.probability m dom [together Es []]).2 = .ok p → (res = none ↔ p = 0)) ∧
      ∀ g', res = some g' → ∃ r', EvidenceModel g' r' sc dom ∧ sc r' = sc r ∧ (∀ F, EvidenceFor g (sc r) F → EvidenceFor g' (sc r') F) ∧
        (∀ F, EventFor g (sc r) F → EventFor g' (sc r') F) ∧ (∀ F, LeavesIn g F → LeavesIn g' F) ∧ (∀ E ∈ Es, LeavesIn g' E) ∧
        ∀ F, EventFor g (sc r) F → ∀ m m', ∃ q p, (g'.probability m dom [F]).2 = .ok q ∧
          (g.probability m' dom [together Es F]).2 = .ok p ∧ (q = 0 ↔ p = 0)
  | [], g, r, hM, _ => by
    refine ⟨some g, rfl, fun m p hp => ?_, fun g' hg' => ?_⟩
    · rw [show together [] [] = [] from rfl, probability_one hM (eventFor_nil _) leavesIn_nil] at hp
      cases hp
      simp
    · cases hg'
      refine ⟨r, hM, rfl, fun _ h => h, fun _ h => h, fun _ h => h, by simp, fun F hF m m' => ?_⟩
      obtain ⟨P, hP⟩ := exists_probValue hM.layered F
      have := fun m => probability_eq hM.layered hM.smooth hM.valid hM.domain (Es := [F]) (by simpa using hF) (p := fun _ => P)
        (by simpa using hP) m
      exact ⟨_, _, this m, this m', Iff.rfl⟩
  | E :: Es, g, r, hM, hE => by
    have hE0 := hE E (by simp)
    have hEs : ∀ E ∈ Es, EventFor g (sc r) E := fun E h => (hE E (by simp [h])).event
    obtain ⟨P, hP⟩ := exists_probValue hM.layered E
    have hprob := fun m => probability_eq hM.layered hM.smooth hM.valid hM.domain (Es := [E]) (by simpa using hE0.event) (p := fun _ => P)
      (by simpa using hP) m
    simp only [List.map_cons, List.map_nil, List.sum_cons, List.sum_nil, add_zero] at hprob
    have hr := (root_mem hM.layered.root).1
    have hnn : 0 ≤ P r := circuitValue_nonneg hM.layered.wf hM.layered.graded.acyclic hP (fun _ _ _ => measureReal_nonneg) r hr
    rcases hnn.eq_or_lt with h0 | hpos
    · refine ⟨none, ?_, fun m p hp => ⟨fun _ => ?_, fun _ => rfl⟩, fun g' hg' => by cases hg'⟩
      · rw [observe, conditional_dead hM hE0 hP h0.symm]
      · have hT := eventFor_together hM (eventFor_nil _) Es hEs
        obtain ⟨Q, hQ⟩ := exists_probValue hM.layered (together (E :: Es) [])
        rw [probability_eq hM.layered hM.smooth hM.valid hM.domain (Es := [together (E :: Es) []])
          (by simpa [together] using eventFor_inter hM.layered hM.smooth hE0.event hT) (p := fun _ => Q) (by simpa using hQ)] at hp
        simp only [List.map_cons, List.map_nil, List.sum_cons, List.sum_nil, add_zero, Except.ok.injEq] at hp
        rw [← hp]
        refine circuitValue_null hM.layered hP hQ (fun _ _ _ => measureReal_nonneg) (fun n d hk hz => ?_) r hr h0.symm
        have hfin := finite_leafLaw (hM.valid n d hk)
        show (leafLaw d).real (allowed (E.inter (together Es [])) d.var) = 0
        rw [allowed_inter hT.nodup (compatible_of hM.layered hM.smooth hE0.event hT)]
        exact le_antisymm (hz ▸ measureReal_mono Set.inter_subset_left) measureReal_nonneg
    · obtain ⟨g₁, r₁, h1, hM1, hsc, hEv, hEF, hin, hkeep, _⟩ := evidence_step hM hE0 (hprob freshMem) hpos
      obtain ⟨res, i1, i2, i3⟩ := observe_spec Es hM1 fun E h => hEv E (hE E (by simp [h]))
      obtain ⟨g₂, r₂, c1, _, _, _, _, c2⟩ := C95_confined hM.layered hM.smooth hM.decomposable hM.valid hM.positive hM.tree hM.domain
        hE0.event (hM.proper hE0) (hM.one hE0) (hprob freshMem) hpos
      obtain rfl : g₁ = g₂ := by
        rw [h1] at c1
        simpa using Except.ok.inj c1
      have hobs : observe dom g (E :: Es) = .ok res := by
        rw [observe, h1]
        exact i1
      refine ⟨res, hobs, fun m p hp => ?_, fun g' hg' => ?_⟩
      · obtain ⟨q, p', hq, hp', _, hz, _⟩ := c2 [together Es []] (by
          simpa using eventFor_together hM (eventFor_nil _) Es hEs) m m
        rw [i2 m q hq, hz]
        have : (.ok p : Except PyErr ℝ) = .ok p' := hp.symm.trans hp'
        rw [Except.ok.inj this]
      · obtain ⟨r', j1, j2, j0, j3, j4, j5, j6⟩ := i3 g' hg'
        refine ⟨r', j1, j2.trans hsc, fun F hF => j0 F (hEv F hF), fun F hF => j3 F (hEF F hF), fun F hF => j4 F (hkeep F hF), ?_, fun F hF m m' => ?_⟩
        · intro F hF
          rcases List.mem_cons.1 hF with rfl | hF
          · exact j4 _ hin
          · exact j5 F hF
        · obtain ⟨q, p, k1, k2, k3⟩ := j6 F (hEF F hF) m m'
          obtain ⟨q', p', l1, l2, _, l3, _⟩ := c2 [together Es F] (by simpa using eventFor_together hM hF Es hEs) m' m'
          rw [k2] at l1
          cases l1
          exact ⟨q, p', k1, l2, k3.trans l3⟩

/-- What `together` says: a point satisfies it if it satisfies every observation and `F`. -/
theorem mem_together (hM : EvidenceModel g r sc dom) {F : SimpleEvent} (hF : EventFor g (sc r) F) (Es : List SimpleEvent)
    (hE : ∀ E ∈ Es, EventFor g (sc r) E) (x : Var → ℝ) : SimpleEvent.Mem (together Es F) x ↔ (∀ E ∈ Es, E.Mem x) ∧ F.Mem x := by
  induction Es with
  | nil => simp [together]
  | cons E Es ih =>
    have hT := eventFor_together hM hF Es fun E h => hE E (by simp [h])
    show SimpleEvent.Mem (E.inter (together Es F)) x ↔ _
    rw [SimpleEvent.mem_inter hT.nodup (compatible_of hM.layered hM.smooth (hE E (by simp)) hT), ih fun E h => hE E (by simp [h])]
    simp [and_assoc]

/-- **C102**: evidence may be entered step by step.  For every sequence of observations, conditioning on one after the other never fails; it
ends with `None` exactly if the observations together are impossible in the original model; otherwise every observation has probability one in
the model at the end, and a simple event is impossible in it exactly if it is impossible together with all observations in the original
model. -/
theorem C102_step_by_step (hM : EvidenceModel g r sc dom) {Es : List SimpleEvent} (hE : ∀ E ∈ Es, EvidenceFor g (sc r) E) :
    ∃ res, observe dom g Es = .ok res ∧
      (∀ m p, (g.probability m dom [together Es []]).2 = .ok p → (res = none ↔ p = 0)) ∧
      ∀ g', res = some g' → (∀ E ∈ Es, ∀ m, (g'.probability m dom [E]).2 = .ok 1) ∧
        ∀ F, EventFor g (sc r) F → ∀ m m', ∃ q p, (g'.probability m dom [F]).2 = .ok q ∧
          (g.probability m' dom [together Es F]).2 = .ok p ∧ (q = 0 ↔ p = 0) := by
  obtain ⟨res, h1, h2, h3⟩ := observe_spec Es hM hE
  refine ⟨res, h1, h2, fun g' hg' => ?_⟩
  obtain ⟨r', j1, j2, _, j3, _, j5, j6⟩ := h3 g' hg'
  exact ⟨fun E hm m => probability_one j1 (j3 E (hE E hm).event) (j5 E hm) m, j6⟩

theorem allowed_together (hM : EvidenceModel g r sc dom) {Es : List SimpleEvent} (hE : ∀ E ∈ Es, EvidenceFor g (sc r) E) (v : Var) :
    allowed (together Es []) v = {t | ∀ E ∈ Es, t ∈ allowed E v} := by
  induction Es with
  | nil =>
    ext t
    simp [together, allowed]
  | cons E Es ih =>
    have hT := eventFor_together hM (eventFor_nil _) Es fun E h => (hE E (by simp [h])).event
    show allowed (E.inter (together Es [])) v = _
    rw [allowed_inter hT.nodup (compatible_of hM.layered hM.smooth (hE E (by simp)).event hT), ih fun E h => hE E (by simp [h])]
    ext t
    simp

/-- Whether the evidence is possible does not depend on the order in which it is entered. -/
theorem C102_any_order (hM : EvidenceModel g r sc dom) {Es Es' : List SimpleEvent} (hE : ∀ E ∈ Es, EvidenceFor g (sc r) E)
    (hperm : Es.Perm Es') : observe dom g Es = .ok none ↔ observe dom g Es' = .ok none := by
  have hE' : ∀ E ∈ Es', EvidenceFor g (sc r) E := fun E h => hE E (hperm.mem_iff.2 h)
  obtain ⟨res, h1, h2, _⟩ := observe_spec Es hM hE
  obtain ⟨res', h1', h2', _⟩ := observe_spec Es' hM hE'
  have hev := fun Fs h => allowed_together hM (Es := Fs) h
  obtain ⟨P, hP⟩ := exists_probValue hM.layered (together Es [])
  have hP' : CircuitValue g (fun d => (leafLaw d).real (allowed (together Es' []) d.var)) P := by
    have : ∀ v, allowed (together Es' []) v = allowed (together Es []) v := by
      intro v
      rw [hev Es hE, hev Es' hE']
      ext t
      exact ⟨fun h E hm => h E (hperm.mem_iff.1 hm), fun h E hm => h E (hperm.mem_iff.2 hm)⟩
    simp only [this]
    exact hP
  have e1 := h2 freshMem _ (probability_eq hM.layered hM.smooth hM.valid hM.domain (Es := [together Es []])
    (by simpa using eventFor_together hM (eventFor_nil _) Es fun E h => (hE E h).event) (p := fun _ => P) (by simpa using hP) freshMem)
  have e2 := h2' freshMem _ (probability_eq hM.layered hM.smooth hM.valid hM.domain (Es := [together Es' []])
    (by simpa using eventFor_together hM (eventFor_nil _) Es' fun E h => (hE' E h).event) (p := fun _ => P) (by simpa using hP') freshMem)
  rw [h1, h1']
  simp only [Except.ok.injEq]
  rw [e1, e2]
  rfl

/-- **C103**: samples respect evidence.  However often the model was conditioned, and however many samples are drawn, with probability one
`sample` succeeds, every row is completely filled, and every row satisfies all observations. -/
theorem C103_samples (hM : EvidenceModel g r sc dom) {Es : List SimpleEvent} (hE : ∀ E ∈ Es, EvidenceFor g (sc r) E) {g' : Circuit}
    (hobs : observe dom g Es = .ok (some g')) (amount : ℕ) :
    chance (g'.sampleR amount) (fun log => ∀ ρ < amount, ∃ x : Var → ℝ, (∀ v ∈ sc r, cell log ρ v = some (x v)) ∧ ∀ E ∈ Es, E.Mem x) = 1 := by
  obtain ⟨res, h1, _, h3⟩ := observe_spec Es hM hE
  rw [hobs] at h1
  obtain ⟨r', j1, j2, _, j3, _, j5, _⟩ := h3 g' (Except.ok.inj h1).symm
  have hev : ∀ E ∈ Es, EventFor g' (sc r') E := fun E h => j3 E (hE E h).event
  have hT := eventFor_together j1 (eventFor_nil _) Es hev
  have hin := leavesIn_together j1 (eventFor_nil _) leavesIn_nil Es fun E h => ⟨hev E h, j5 E h⟩
  have hvs := circuitVars_eq j1.layered.wf j1.layered.graded.acyclic j1.smooth j1.layered.root
  obtain ⟨p, hp, hc⟩ := C63_all_rows_partial j1.layered j1.smooth j1.decomposable j1.normalized j1.valid j1.leaves j1.domain hvs hT amount freshMem
  rw [probability_one j1 hT hin] at hp
  obtain rfl := Except.ok.inj hp
  rw [one_pow] at hc
  rw [← hc]
  congr 1
  funext log
  have hmem := mem_together j1 (eventFor_nil _) Es hev
  simp only [RowIn, hmem, j2]
  simp [SimpleEvent.Mem]

/-! ### A model that is told twice where its variable lies -/

theorem mix_evidenceModel : EvidenceModel mix 0 (fun _ => {0}) fun _ => realLine where
  layered := mix_layered
  smooth := mix_scoped
  decomposable := mix_decomposable
  valid := mix_valid
  positive := Ex.positive_of (by simp [mix, outEdges, Ex.lw])
  normalized := mix_normalized
  leaves := mix_leaf (by simp [Leaf.Normalized]) (by simp [Leaf.Normalized])
  tree := by simp [TreeShaped, mix]
  domain := mix_domain
  noDirac := mix_leaf (by simp) (by simp)
  line := fun _ _ _ _ => ⟨_, _, rfl⟩

/-- The observation that the variable lies between `a` and `b`. -/
noncomputable abbrev between (a b : ℝ) : SimpleEvent := [(0, .interval [⟨a, b, .opn, .opn⟩])]

theorem mix_evidenceFor {a b : ℝ} (h : a < b) : EvidenceFor mix {0} (between a b) where
  event := ⟨by simp [SimpleEvent.keys], by simp [SimpleEvent.keys], by
    simp [VSet.Disjoint, SimpleInterval.IsEmpty, h.le, h.ne], by
    intro p hp n d hk _
    simp only [List.mem_singleton] at hp
    subst hp
    exact mix_leaf (Q := fun d => Fits d _) (by simp [Fits]) (by simp [Fits]) n d hk⟩
  opens := by
    intro p hp _ _ _ _ _
    simp only [List.mem_singleton] at hp
    subst hp
    exact ⟨_, _, rfl⟩

/-- Told first `0 < x < 3` and then `½ < x < 5`, the model is still there. -/
theorem mix_observed : ∃ g', observe (fun _ => realLine) mix [between 0 3, between (1 / 2) 5] = .ok (some g') := by
  have hE : ∀ E ∈ [between 0 3, between (1 / 2) 5], EvidenceFor mix {0} E := by
    intro E hE
    simp only [List.mem_cons, List.not_mem_nil, or_false] at hE
    rcases hE with rfl | rfl
    · exact mix_evidenceFor (by norm_num)
    · exact mix_evidenceFor (by norm_num)
  obtain ⟨res, h1, h2, _⟩ := C102_step_by_step mix_evidenceModel hE
  obtain ⟨P, hP⟩ := exists_probValue mix_layered (together [between 0 3, between (1 / 2) 5] [])
  have hT := eventFor_together mix_evidenceModel (eventFor_nil _) _ fun E h => (hE E h).event
  have hp := h2 freshMem _ (probability_eq mix_layered mix_scoped mix_valid mix_domain
    (Es := [together [between 0 3, between (1 / 2) 5] []]) (by simpa using hT) (p := fun _ => P) (by simpa using hP) freshMem)
  cases res with
  | some g' => exact ⟨g', h1⟩
  | none =>
    exfalso
    simp only [List.map_cons, List.map_nil, List.sum_cons, List.sum_nil, add_zero, true_iff] at hp
    have := circuitValue_null mix_layered hP (mix_value 1 2) (fun _ _ _ => measureReal_nonneg) (fun n d hk hz => ?_) 0
      (root_mem mix_layered.root).1 hp
    · norm_num at this
    · have hfin := finite_leafLaw (mix_valid n d hk)
      refine le_antisymm (hz ▸ measureReal_mono ?_) measureReal_nonneg
      have hv : d.var = 0 := mix_leaf (Q := fun d => d.var = 0) rfl rfl n d hk
      rw [hv, allowed_single]
      intro t ht
      rw [allowed_together mix_evidenceModel hE]
      simp only [Set.mem_Icc] at ht
      simp only [List.mem_cons, List.not_mem_nil, or_false, forall_eq_or_imp, forall_eq, Set.mem_ofPred_eq, allowed, VSet.Mem]
      have h1 : (0 : ℝ) < t := by linarith [ht.1]
      have h2 : t < (3 : ℝ) := by linarith [ht.2]
      have h3 : (1 / 2 : ℝ) < t := by linarith [ht.1]
      have h4 : t < (5 : ℝ) := by linarith [ht.2]
      have e : ∀ a b : ℝ, a < t → t < b → SimpleInterval.Mem ⟨a, b, .opn, .opn⟩ t := fun a b ha hb =>
        ⟨by simpa [SimpleInterval.leftOK] using ha, by simpa [SimpleInterval.rightOK] using hb⟩
      have e1 := e 0 3 h1 h2
      have e2 := e (1 / 2) 5 h3 h4
      refine ⟨fun _ => ⟨_, rfl, e1⟩, fun _ => ⟨_, rfl, e2⟩⟩

example : ∃ g', observe (fun _ => realLine) mix [between 0 3, between (1 / 2) 5] = .ok (some g') ∧
    ∀ amount, chance (g'.sampleR amount) (fun log => ∀ ρ < amount, ∃ x : Var → ℝ, (∀ v ∈ ({0} : Finset Var), cell log ρ v = some (x v)) ∧
      ∀ E ∈ [between 0 3, between (1 / 2) 5], E.Mem x) = 1 := by
  obtain ⟨g', h⟩ := mix_observed
  refine ⟨g', h, C103_samples mix_evidenceModel (fun E hE => ?_) h⟩
  simp only [List.mem_cons, List.not_mem_nil, or_false] at hE
  rcases hE with rfl | rfl
  · exact mix_evidenceFor (by norm_num)
  · exact mix_evidenceFor (by norm_num)

end PM.Props
