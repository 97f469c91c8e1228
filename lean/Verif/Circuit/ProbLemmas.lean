import Verif.Spec.Integral
import Verif.Circuit.Integral
import Verif.Dist.LawLemmas

/-! Probability passes and integrals; helper lemmas for C04–C06. -/

set_option linter.unusedSectionVars false

namespace PM

open Spec Graph MeasureTheory Classical
open scoped ENNReal

variable {g : Circuit} {r : Node} {sc : Node → Finset Var}

/-! ### The generic integral formula -/

theorem ecv_indicator (hs : Scoped g sc) {ψ : Leaf → ℝ → ℝ≥0∞} (B : Var → Set ℝ) (x : Var → ℝ)
    {F : Node → ℝ≥0∞} (hF : ECircuitValue g (fun d => ψ d (x d.var)) F) :
    ECircuitValue g (fun d => (B d.var).indicator (ψ d) (x d.var))
      (fun n => if ∀ v ∈ sc n, x v ∈ B v then F n else 0) := by
  refine ⟨fun n d hk => ?_, fun n hk => ?_, fun n hk => ?_⟩
  · simp only [hs.leaf n d hk, Finset.mem_singleton, forall_eq, hF.leaf n d hk]
    by_cases h : x d.var ∈ B d.var <;> simp [h]
  · by_cases h : ∀ v ∈ sc n, x v ∈ B v
    · rw [if_pos h, hF.sum n hk]
      congr 1
      apply List.map_congr_left
      intro e he
      rw [if_pos (by rw [hs.sum n hk _ (dst_mem_succ he)]; exact h)]
    · rw [if_neg h]
      symm
      apply List.sum_eq_zero
      intro y hy
      obtain ⟨e, he, rfl⟩ := List.mem_map.1 hy
      rw [if_neg (by rw [hs.sum n hk _ (dst_mem_succ he)]; exact h), mul_zero]
  · by_cases h : ∀ v ∈ sc n, x v ∈ B v
    · rw [if_pos h, hF.prod n hk]
      congr 1
      apply List.map_congr_left
      intro e he
      rw [if_pos (fun v hv => h v ((hs.prod n hk v).2 ⟨_, dst_mem_succ he, hv⟩))]
    · rw [if_neg h]
      push Not at h
      obtain ⟨v, hv, hx⟩ := h
      obtain ⟨c, hc, hvc⟩ := (hs.prod n hk v).1 hv
      obtain ⟨e, he, rfl⟩ := List.mem_map.1 hc
      symm
      apply List.prod_eq_zero
      rw [List.mem_map]
      exact ⟨e, he, if_neg (fun h => hx (h v hvc))⟩

/-- The circuit value of the leaf masses of the sets `B v` is the integral of the density over the box. -/
theorem box_integral {μ : Var → Measure ℝ} [∀ v, SigmaFinite (μ v)] (hw : g.WF) (ha : g.Acyclic) (hs : Scoped g sc)
    (hdec : Decomposable g sc) (hv : ∀ n d, g.kind? n = some (.leaf d) → d.Valid)
    {ψ : Leaf → ℝ → ℝ≥0∞} (hψ : ∀ d, Measurable (ψ d))
    (hlaw : ∀ n d, g.kind? n = some (.leaf d) → leafLaw d = (μ d.var).withDensity (ψ d))
    {F : (Var → ℝ) → Node → ℝ≥0∞} (hF : ∀ x, ECircuitValue g (fun d => ψ d (x d.var)) (F x))
    {B : Var → Set ℝ} (hB : ∀ v, MeasurableSet (B v)) {p : Node → ℝ}
    (hp : CircuitValue g (fun d => (leafLaw d).real (B d.var)) p) {n : Node} (hn : n ∈ g.ids) :
    ENNReal.ofReal (p n) = integralOver μ (sc n) (fun x => if ∀ v ∈ sc n, x v ∈ B v then F x n else 0) := by
  have h1 := ecv_ofReal hw ha hp (fun n d _ => measureReal_nonneg)
  have h2 := ecv_congr (ℓ' := fun d => ∫⁻ t, (B d.var).indicator (ψ d) t ∂μ d.var) h1 (fun n d hk => by
    have := finite_leafLaw (hv n d hk)
    rw [lintegral_indicator (hB _), ← withDensity_apply _ (hB _), ← hlaw n d hk]
    simp [measureReal_def])
  have h3 := lmarginal_ecv (μ := μ) hw ha hs hdec (ψ := fun d => (B d.var).indicator (ψ d))
    (fun d => (hψ d).indicator (hB _)) (fun x => ecv_indicator hs B x (hF x)) h2 n hn
  rw [integralOver, h3]

/-- Every circuit has a common finite base measure with densities for all its leaves (also for Dirac leaves). -/
theorem exists_base (g : Circuit) (hv : ∀ n d, g.kind? n = some (.leaf d) → d.Valid) (hw : g.WF) :
    ∃ (μ : Var → Measure ℝ) (ψ : Leaf → ℝ → ℝ≥0∞), (∀ v, IsFiniteMeasure (μ v)) ∧ (∀ d, Measurable (ψ d)) ∧
      ∀ n d, g.kind? n = some (.leaf d) → leafLaw d = (μ d.var).withDensity (ψ d) := by
  have key : ∀ l : List (Node × Kind Leaf), (∀ p ∈ l, ∀ d, p.2 = .leaf d → d.Valid) →
      ∃ μ : Var → Measure ℝ, (∀ v, IsFiniteMeasure (μ v)) ∧ ∀ p ∈ l, ∀ d, p.2 = .leaf d → leafLaw d ≤ μ d.var := by
    intro l
    induction l with
    | nil => intro _; exact ⟨fun _ => 0, fun _ => inferInstance, by simp⟩
    | cons p l ih =>
      intro h
      obtain ⟨μ, hfin, hle⟩ := ih (fun q hq => h q (by simp [hq]))
      cases hpk : p.2 with
      | leaf d =>
        have := finite_leafLaw (h p (by simp) d hpk)
        refine ⟨fun v => μ v + leafLaw d, fun v => inferInstance, ?_⟩
        intro q hq d' hd'
        rcases List.mem_cons.1 hq with rfl | hq
        · rw [hpk] at hd'
          cases hd'
          exact Measure.le_add_left le_rfl
        · exact Measure.le_add_right (hle q hq d' hd')
      | sum =>
        refine ⟨μ, hfin, ?_⟩
        intro q hq d' hd'
        rcases List.mem_cons.1 hq with rfl | hq
        · rw [hpk] at hd'; cases hd'
        · exact hle q hq d' hd'
      | prod =>
        refine ⟨μ, hfin, ?_⟩
        intro q hq d' hd'
        rcases List.mem_cons.1 hq with rfl | hq
        · rw [hpk] at hd'; cases hd'
        · exact hle q hq d' hd'
  have hkind : ∀ p ∈ g.nodes, g.kind? p.1 = some p.2 := by
    intro p hp
    have hnd := hw.nodup
    unfold kind?
    unfold ids at hnd
    generalize g.nodes = l at hp hnd
    induction l with
    | nil => simp at hp
    | cons q l ih =>
      simp only [List.map_cons, List.nodup_cons] at hnd
      by_cases hq : q.1 = p.1
      · rcases List.mem_cons.1 hp with rfl | hp
        · simp
        · exact absurd (List.mem_map.2 ⟨p, hp, rfl⟩) (hq ▸ hnd.1)
      · have : p ∈ l := (List.mem_cons.1 hp).resolve_left (fun h => hq (h ▸ rfl))
        have hb : (q.1 == p.1) = false := by simpa using hq
        rw [List.find?_cons, hb]
        exact ih this hnd.2
  obtain ⟨μ, hfin, hle⟩ := key g.nodes (fun p hp d hd => hv p.1 d (by rw [hkind p hp, hd]))
  refine ⟨μ, fun d => (leafLaw d).rnDeriv (μ d.var), hfin, fun d => Measure.measurable_rnDeriv _ _, ?_⟩
  intro n d hk
  have := finite_leafLaw (hv n d hk)
  have hmem : ∃ p ∈ g.nodes, p.2 = .leaf d := by
    unfold kind? at hk
    simp only [Option.map_eq_some_iff] at hk
    obtain ⟨p, hp, hpk⟩ := hk
    exact ⟨p, List.mem_of_find?_eq_some hp, hpk⟩
  obtain ⟨p, hp, hpk⟩ := hmem
  exact (Measure.withDensity_rnDeriv_eq _ _ (Measure.absolutelyContinuous_of_le (hle p hp d hpk))).symm

/-! ### The passes -/

theorem get_ok_of_mem {E : SimpleEvent} (hn : E.keys.Nodup) {p : Var × VSet} (hp : p ∈ E) : E.get p.1 = .ok p.2 := by
  induction E with
  | nil => simp at hp
  | cons q E ih =>
    simp only [SimpleEvent.keys, List.map_cons, List.nodup_cons] at hn
    by_cases hq : q.1 = p.1
    · rcases List.mem_cons.1 hp with rfl | hp
      · simp [SimpleEvent.get]
      · exact absurd (List.mem_map.2 ⟨p, hp, rfl⟩) (hq ▸ hn.1)
    · have hp' : p ∈ E := (List.mem_cons.1 hp).resolve_left (fun h => hq (h ▸ rfl))
      have hb : (q.1 == p.1) = false := by simpa using hq
      have := ih hn.2 hp'
      simp only [SimpleEvent.get, List.find?_cons, hb] at this ⊢
      exact this

theorem measurableSet_allowed (E : SimpleEvent) (v : Var) : MeasurableSet (allowed E v) := by
  have : allowed E v = ⋂ p ∈ E.filter (fun p => p.1 == v), p.2.toSet := by
    ext t
    simp [allowed, VSet.toSet]
  rw [this]
  exact MeasurableSet.biInter (List.finite_toSet _).countable (fun p _ => p.2.measurableSet_toSet)

theorem mem_event_iff {E : SimpleEvent} {s : Finset Var} (hk : ∀ v ∈ E.keys, v ∈ s) (x : Var → ℝ) :
    (∀ v ∈ s, x v ∈ allowed E v) ↔ E.Mem x := by
  constructor
  · intro h p hp
    exact h p.1 (hk _ (List.mem_map.2 ⟨p, hp, rfl⟩)) p hp rfl
  · intro h v _ p hp hv
    rw [← hv]
    exact h p hp

/-- Reading a filled event. -/
theorem fill_get {vs : List Var} {dom : Var → VSet} {E : SimpleEvent} (hn : E.keys.Nodup) {v : Var} (hv : v ∈ vs) :
    (∃ p ∈ E, p.1 = v ∧ (E.fillMissing dom vs).get v = .ok p.2) ∨
    (v ∉ E.keys ∧ (E.fillMissing dom vs).get v = .ok (dom v)) := by
  by_cases h : v ∈ E.keys
  · left
    obtain ⟨p, hp, rfl⟩ := List.mem_map.1 h
    refine ⟨p, hp, rfl, ?_⟩
    have h1 := get_ok_of_mem hn hp
    simp only [SimpleEvent.get, SimpleEvent.fillMissing, List.find?_append] at h1 ⊢
    cases hf : E.find? (fun q => q.1 == p.1) with
    | none => rw [hf] at h1; cases h1
    | some q => rw [hf] at h1; simpa using h1
  · right
    refine ⟨h, ?_⟩
    have h1 : E.find? (fun q => q.1 == v) = none := by
      rw [List.find?_eq_none]
      intro q hq hqv
      exact h (List.mem_map.2 ⟨q, hq, by simpa using hqv⟩)
    have h2 : ((vs.filter fun v => !E.keys.contains v).map fun v => (v, dom v)).find? (fun q => q.1 == v)
        = some (v, dom v) := by
      have hvf : v ∈ vs.filter (fun v => !E.keys.contains v) := by
        simp [hv, h]
      generalize vs.filter (fun v => !E.keys.contains v) = l at hvf
      induction l with
      | nil => simp at hvf
      | cons a l ih =>
        simp only [List.map_cons, List.find?_cons]
        by_cases ha : a = v
        · subst ha; simp
        · have hb : (a == v) = false := by simpa using ha
          rw [hb]
          exact ih ((List.mem_cons.1 hvf).resolve_left (fun h => ha h.symm))
    simp only [SimpleEvent.get, SimpleEvent.fillMissing, List.find?_append, h1, h2]
    rfl

theorem allowed_of_mem {E : SimpleEvent} (hn : E.keys.Nodup) {p : Var × VSet} (hp : p ∈ E) :
    allowed E p.1 = p.2.toSet := by
  ext t
  simp only [allowed, VSet.toSet]
  constructor
  · intro h; exact h p hp rfl
  · intro h q hq hqp
    have h1 := get_ok_of_mem hn hp
    have h2 := get_ok_of_mem hn hq
    rw [hqp, h1] at h2
    injection h2 with h2
    rw [← h2]
    exact h

theorem allowed_of_not_mem {E : SimpleEvent} {v : Var} (h : v ∉ E.keys) : allowed E v = Set.univ := by
  ext t
  simp only [allowed, Set.mem_univ, iff_true]
  intro p hp hpv
  exact absurd (List.mem_map.2 ⟨p, hp, hpv⟩) h

/-- One pass of `probability_of_simple_event` on the filled event returns the circuit value of the leaf masses. -/
theorem prob_pass (hL : Layered g r) (hs : Scoped g sc) (hv : ∀ n d, g.kind? n = some (.leaf d) → d.Valid)
    {dom : Var → VSet} (hdom : DomainFor g dom) {E : SimpleEvent} (hE : EventFor g (sc r) E) {p : Node → ℝ}
    (hp : CircuitValue g (fun d => (leafLaw d).real (allowed E d.var)) p) (m : Mem ℝ) :
    (g.probabilityOfSimpleEvent m (E.fillMissing dom ((sc r).sort (· ≤ ·)))).2 = .ok (p r) := by
  unfold probabilityOfSimpleEvent
  refine (query_eq_meaning hL.wf hL.graded hL.root (forward_meaning hL (ℓ := fun d =>
    (leafLaw d).real (allowed E d.var)) ?_ hp) m).1
  intro n d hk
  have hfin := finite_leafLaw (hv n d hk)
  have hreach := reachable_of_root hL.wf hL.graded.acyclic hL.root n (mem_ids_of_kind? hk)
  have hd : d.var ∈ sc r := scope_mono hL.wf hL.leaves hs (root_mem hL.root).1 hreach (by simp [hs.leaf n d hk])
  simp only [Leaf.probEvent]
  rcases fill_get (dom := dom) hE.nodup (show d.var ∈ (sc r).sort (· ≤ ·) by simpa using hd) with
    ⟨q, hq, hqv, hget⟩ | ⟨hnk, hget⟩
  · rw [hget]
    change d.prob q.2 = _
    rw [leaf_prob_eq (hv n d hk) (hE.fits q hq n d hk hqv.symm) (hE.disjoint q hq), ← hqv, allowed_of_mem hE.nodup hq]
  · rw [hget]
    change d.prob (dom d.var) = _
    rw [leaf_prob_eq (hv n d hk) (hdom.fits n d hk) (hdom.disjoint _), allowed_of_not_mem hnk]
    congr 1
    have h0 := hdom.covers n d hk
    rw [measureReal_def, measureReal_def, ← measure_add_measure_compl (VSet.measurableSet_toSet (dom d.var)), h0,
      add_zero]

theorem exists_probValue (hL : Layered g r) (E : SimpleEvent) :
    ∃ p, CircuitValue g (fun d => (leafLaw d).real (allowed E d.var)) p :=
  exists_circuitValue hL.graded.acyclic _

/-- `probability` returns the sum of the circuit values. -/
theorem probability_eq (hL : Layered g r) (hs : Scoped g sc) (hv : ∀ n d, g.kind? n = some (.leaf d) → d.Valid)
    {dom : Var → VSet} (hdom : DomainFor g dom) {Es : Event} (hE : ∀ E ∈ Es, EventFor g (sc r) E)
    {p : SimpleEvent → Node → ℝ} (hp : ∀ E ∈ Es, CircuitValue g (fun d => (leafLaw d).real (allowed E d.var)) (p E))
    (m : Mem ℝ) : (g.probability m dom Es).2 = .ok (Es.map fun E => p E r).sum := by
  simp only [probability, circuitVars_eq hL.wf hL.graded.acyclic hs hL.root]
  suffices H : ∀ acc m, (g.probabilityLoop (Es.map (SimpleEvent.fillMissing dom ((sc r).sort (· ≤ ·)))) acc m).2
      = .ok (acc + (Es.map fun E => p E r).sum) by
    rw [H]; simp
  induction Es with
  | nil => intro acc m; simp [probabilityLoop]
  | cons E Es ih =>
    intro acc m
    simp only [List.map_cons, probabilityLoop, List.sum_cons]
    have h1 := prob_pass hL hs hv hdom (hE E (by simp)) (hp E (by simp)) m
    cases hq : g.probabilityOfSimpleEvent m (E.fillMissing dom ((sc r).sort (· ≤ ·))) with
    | mk m' res =>
      rw [hq] at h1
      simp only at h1
      subst h1
      simp only
      rw [ih (fun E h => hE E (by simp [h])) (fun E h => hp E (by simp [h]))]
      congr 1
      ring

/-! ### Families of disjoint simple events -/

theorem measurableSet_event (E : SimpleEvent) : MeasurableSet E.toSet := by
  have : E.toSet = ⋂ p ∈ E, (fun x : Var → ℝ => x p.1) ⁻¹' p.2.toSet := by
    ext x
    simp [SimpleEvent.toSet, SimpleEvent.Mem, VSet.toSet]
  rw [this]
  exact MeasurableSet.biInter (List.finite_toSet _).countable
    (fun p _ => measurable_pi_apply _ p.2.measurableSet_toSet)

theorem sum_ite_disjoint {Es : Event} (h : DisjointFamily Es) (x : Var → ℝ) (c : ℝ≥0∞) :
    (Es.map fun E => if E.Mem x then c else 0).sum = if ∃ E ∈ Es, E.Mem x then c else 0 := by
  induction Es with
  | nil => simp
  | cons E Es ih =>
    obtain ⟨h1, h2⟩ := List.pairwise_cons.1 h
    rw [List.map_cons, List.sum_cons, ih h2]
    by_cases hE : E.Mem x
    · have : ¬ ∃ F ∈ Es, F.Mem x := by
        rintro ⟨F, hF, hFx⟩; exact h1 F hF x ⟨hE, hFx⟩
      rw [if_pos hE, if_neg this, if_pos ⟨E, by simp, hE⟩, add_zero]
    · rw [if_neg hE, zero_add]
      congr 1
      simp [hE]

/-- One measure-theoretic description for all events at once. -/
theorem family_integral {μ : Var → Measure ℝ} [∀ v, SigmaFinite (μ v)] (hL : Layered g r) (hs : Scoped g sc)
    (hdec : Decomposable g sc) (hv : ∀ n d, g.kind? n = some (.leaf d) → d.Valid)
    {ψ : Leaf → ℝ → ℝ≥0∞} (hψ : ∀ d, Measurable (ψ d))
    (hlaw : ∀ n d, g.kind? n = some (.leaf d) → leafLaw d = (μ d.var).withDensity (ψ d))
    {F : (Var → ℝ) → Node → ℝ≥0∞} (hF : ∀ x, ECircuitValue g (fun d => ψ d (x d.var)) (F x))
    {dom : Var → VSet} (hdom : DomainFor g dom) {Es : Event} (hE : ∀ E ∈ Es, EventFor g (sc r) E)
    (hdis : DisjointFamily Es) (m : Mem ℝ) :
    ∃ p, 0 ≤ p ∧ (g.probability m dom Es).2 = .ok p ∧
      ENNReal.ofReal p = integralOver μ (sc r) (fun x => if ∃ E ∈ Es, E.Mem x then F x r else 0) := by
  have hri := (root_mem hL.root).1
  choose p hp using fun E : SimpleEvent => exists_probValue hL E
  have hnn : ∀ E, 0 ≤ p E r := fun E =>
    circuitValue_nonneg hL.wf hL.graded.acyclic (hp E) (fun n d _ => measureReal_nonneg) r hri
  refine ⟨(Es.map fun E => p E r).sum, ?_, probability_eq hL hs hv hdom hE (fun E _ => hp E) m, ?_⟩
  · apply List.sum_nonneg
    intro y hy
    obtain ⟨E, _, rfl⟩ := List.mem_map.1 hy
    exact hnn E
  · rw [ofReal_list_sum _ _ (fun E _ => hnn E)]
    have hmeas := ecv_measurable hL.wf hL.graded.acyclic hψ hF r hri
    have h1 : (fun x => if ∃ E ∈ Es, E.Mem x then F x r else 0)
        = fun x => (Es.map fun E => if E.Mem x then F x r else 0).sum := by
      funext x; rw [sum_ite_disjoint hdis]
    rw [integralOver, h1, lmarginal_list_sum Es (fun E x => if E.Mem x then F x r else 0)
      (fun E _ => Measurable.ite (measurableSet_event E) hmeas measurable_const)]
    congr 1
    apply List.map_congr_left
    intro E hEm
    rw [box_integral hL.wf hL.graded.acyclic hs hdec hv hψ hlaw hF (measurableSet_allowed E) (hp E) hri, integralOver]
    congr 2
    funext x
    congr 1
    exact propext (mem_event_iff (hE E hEm).keys x)

/-! ### Base measures -/

theorem intCast_measurableEmbedding : MeasurableEmbedding (fun k : ℤ => (k : ℝ)) where
  injective := Int.cast_injective
  measurable := measurable_from_top
  measurableSet_image' := fun {s} _ => (s.to_countable.image _).measurableSet

instance sigmaFinite_intCount : SigmaFinite intCount := intCast_measurableEmbedding.sigmaFinite_map

instance sigmaFinite_baseMeasure (cont : Var → Bool) (v : Var) : SigmaFinite (baseMeasure cont v) := by
  unfold baseMeasure
  split <;> infer_instance

theorem intCount_singleton (k : ℤ) : intCount {(k : ℝ)} = 1 := by
  rw [intCount, intCast_measurableEmbedding.map_apply]
  have : (fun k : ℤ => (k : ℝ)) ⁻¹' {(k : ℝ)} = {k} := by
    ext j; simp
  rw [this, Measure.count_singleton]

theorem discrete_withDensity (probs : List (ℤ × ℝ)) (hp : ∀ kp ∈ probs, 0 ≤ kp.2) :
    (probs.map fun kp => ENNReal.ofReal kp.2 • Measure.dirac (kp.1 : ℝ)).sum
      = intCount.withDensity fun x => ENNReal.ofReal ((probs.filter fun kp => (kp.1 : ℝ) = x).map Prod.snd).sum := by
  induction probs with
  | nil => simp
  | cons kp probs ih =>
    have hp' : ∀ kp ∈ probs, 0 ≤ kp.2 := fun q hq => hp q (by simp [hq])
    have e : (fun x => ENNReal.ofReal (((kp :: probs).filter fun kp => (kp.1 : ℝ) = x).map Prod.snd).sum)
        = (({(kp.1 : ℝ)} : Set ℝ).indicator fun _ => ENNReal.ofReal kp.2)
          + fun x => ENNReal.ofReal ((probs.filter fun kp => (kp.1 : ℝ) = x).map Prod.snd).sum := by
      funext x
      have h0 : 0 ≤ ((probs.filter fun kp => (kp.1 : ℝ) = x).map Prod.snd).sum := by
        apply List.sum_nonneg
        intro y hy
        obtain ⟨q, hq, rfl⟩ := List.mem_map.1 hy
        exact hp' q (List.mem_of_mem_filter hq)
      simp only [Pi.add_apply]
      by_cases hx : (kp.1 : ℝ) = x
      · rw [List.filter_cons_of_pos (by simpa using hx), Set.indicator_of_mem (by simp [hx]), List.map_cons, List.sum_cons,
          ENNReal.ofReal_add (hp kp (by simp)) h0]
      · rw [List.filter_cons_of_neg (by simpa using hx), Set.indicator_of_notMem (by simpa using fun h => hx h.symm),
          zero_add]
    rw [List.map_cons, List.sum_cons, ih hp', e, withDensity_add_left
      (measurable_const.indicator (measurableSet_singleton _)), withDensity_indicator (measurableSet_singleton _),
      withDensity_const, Measure.restrict_singleton, intCount_singleton, one_smul]

/-- Non-Dirac leaves have their textbook density with respect to the base measure of their variable. -/
theorem leafLaw_base {cont : Var → Bool} {d : Leaf} (hv : d.Valid) (hb : HasBase cont d) :
    leafLaw d = (baseMeasure cont d.var).withDensity fun x => ENNReal.ofReal (leafDensity d x) := by
  cases d with
  | dirac v loc cap => exact absurd hb id
  | symbolic v probs | integer v probs =>
    have : cont v = false := hb
    simp only [leafLaw, baseMeasure, Leaf.var, this]
    exact discrete_withDensity probs hv.1
  | uniform v lo hi l r | gaussian v μ σ | truncGaussian v I μ σ =>
    have : cont v = true := hb
    simp only [leafLaw, baseMeasure, Leaf.var, this, if_true]

end PM
