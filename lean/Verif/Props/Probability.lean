import Verif.Circuit.ProbLemmas
import Verif.Props.Queries

/-!
# C04, C05, C06: probabilities

An event is a family of simple events (`Event`); `DisjointFamily` says that they do not overlap, which is how
`random_events` keeps events.
-/

namespace PM.Props

open Spec Graph MeasureTheory Classical
open scoped ENNReal

variable {g : Circuit} {r : Node} {sc : Node → Finset Var}

/-! ### C04 -/

/-- **C04.** For every layered smooth decomposable circuit whose leaves have densities and every event about its
variables, `probability` returns the integral of the likelihood over the event (Lebesgue measure for continuous, counting
measure for discrete variables).  `lik` is what the API function `likelihood` returns at each point. -/
theorem C04_probability_is_integral (hL : Layered g r) (hs : Scoped g sc) (hdec : Decomposable g sc)
    (hv : ∀ n d, g.kind? n = some (.leaf d) → d.Valid) {cont : Var → Bool}
    (hb : ∀ n d, g.kind? n = some (.leaf d) → HasBase cont d)
    {dom : Var → VSet} (hdom : DomainFor g dom) {Es : Event} (hE : ∀ E ∈ Es, EventFor g (sc r) E)
    (hdis : DisjointFamily Es) {lik : (Var → ℝ) → ℝ} (hlik : ∀ x, g.likelihood freshMem x = .ok (lik x)) (m : Mem ℝ) :
    ∃ p, 0 ≤ p ∧ (g.probability m dom Es).2 = .ok p ∧
      ENNReal.ofReal p = integralOver (baseMeasure cont) (sc r)
        (fun x => if ∃ E ∈ Es, E.Mem x then ENNReal.ofReal (lik x) else 0) := by
  choose f hf using fun x : Var → ℝ => exists_circuitValue hL.graded.acyclic (fun d : Leaf => leafDensity d (x d.var))
  have hF : ∀ x, ECircuitValue g (fun d => ENNReal.ofReal (leafDensity d (x d.var))) (fun n => ENNReal.ofReal (f x n)) :=
    fun x => ecv_ofReal hL.wf hL.graded.acyclic (hf x) (fun n d hk => leafDensity_nonneg (hv n d hk) _)
  have hl : ∀ x, lik x = f x r := by
    intro x
    obtain ⟨L, _, _, _, h4⟩ := C01_loglikelihood hL hs hv x (hf x) freshMem
    rw [hlik x] at h4
    injection h4
  simp only [hl]
  exact family_integral hL hs hdec hv (ψ := fun d t => ENNReal.ofReal (leafDensity d t))
    (fun d => (measurable_leafDensity d).ennreal_ofReal) (fun n d hk => leafLaw_base (hv n d hk) (hb n d hk)) hF hdom hE
    hdis m

/-! ### C06 -/

theorem exists_family_description (hL : Layered g r) (hs : Scoped g sc) (hdec : Decomposable g sc)
    (hv : ∀ n d, g.kind? n = some (.leaf d) → d.Valid) {dom : Var → VSet} (hdom : DomainFor g dom) :
    ∃ (μ : Var → Measure ℝ) (F : (Var → ℝ) → ℝ≥0∞), ∀ Es : Event, (∀ E ∈ Es, EventFor g (sc r) E) → DisjointFamily Es →
      ∀ m, ∃ p, 0 ≤ p ∧ (g.probability m dom Es).2 = .ok p ∧
        ENNReal.ofReal p = integralOver μ (sc r) (fun x => if ∃ E ∈ Es, E.Mem x then F x else 0) := by
  obtain ⟨μ, ψ, hfin, hψ, hlaw⟩ := exists_base g hv hL.wf
  choose F hF using fun x : Var → ℝ => exists_ecv hL.graded.acyclic (fun d : Leaf => ψ d (x d.var))
  exact ⟨μ, fun x => F x r, fun Es hE hdis m => family_integral hL hs hdec hv hψ hlaw hF hdom hE hdis m⟩

/-- **C06.** Two disjoint families of simple events that describe the same set of points have the same probability
(for all leaf types, including Dirac). -/
theorem C06_decomposition_independent (hL : Layered g r) (hs : Scoped g sc) (hdec : Decomposable g sc)
    (hv : ∀ n d, g.kind? n = some (.leaf d) → d.Valid) {dom : Var → VSet} (hdom : DomainFor g dom)
    {Es Fs : Event} (hE : ∀ E ∈ Es, EventFor g (sc r) E) (hF : ∀ E ∈ Fs, EventFor g (sc r) E)
    (hdE : DisjointFamily Es) (hdF : DisjointFamily Fs)
    (hsame : ∀ x, (∃ E ∈ Es, E.Mem x) ↔ ∃ F ∈ Fs, F.Mem x) (m m' : Mem ℝ) :
    ∃ p, (g.probability m dom Es).2 = .ok p ∧ (g.probability m' dom Fs).2 = .ok p := by
  obtain ⟨μ, D, hD⟩ := exists_family_description hL hs hdec hv hdom
  obtain ⟨p, hp0, hp, hpi⟩ := hD Es hE hdE m
  obtain ⟨q, hq0, hq, hqi⟩ := hD Fs hF hdF m'
  refine ⟨p, hp, ?_⟩
  have : p = q := by
    have h : ENNReal.ofReal p = ENNReal.ofReal q := by
      rw [hpi, hqi]
      congr 1
      funext x
      simp only [hsame x]
    rw [← ENNReal.toReal_ofReal hp0, h, ENNReal.toReal_ofReal hq0]
  rw [this]
  exact hq

/-- **C06.** The probability of a family is the sum of the probabilities of its simple events (no disjointness or
decomposability needed). -/
theorem C06_sum_over_parts (hL : Layered g r) (hs : Scoped g sc)
    (hv : ∀ n d, g.kind? n = some (.leaf d) → d.Valid) {dom : Var → VSet} (hdom : DomainFor g dom)
    {Es : Event} (hE : ∀ E ∈ Es, EventFor g (sc r) E) (m : Mem ℝ) :
    ∃ p : SimpleEvent → ℝ, (∀ E ∈ Es, ∀ m', (g.probability m' dom [E]).2 = .ok (p E)) ∧
      (g.probability m dom Es).2 = .ok (Es.map p).sum := by
  choose p hp using fun E : SimpleEvent => exists_probValue hL E
  refine ⟨fun E => p E r, fun E hEm m' => ?_, probability_eq hL hs hv hdom hE (fun E _ => hp E) m⟩
  have := probability_eq hL hs hv hdom (Es := [E]) (by simpa using hE E hEm) (fun E _ => hp E) m'
  simpa using this

/-! ### C05 -/

/-- **C05.** Larger events are at least as probable. -/
theorem C05_monotone (hL : Layered g r) (hs : Scoped g sc) (hdec : Decomposable g sc)
    (hv : ∀ n d, g.kind? n = some (.leaf d) → d.Valid) {dom : Var → VSet} (hdom : DomainFor g dom)
    {Es Fs : Event} (hE : ∀ E ∈ Es, EventFor g (sc r) E) (hF : ∀ E ∈ Fs, EventFor g (sc r) E)
    (hdE : DisjointFamily Es) (hdF : DisjointFamily Fs)
    (hsub : ∀ x, (∃ E ∈ Es, E.Mem x) → ∃ F ∈ Fs, F.Mem x) (m m' : Mem ℝ) :
    ∃ p q, (g.probability m dom Es).2 = .ok p ∧ (g.probability m' dom Fs).2 = .ok q ∧ p ≤ q := by
  obtain ⟨μ, D, hD⟩ := exists_family_description hL hs hdec hv hdom
  obtain ⟨p, hp0, hp, hpi⟩ := hD Es hE hdE m
  obtain ⟨q, hq0, hq, hqi⟩ := hD Fs hF hdF m'
  refine ⟨p, q, hp, hq, ?_⟩
  have h : ENNReal.ofReal p ≤ ENNReal.ofReal q := by
    rw [hpi, hqi]
    apply lmarginal_mono
    intro x
    by_cases hx : ∃ E ∈ Es, E.Mem x
    · simp [hx, hsub x hx]
    · simp [hx]
  exact (ENNReal.ofReal_le_ofReal_iff hq0).1 h

/-- **C05.** The impossible event has probability 0, however it is written. -/
theorem C05_impossible (hL : Layered g r) (hs : Scoped g sc) (hdec : Decomposable g sc)
    (hv : ∀ n d, g.kind? n = some (.leaf d) → d.Valid) {dom : Var → VSet} (hdom : DomainFor g dom)
    {Es : Event} (hE : ∀ E ∈ Es, EventFor g (sc r) E) (himp : ∀ x, ¬ ∃ E ∈ Es, E.Mem x) (m : Mem ℝ) :
    (g.probability m dom Es).2 = .ok 0 := by
  have hdE : DisjointFamily Es := by
    refine List.Pairwise.imp_of_mem (R := fun _ _ => True) ?_ (List.pairwise_of_forall (fun _ _ => trivial))
    intro E F hEm _ _ x hx
    exact himp x ⟨E, hEm, hx.1⟩
  obtain ⟨p, h1, h2⟩ := C06_decomposition_independent hL hs hdec hv hdom hE (Fs := []) (by simp) hdE List.Pairwise.nil
    (fun x => by simp [himp x]) m m
  have h3 := probability_eq hL hs hv hdom (Es := []) (by simp) (p := fun _ _ => 0) (by simp) m
  rw [h2] at h3
  injection h3 with h3
  simp only [List.map_nil, List.sum_nil] at h3
  rw [h1, h3]

theorem one_circuitValue (hn : NormalizedSums g) {ℓ : Leaf → ℝ} (hℓ : ∀ n d, g.kind? n = some (.leaf d) → ℓ d = 1) :
    CircuitValue g ℓ (fun _ => 1) := by
  refine ⟨fun n d hk => (hℓ n d hk).symm, fun n hk => ?_, fun n hk => ?_⟩
  · simp only [mul_one]; exact (hn n hk).symm
  · simp

/-- The universal event of the circuit is an event about its variables. -/
theorem universal_eventFor (hL : Layered g r) (hs : Scoped g sc) {dom : Var → VSet} (hdom : DomainFor g dom) :
    ∃ U, g.universalSimpleEvent dom = .ok U ∧ EventFor g (sc r) U ∧ (∀ p ∈ U, p.2 = dom p.1) ∧
      U.keys = (sc r).sort (· ≤ ·) := by
  refine ⟨((sc r).sort (· ≤ ·)).map fun v => (v, dom v), ?_, ⟨?_, ?_, ?_, ?_⟩, ?_, ?_⟩
  · simp [universalSimpleEvent, circuitVars_eq hL.wf hL.graded.acyclic hs hL.root]
  · simp [SimpleEvent.keys, Function.comp_def]
  · intro v hv; simpa [SimpleEvent.keys] using hv
  · intro p hp
    obtain ⟨v, _, rfl⟩ := List.mem_map.1 hp
    exact hdom.disjoint v
  · intro p hp n d hk hd
    obtain ⟨v, _, rfl⟩ := List.mem_map.1 hp
    simp only at hd ⊢
    rw [← hd]
    exact hdom.fits n d hk
  · intro p hp
    obtain ⟨v, _, rfl⟩ := List.mem_map.1 hp
    rfl
  · simp [SimpleEvent.keys, Function.comp_def]

/-- **C05.** The universal event of a normalized circuit has probability 1. -/
theorem C05_universal (hL : Layered g r) (hs : Scoped g sc)
    (hv : ∀ n d, g.kind? n = some (.leaf d) → d.Valid) (hln : ∀ n d, g.kind? n = some (.leaf d) → d.Normalized)
    (hsn : NormalizedSums g) {dom : Var → VSet} (hdom : DomainFor g dom) (m : Mem ℝ) :
    ∃ U, g.universalSimpleEvent dom = .ok U ∧ (g.probability m dom [U]).2 = .ok 1 := by
  obtain ⟨U, hU, hUE, hUd, hUk⟩ := universal_eventFor hL hs hdom
  refine ⟨U, hU, ?_⟩
  have h1 : CircuitValue g (fun d => (leafLaw d).real (allowed U d.var)) (fun _ => 1) := by
    apply one_circuitValue hsn
    intro n d hk
    have hreach := reachable_of_root hL.wf hL.graded.acyclic hL.root n (mem_ids_of_kind? hk)
    have hd : d.var ∈ sc r := scope_mono hL.wf hL.leaves hs (root_mem hL.root).1 hreach (by simp [hs.leaf n d hk])
    have hmem : d.var ∈ U.keys := by rw [hUk]; simpa using hd
    obtain ⟨p, hp, hpv⟩ := List.mem_map.1 hmem
    rw [← hpv, allowed_of_mem hUE.nodup hp, hUd p hp, hpv]
    have h0 := hdom.covers n d hk
    have h2 := leafLaw_univ (hv n d hk) (hln n d hk)
    rw [← measure_add_measure_compl (VSet.measurableSet_toSet (dom d.var)), h0, add_zero] at h2
    simp [measureReal_def, h2]
  have := probability_eq hL hs hv hdom (Es := [U]) (by simpa using hUE) (p := fun _ _ => 1) (by simpa using h1) m
  simpa using this

/-- **C05.** Probabilities of events of a normalized circuit lie in `[0,1]`. -/
theorem C05_bounds (hL : Layered g r) (hs : Scoped g sc) (hdec : Decomposable g sc)
    (hv : ∀ n d, g.kind? n = some (.leaf d) → d.Valid) (hln : ∀ n d, g.kind? n = some (.leaf d) → d.Normalized)
    (hsn : NormalizedSums g) {dom : Var → VSet} (hdom : DomainFor g dom)
    {Es : Event} (hE : ∀ E ∈ Es, EventFor g (sc r) E) (hdE : DisjointFamily Es) (m : Mem ℝ) :
    ∃ p, (g.probability m dom Es).2 = .ok p ∧ 0 ≤ p ∧ p ≤ 1 := by
  have h0E : EventFor g (sc r) ([] : SimpleEvent) := ⟨by simp [SimpleEvent.keys], by simp [SimpleEvent.keys], by simp,
    by simp⟩
  obtain ⟨p, q, hp, hq, hpq⟩ := C05_monotone hL hs hdec hv hdom hE (Fs := [[]]) (by simpa using h0E) hdE
    (List.pairwise_singleton _ _) (fun x _ => ⟨[], by simp, by simp [SimpleEvent.Mem]⟩) m m
  obtain ⟨z, p', hz, hp', hzp⟩ := C05_monotone hL hs hdec hv hdom (Es := []) (by simp) hE List.Pairwise.nil hdE
    (by simp) m m
  have h1 : CircuitValue g (fun d => (leafLaw d).real (allowed [] d.var)) (fun _ => 1) := by
    apply one_circuitValue hsn
    intro n d hk
    rw [allowed_of_not_mem (by simp [SimpleEvent.keys]), measureReal_def, leafLaw_univ (hv n d hk) (hln n d hk)]
    simp
  have hq1 := probability_eq hL hs hv hdom (Es := [[]]) (by simpa using h0E) (p := fun _ _ => 1) (by simpa using h1) m
  have hz0 := probability_eq hL hs hv hdom (Es := []) (by simp) (p := fun _ _ => 0) (by simp) m
  rw [hq] at hq1
  rw [hz] at hz0
  rw [hp] at hp'
  injection hq1 with hq1
  injection hz0 with hz0
  injection hp' with hp'
  simp only [List.map_cons, List.map_nil, List.sum_cons, List.sum_nil, add_zero] at hq1 hz0
  exact ⟨p, hp, by rw [hp', ← hz0]; exact hzp, by rw [← hq1]; exact hpq⟩

/-! ### Non-vacuity -/

/-- Domains for `Ex.dag`: the real line. -/
noncomputable def realLine : VSet := .interval [⟨⊥, ⊤, .opn, .opn⟩]

theorem realLine_toSet : realLine.toSet = Set.univ := by
  ext x
  simp [realLine, VSet.toSet, VSet.Mem, SimpleInterval.Mem, SimpleInterval.leftOK, SimpleInterval.rightOK,
    EReal.bot_lt_coe, EReal.coe_lt_top]

theorem realLine_disjoint : realLine.Disjoint := by
  simp [realLine, VSet.Disjoint, SimpleInterval.IsEmpty]

theorem dag_domain : DomainFor Ex.dag (fun _ => realLine) := by
  refine ⟨fun _ => realLine_disjoint, fun n d h => ?_, fun n d h => ?_⟩
  · have := Ex.forall_kind (g := Ex.dag) (P := fun n k => ∀ d, k = .leaf d → Fits d realLine)
      (by simp [Ex.dag, Fits, realLine]) n _ h
    exact this d rfl
  · simp [realLine_toSet]

theorem dag_base : ∀ n d, Ex.dag.kind? n = some (.leaf d) → HasBase (fun _ => true) d := fun n d h => by
  have := Ex.forall_kind (g := Ex.dag) (P := fun n k => ∀ d, k = .leaf d → HasBase (fun _ => true) d)
    (by simp [Ex.dag, HasBase]) n _ h
  exact this d rfl

theorem dag_normalized : NormalizedSums Ex.dag ∧ ∀ n d, Ex.dag.kind? n = some (.leaf d) → d.Normalized := by
  constructor
  · intro n h
    have := Ex.forall_kind (g := Ex.dag) (P := fun n k => k = .sum → ((Ex.dag.outEdges n).map linWeight).sum = 1)
      (by
        simp [Ex.dag, outEdges, linWeight]
        rw [Real.exp_neg, Real.exp_log (by norm_num), Real.exp_log (by norm_num)]
        norm_num) n _ h
    exact this rfl
  · intro n d h
    have := Ex.forall_kind (g := Ex.dag) (P := fun n k => ∀ d, k = .leaf d → d.Normalized)
      (by simp [Ex.dag, Leaf.Normalized]) n _ h
    exact this d rfl

/-- `x₀ ∈ [0, 1/2)` as a simple event. -/
noncomputable def dagEvent : SimpleEvent := [(0, .interval [⟨((0 : ℝ) : EReal), ((1 / 2 : ℝ) : EReal), .closed, .opn⟩])]

theorem dagEvent_for : EventFor Ex.dag (Ex.dagScope 0) dagEvent := by
  refine ⟨by simp [dagEvent, SimpleEvent.keys], by simp [dagEvent, SimpleEvent.keys, Ex.dagScope], ?_, ?_⟩
  · intro p hp
    simp only [dagEvent, List.mem_singleton] at hp
    subst hp
    have h : ((0 : ℝ) : EReal) < ((1 / 2 : ℝ) : EReal) := by exact_mod_cast (by norm_num : (0 : ℝ) < 1 / 2)
    refine ⟨by simp, ?_⟩
    intro i hi
    simp only [List.mem_singleton] at hi
    subst hi
    rintro (h' | ⟨h', _⟩)
    · exact absurd h' (not_lt.2 h.le)
    · exact absurd h' h.ne
  · intro p hp n d hk _
    simp only [dagEvent, List.mem_singleton] at hp
    subst hp
    have := Ex.forall_kind (g := Ex.dag)
      (P := fun n k => ∀ d, k = .leaf d → Fits d (.interval [⟨((0 : ℝ) : EReal), ((1 / 2 : ℝ) : EReal), .closed, .opn⟩]))
      (by simp [Ex.dag, Fits]) n _ hk
    exact this d rfl

/-- The hypotheses of C04–C06 are met by `Ex.dag` and the event `x₀ ∈ [0, 1/2)`. -/
example : ∃ p, 0 ≤ p ∧ (Ex.dag.probability freshMem (fun _ => realLine) [dagEvent]).2 = .ok p ∧ p ≤ 1 := by
  obtain ⟨p, h1, h2, h3⟩ := C05_bounds Ex.dag_layered Ex.dag_scoped Ex.dag_decomposable Ex.dag_valid dag_normalized.2
    dag_normalized.1 dag_domain (Es := [dagEvent]) (by simpa using dagEvent_for) (List.pairwise_singleton _ _) freshMem
  exact ⟨p, h2, h1, h3⟩

end PM.Props
