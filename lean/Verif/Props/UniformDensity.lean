import Verif.Props.UniformUnion
import Verif.Props.ConditionalDensity

/-!
# C50: the likelihoods of uniform measures of events
-/

namespace PM.Props

open Spec Graph MeasureTheory Classical
open scoped ENNReal

variable {ty : Var → VarType} {s : Finset Var} {B E : SimpleEvent} {dom : Var → VSet}

/-- A box is cut cleanly by itself. -/
theorem cutsCleanly_self (h : BoundedBox ty s E) : CutsCleanly ty E E := by
  intro p hp q hq hpq _ I J hI hJ
  rw [entry_unique h.nodup hp hq hpq, hJ] at hI
  rw [VSet.interval.inj hI]
  exact Or.inr fun i hi => Or.inl hi

theorem eventVolume_pos (hB : BoundedBox ty s B) (heq : EqualLengths ty B) (hdom : TypedDomain ty dom B) {Es : Event} (hne : Es ≠ [])
    (hE : ∀ E ∈ Es, BoundedBox ty s E) (hsub : ∀ E ∈ Es, ∀ x, E.Mem x → B.Mem x) (hfit : ∀ E ∈ Es, CutsCleanly ty B E) :
    0 < eventVolume ty s Es ∧ eventVolume ty s Es < ⊤ := by
  obtain ⟨E₀, hE₀⟩ := List.exists_mem_of_ne_nil _ hne
  constructor
  · have hd₀ : TypedDomain ty dom E₀ := by
      refine ⟨hdom.numeric, hdom.symbolic, fun q hq hsy x hx => ?_⟩
      have hqs : q.1 ∈ s := ((hE E₀ hE₀).keys _).1 (List.mem_map.2 ⟨q, hq, rfl⟩)
      obtain ⟨p, hp, hpq⟩ := List.mem_map.1 ((hB.keys _).2 hqs)
      rw [← hpq]
      exact hdom.covers p hp (hpq ▸ hsy) x (box_subset (hE E₀ hE₀) (hsub E₀ hE₀) hp hq hpq hx)
    exact (C50_share_of_volume_partial (hE E₀ hE₀) (equalLengths_of_cut hB heq (hE E₀ hE₀) (hsub E₀ hE₀) (hfit E₀ hE₀)) hd₀
      (box := fun _ => E₀) rfl).1.trans_le (eventVolume_mono fun x ⟨E, hEm, hx⟩ => ⟨E₀, hE₀, by rw [List.mem_singleton.1 hEm] at hx; exact hx⟩)
  · exact (eventVolume_mono fun x ⟨E, hEm, hx⟩ => ⟨B, by simp, hsub E hEm x hx⟩).trans_lt
      (C50_share_of_volume_partial hB heq hdom (box := fun _ => B) rfl).2.1

/-- What conditioning the circuit of the bounding box does to the likelihoods. -/
theorem uniformOfEvent_values {Es : Event} {box : Event → SimpleEvent} (hB : BoundedBox ty s (box Es)) (hdom : TypedDomain ty dom (box Es))
    (hE : ∀ E ∈ Es, BoundedBox ty s E) (hdis : DisjointFamily Es) (hsub : ∀ E ∈ Es, ∀ x, E.Mem x → (box Es).Mem x)
    (hfit : ∀ E ∈ Es, CutsCleanly ty (box Es) E) {g : Circuit} (hgo : uniformOfSimple ty (box Es) = .ok g) {pE : ℝ}
    (hpE : (g.probability freshMem dom Es).2 = .ok pE) (hpos : 0 < pE) :
    ∃ g', uniformOfEvent ty dom box Es = .ok (some g') ∧
      ∀ x m, ∃ p, g.likelihood freshMem x = .ok p ∧ g'.likelihood m x = .ok (if ∃ E ∈ Es, E.Mem x then p / pE else 0) := by
  generalize hbox : box Es = B at hB hdom hsub hfit hgo
  obtain ⟨g₂, hgo₂, h1, h2, h3, hleafy⟩ := uniformOfSimple_full hB
  rw [hgo] at hgo₂
  injection hgo₂ with hgo₂
  subst hgo₂
  have hg : BoxCircuit ty s B g := ⟨h1, h2, h3⟩
  have hEt : ∀ E ∈ Es, TypedEvent ty s E := fun E hEm => typed_of_box (hE E hEm)
  obtain ⟨sc, hs, hdec, hr⟩ := h1.scope
  have hL := h1.layered
  choose P T hP hT _ using fun E => C88_defined hL E
  have hp := hg.proper hB hdom
  have hcut : ∀ E ∈ Es, ∀ q ∈ E, ∀ n d, g.kind? n = some (.leaf d) → d.var = q.1 → ProperOn d q.2 ∧ OneIntervalOn d q.2 := by
    intro E hEm q hq n d hk hdq
    obtain ⟨p, hp, hd⟩ := h3 n d hk
    rw [(bounded_valid (hB.sets p hp) hd).2.2] at hdq
    exact partLeaf_cut hB (hE E hEm) (hsub E hEm) (hfit E hEm) hp hq hdq hd
  have hU : UnionFor g (sc 0) dom Es := ⟨fun E hEm => by rw [hr]; exact hg.eventFor hB (hEt E hEm),
    fun E hEm => ⟨fun q hq n d hk hdq => (hcut E hEm q hq n d hk hdq).1, hp.1.domain⟩,
    fun E hEm => ⟨fun q hq n d hk hdq => (hcut E hEm q hq n d hk hdq).2, hp.2.domain⟩⟩
  obtain ⟨g', y, h4, h5⟩ := C97_bayes hL hs hdec h1.valid h2.pos h2.tree (hg.domainFor hB hdom) hU hdis
    (fun E _ => hP E) (fun E _ => hT E) (fun E hEm => box_proportional hB hg hleafy (hE E hEm) (hfit E hEm) (hP E) (hT E)) hpE hpos
  refine ⟨g', ?_, fun x m => ?_⟩
  · unfold uniformOfEvent
    rw [hbox, hgo]
    simp only [bind, Except.bind]
    rw [h4]
  · exact h5 x (fun E hEm v hv hk => absurd (((hE E hEm).keys v).2 (hr ▸ hv)) hk) m freshMem

/-- **C50, likelihoods**, as far as it holds: for one or more disjoint boxes inside their bounding box, in which the intervals of every
continuous variable have the same length and are cut cleanly by every one of the boxes, the likelihood of every point of the event is one
divided by the volume of the event, and the likelihood of every other point is zero, on the borders of the boxes as well. -/
theorem C50_union_density_partial {Es : Event} {box : Event → SimpleEvent} (hB : BoundedBox ty s (box Es)) (heq : EqualLengths ty (box Es))
    (hdom : TypedDomain ty dom (box Es)) (hne : Es ≠ []) (hE : ∀ E ∈ Es, BoundedBox ty s E) (hdis : DisjointFamily Es)
    (hsub : ∀ E ∈ Es, ∀ x, E.Mem x → (box Es).Mem x) (hfit : ∀ E ∈ Es, CutsCleanly ty (box Es) E) :
    0 < eventVolume ty s Es ∧ eventVolume ty s Es < ⊤ ∧
    ∃ g, uniformOfEvent ty dom box Es = .ok (some g) ∧
      ∀ x m, g.likelihood m x = .ok (if ∃ E ∈ Es, E.Mem x then 1 / (eventVolume ty s Es).toReal else 0) := by
  obtain ⟨g, hgo, h1, h2, h3, _⟩ := uniformOfSimple_full hB
  obtain ⟨g₂, c, hgo₂, hc, hlik⟩ := C50_constant_density_partial hB heq
  rw [hgo] at hgo₂
  injection hgo₂ with hgo₂
  subst hgo₂
  have hEt : ∀ E ∈ Es, TypedEvent ty s E := fun E hEm => typed_of_box (hE E hEm)
  obtain ⟨hpos, hfin⟩ := eventVolume_pos hB heq hdom hne hE hsub hfit
  obtain ⟨pE, hpE0, hpE, hpEi⟩ := box_integral hB hdom ⟨h1, h2, h3⟩ hlik Es hEt hdis freshMem
  rw [show eventVolume ty s (Event.inter [box Es] Es) = eventVolume ty s Es from eventVolume_congr fun x => by
    rw [mem_inter_event (typed_of_box hB) hEt]
    exact ⟨fun h => h.2, fun ⟨G, hGm, hx⟩ => ⟨hsub G hGm x hx, G, hGm, hx⟩⟩] at hpEi
  have hpE1 : 0 < pE := by
    rw [← ENNReal.ofReal_pos, hpEi]
    exact ENNReal.mul_pos (by simpa using hc) hpos.ne'
  obtain ⟨g', h4, h5⟩ := uniformOfEvent_values hB hdom hE hdis hsub hfit hgo hpE hpE1
  refine ⟨hpos, hfin, g', h4, fun x m => ?_⟩
  obtain ⟨p, h6, h7⟩ := h5 x m
  rw [h7]
  congr 1
  by_cases hx : ∃ E ∈ Es, E.Mem x
  · rw [if_pos hx, if_pos hx]
    obtain ⟨E, hEm, hxE⟩ := hx
    rw [hlik, if_pos (hsub E hEm x hxE)] at h6
    injection h6 with h6
    have := congrArg ENNReal.toReal hpEi
    rw [ENNReal.toReal_mul, ENNReal.toReal_ofReal hpE0, ENNReal.toReal_ofReal hc.le] at this
    have hV := ENNReal.toReal_pos hpos.ne' hfin.ne
    rw [← h6, this]
    field_simp
  · rw [if_neg hx, if_neg hx]

/-- For a single simple event, whatever the lengths of its intervals, conditioning changes nothing inside of it. -/
theorem uniformOfEvent_single_values (h : BoundedBox ty s E) (hdom : TypedDomain ty dom E) {box : Event → SimpleEvent} (hbox : box [E] = E) :
    ∃ g g', uniformOfSimple ty E = .ok g ∧ uniformOfEvent ty dom box [E] = .ok (some g') ∧
      ∀ x m, ∃ p, g.likelihood freshMem x = .ok p ∧ g'.likelihood m x = .ok (if E.Mem x then p else 0) := by
  obtain ⟨g, _, hgo, _, _, h1, _⟩ := uniformOfEvent_single h hdom hbox
  obtain ⟨g', h2, h3⟩ := uniformOfEvent_values (Es := [E]) (box := box) (by rwa [hbox]) (by rwa [hbox])
    (by simpa using h) (List.pairwise_singleton _ _) (by simp [hbox]) (by simpa [hbox] using cutsCleanly_self h) (by rwa [hbox]) (h1 _) one_pos
  refine ⟨g, g', hgo, h2, fun x m => ?_⟩
  obtain ⟨p, h4, h5⟩ := h3 x m
  refine ⟨p, h4, ?_⟩
  rw [h5, div_one]
  congr 1
  by_cases hx : E.Mem x <;> simp [hx]

/-- `C50_union_density_partial` applies to the L-shaped event `[0,1] × [0,2] ∪ (1,2] × [0,1]` with the bounding box `[0,2] × [0,2]`. -/
example : ∃ g, uniformOfEvent allContinuous (fun _ => realLine) (fun _ => rectangle .closed 0 2 0 2)
      [rectangle .closed 0 1 0 2, rectangle .opn 1 2 0 1] = .ok (some g) ∧
    ∃ c > 0, ∀ x m, g.likelihood m x = .ok (if ∃ E ∈ [rectangle .closed 0 1 0 2, rectangle .opn 1 2 0 1], E.Mem x then c else 0) := by
  refine (fun ⟨h1, h2, g, h3, h4⟩ => ⟨g, h3, _, one_div_pos.2 (ENNReal.toReal_pos h1.ne' h2.ne), h4⟩) (C50_union_density_partial (Es := [rectangle .closed 0 1 0 2, rectangle .opn 1 2 0 1])
    (box := fun _ => rectangle .closed 0 2 0 2)
    (rectangle_bounded (by norm_num) (by norm_num)) rectangle_equal (line_domain _) (by simp) ?_ ?_ ?_ ?_)
  · simp only [List.mem_cons, List.not_mem_nil, or_false, forall_eq_or_imp, forall_eq]
    exact ⟨rectangle_bounded (by norm_num) (by norm_num), rectangle_bounded (by norm_num) (by norm_num)⟩
  · simp only [DisjointFamily, List.pairwise_cons, List.mem_singleton, forall_eq, List.not_mem_nil, false_imp_iff,
      implies_true, List.Pairwise.nil, and_self, and_true]
    rintro x ⟨ha, hb⟩
    rw [rectangle_mem] at ha hb
    simp only at ha hb
    linarith [ha.2.1, hb.1]
  · simp only [List.mem_cons, List.not_mem_nil, or_false, forall_eq_or_imp, forall_eq, rectangle_mem]
    refine ⟨fun x hx => ⟨hx.1, ?_, hx.2.2⟩, fun x hx => ⟨?_, hx.2.1, hx.2.2.1, ?_⟩⟩
    · linarith [hx.2.1]
    · linarith [hx.1]
    · linarith [hx.2.2.2]
  · simp only [List.mem_cons, List.not_mem_nil, or_false, forall_eq_or_imp, forall_eq]
    exact ⟨rectangle_cuts, rectangle_cuts⟩

end PM.Props
