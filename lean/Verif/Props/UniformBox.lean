import Verif.Circuit.UniformLemmas
import Verif.Props.Conditional

/-!
# The circuit of a box

Helper lemmas for C50.
-/

namespace PM.Props

open Spec Graph MeasureTheory Classical
open scoped ENNReal

variable {ty : Var → VarType} {s : Finset Var} {E : SimpleEvent} {dom : Var → VSet}

theorem typed_of_box (h : BoundedBox ty s E) : TypedEvent ty s E := by
  refine ⟨h.nodup, fun v hv => (h.keys v).1 hv, fun p hp => ?_, fun p hp => ?_⟩
  · have := h.sets p hp
    obtain ⟨v, A⟩ := p
    simp only at this ⊢
    cases ht : ty v <;> cases A <;> simp only [ht] at this <;> try exact absurd this id
    · exact this.2.1
    · exact this.2
    · exact this.2.1
  · have := h.sets p hp
    obtain ⟨v, A⟩ := p
    simp only at this ⊢
    cases ht : ty v <;> cases A <;> simp only [ht] at this <;> first | exact absurd this id | trivial

theorem sameType_of_fits {t : VarType} {A B : VSet} (hA : FitsType t A) (hB : FitsType t B) : VSet.SameType A B := by
  cases t <;> cases A <;> cases B <;> trivial

theorem compatible_of_typed {F : SimpleEvent} (hE : TypedEvent ty s E) (hF : TypedEvent ty s F) : E.Compatible F :=
  fun a ha b hb hab => sameType_of_fits (hE.fits a ha) (hab ▸ hF.fits b hb)

theorem fitsType_inter {t : VarType} {A B : VSet} (hA : FitsType t A) (hB : FitsType t B) : FitsType t (A.inter B) := by
  cases t <;> cases A <;> cases B <;> trivial

theorem typed_inter {F : SimpleEvent} (hE : TypedEvent ty s E) (hF : TypedEvent ty s F) : TypedEvent ty s (E.inter F) := by
  have hm := fun p => SimpleEvent.mem_inter_iff (E := E) hF.nodup (p := p)
  refine ⟨?_, ?_, ?_, ?_⟩
  · rw [SimpleEvent.keys_inter, List.nodup_append]
    refine ⟨hE.nodup, hF.nodup.filter _, ?_⟩
    intro a ha b hb hab
    subst hab
    have := (List.mem_filter.1 hb).2
    simp [ha] at this
  · intro v hv
    rw [SimpleEvent.keys_inter, List.mem_append] at hv
    rcases hv with hv | hv
    · exact hE.keys v hv
    · exact hF.keys v (List.mem_filter.1 hv).1
  · intro p hp
    rcases (hm p).1 hp with ⟨a, ha, b, hb, hab, rfl⟩ | ⟨h, _⟩ | ⟨h, _⟩
    · exact VSet.Disjoint.inter (hE.disjoint a ha) (hF.disjoint b hb) (compatible_of_typed hE hF a ha b hb hab)
    · exact hE.disjoint p h
    · exact hF.disjoint p h
  · intro p hp
    rcases (hm p).1 hp with ⟨a, ha, b, hb, hab, rfl⟩ | ⟨h, _⟩ | ⟨h, _⟩
    · exact fitsType_inter (hE.fits a ha) (hab ▸ hF.fits b hb)
    · exact hE.fits p h
    · exact hF.fits p h

/-- What is known about the circuit `g` of the box `E`. -/
structure BoxCircuit (ty : Var → VarType) (s : Finset Var) (E : SimpleEvent) (g : Circuit) : Prop where
  denotes : Denotes g 0 s (fun ℓ => (E.map fun p => partValue ty p ℓ).prod)
  neat : Neat g
  leaves : ∀ n d, g.kind? n = some (.leaf d) → ∃ p ∈ E, PartLeaf ty p d

theorem BoxCircuit.eventFor {g : Circuit} (h : BoundedBox ty s E) (hg : BoxCircuit ty s E g) {F : SimpleEvent}
    (hF : TypedEvent ty s F) : EventFor g s F := by
  refine ⟨hF.nodup, hF.keys, hF.disjoint, fun q hq n d hk hdq => ?_⟩
  obtain ⟨p, hp, hd⟩ := hg.leaves n d hk
  have hb := h.sets p hp
  rw [fits_iff hb hd, ← (bounded_valid hb hd).2.2, hdq]
  exact hF.fits q hq

theorem TypedDomain.disjoint (hdom : TypedDomain ty dom E) (v : Var) : (dom v).Disjoint := by
  by_cases hv : ty v = .symbolic
  · obtain ⟨S, h1, h2⟩ := hdom.symbolic v hv
    rw [h1]
    exact h2
  · rw [hdom.numeric v hv]
    refine ⟨List.pairwise_singleton _ _, ?_⟩
    intro i hi
    rw [List.mem_singleton.1 hi]
    simp [SimpleInterval.IsEmpty]

theorem BoxCircuit.domainFor {g : Circuit} (h : BoundedBox ty s E) (hg : BoxCircuit ty s E g) (hdom : TypedDomain ty dom E) :
    DomainFor g dom := by
  refine ⟨TypedDomain.disjoint hdom, fun n d hk => ?_, fun n d hk => ?_⟩
  · obtain ⟨p, hp, hd⟩ := hg.leaves n d hk
    have hb := h.sets p hp
    rw [fits_iff hb hd, (bounded_valid hb hd).2.2]
    by_cases hv : ty p.1 = .symbolic
    · obtain ⟨S, h1, _⟩ := hdom.symbolic _ hv
      rw [h1, hv]; trivial
    · rw [hdom.numeric _ hv]
      cases ht : ty p.1 <;> trivial
  · obtain ⟨p, hp, hd⟩ := hg.leaves n d hk
    have hb := h.sets p hp
    rw [(bounded_valid hb hd).2.2]
    by_cases hv : ty p.1 = .symbolic
    · refine measure_mono_null ?_ (partLeaf_outside hb hd)
      intro x hx hx'
      exact hx (hdom.covers p hp hv x hx')
    · have : (dom p.1).toSetᶜ = ∅ := by
        rw [hdom.numeric _ hv]
        have := realLine_toSet
        rw [realLine] at this
        rw [this, Set.compl_univ]
      rw [this, measure_empty]

theorem BoxCircuit.leaf_one {g : Circuit} (h : BoundedBox ty s E) (hg : BoxCircuit ty s E g) :
    ∀ n d, g.kind? n = some (.leaf d) → (leafLaw d).real (allowed E d.var) = 1 := by
  intro n d hk
  obtain ⟨p, hp, hd⟩ := hg.leaves n d hk
  have hb := h.sets p hp
  have hv := bounded_valid hb hd
  rw [hv.2.2, allowed_of_mem h.nodup hp, measureReal_def]
  have h0 := partLeaf_outside hb hd
  have h1 := leafLaw_univ hv.1 hv.2.1
  rw [show leafLaw d p.2.toSet = 1 from ?_, ENNReal.toReal_one]
  rw [← h1, ← measure_add_measure_compl (VSet.measurableSet_toSet p.2), h0, add_zero]

theorem BoxCircuit.proper {g : Circuit} (h : BoundedBox ty s E) (hg : BoxCircuit ty s E g) (hdom : TypedDomain ty dom E) :
    ProperEvent g dom E ∧ OneInterval g dom E := by
  have hdomain : ∀ n d, g.kind? n = some (.leaf d) → ProperOn d (dom d.var) ∧ OneIntervalOn d (dom d.var) := by
    intro n d hk
    obtain ⟨p, hp, hd⟩ := hg.leaves n d hk
    have hb := h.sets p hp
    have hv := bounded_valid hb hd
    rw [hv.2.2]
    obtain ⟨v, A⟩ := p
    simp only at hb ⊢
    unfold PartLeaf at hd
    simp only at hd
    cases ht : ty v <;> cases A <;> simp only [ht] at hd hb <;> try exact absurd hb id
    · obtain ⟨i, hi, rfl⟩ := hd
      obtain ⟨a, b, h1, h2, h3⟩ := hb.2.2 i hi
      have hsup : (unif v i).support = .interval [i] := by
        simp only [unif, Leaf.support, h1, h2, EReal.toReal_coe]
        rw [← h1, ← h2]
      rw [hdom.numeric v (by rw [ht]; simp)]
      refine ⟨?_, ?_⟩
      · intro t hs j hj
        rw [hsup] at hs
        injection hs with hs
        injection hs with hs
        subst hs
        rw [List.mem_singleton.1 hj]
        rintro ⟨e, -⟩
        simp only [SimpleInterval.inter, h1, h2] at e
        simp only [bot_le, sup_of_le_left, le_top, inf_of_le_left] at e
        exact h3.ne (by exact_mod_cast e)
      · show ∀ L, (unif v i).support.inter _ = .interval L → L.length ≤ 1
        intro L hL
        rw [hsup] at hL
        simp only [VSet.inter, List.flatMap_cons, List.flatMap_nil, List.append_nil, VSet.interval.injEq, List.map_cons,
          List.map_nil] at hL
        rw [← hL]
        exact (List.length_filter_le _ _).trans (by simp)
    · subst hd
      exact ⟨trivial, trivial⟩
    · subst hd
      exact ⟨trivial, trivial⟩
  have hevent : ∀ q ∈ E, ∀ n d, g.kind? n = some (.leaf d) → d.var = q.1 → ProperOn d q.2 ∧ OneIntervalOn d q.2 := by
    intro q hq n d hk hdq
    obtain ⟨p, hp, hd⟩ := hg.leaves n d hk
    have hb := h.sets p hp
    rw [(bounded_valid hb hd).2.2] at hdq
    have : p = q := by
      have h1 := SimpleEvent.find?_of_mem h.nodup hp
      rw [hdq, SimpleEvent.find?_of_mem h.nodup hq] at h1
      injection h1 with h1
      exact h1.symm
    subst this
    exact partLeaf_proper hb hd
  exact ⟨⟨fun q hq n d hk hdq => (hevent q hq n d hk hdq).1, fun n d hk => (hdomain n d hk).1⟩,
    ⟨fun q hq n d hk hdq => (hevent q hq n d hk hdq).2, fun n d hk => (hdomain n d hk).2⟩⟩

/-- Conditioning the circuit of a box on the box changes no probability of a part of the box. -/
theorem uniformOfEvent_single (h : BoundedBox ty s E) (hdom : TypedDomain ty dom E) {box : Event → SimpleEvent} (hbox : box [E] = E) :
    ∃ g g', uniformOfSimple ty E = .ok g ∧ BoxCircuit ty s E g ∧ uniformOfEvent ty dom box [E] = .ok (some g') ∧
      (∀ m, (g.probability m dom [E]).2 = .ok 1) ∧
      ∀ Fs : Event, (∀ F ∈ Fs, TypedEvent ty s F) → ∀ m m', ∃ q, (g'.probability m dom Fs).2 = .ok q ∧
        (g.probability m' dom (Fs.map fun F => E.inter F)).2 = .ok q := by
  obtain ⟨g, hgo, h1, h2, h3⟩ := uniformOfSimple_spec h
  have hg : BoxCircuit ty s E g := ⟨h1, h2, h3⟩
  obtain ⟨sc, hs, hdec, hr⟩ := h1.scope
  have hL := h1.layered
  have hdomF := hg.domainFor h hdom
  have hEf : EventFor g (sc 0) E := by rw [hr]; exact hg.eventFor h (typed_of_box h)
  have hone : CircuitValue g (fun d => (leafLaw d).real (allowed E d.var)) (fun _ => 1) :=
    one_circuitValue h2.norm (hg.leaf_one h)
  have hP1 : ∀ m, (g.probability m dom [E]).2 = .ok 1 := by
    intro m
    rw [probability_eq hL hs h1.valid hdomF (by simpa using hEf) (p := fun _ _ => 1) (by simpa using hone) m]
    simp
  have hp := hg.proper h hdom
  obtain ⟨g', r', hc, _, _, _, _, _, hq⟩ := C08_balanced_partial hL hs hdec h1.valid h2.norm h2.pos h2.tree hdomF hEf hp.1 hp.2
    (fun P hP => by
      intro n hk _
      right
      intro e he
      have hu := fun n hn => circuitValue_unique hL.wf hL.graded.acyclic hP hone n hn
      rw [hu n (mem_ids_of_kind? hk), hu e.dst (hL.wf.dstMem e (List.mem_filter.1 he).1)])
    (hP1 freshMem) one_pos
  refine ⟨g, g', hgo, hg, ?_, hP1, ?_⟩
  · unfold uniformOfEvent
    rw [hbox, hgo]
    simp only [bind, Except.bind]
    rw [hc]
  · intro Fs hF m m'
    obtain ⟨q, h4, h5⟩ := hq Fs (fun F hFm => by rw [hr]; exact hg.eventFor h (hF F hFm)) m m'
    rw [mul_one] at h5
    exact ⟨q, h4, h5⟩

end PM.Props
