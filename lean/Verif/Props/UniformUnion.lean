import Verif.Props.UniformMeasure
import Verif.Props.Unions

/-!
# C50: uniform measures of unions of simple events
-/

namespace PM.Props

open Spec Graph MeasureTheory Classical
open scoped ENNReal

variable {ty : Var → VarType} {s : Finset Var} {B E : SimpleEvent} {dom : Var → VSet}

theorem bounded_nonempty {t : VarType} {A : VSet} (h : BoundedSet t A) : ∃ x, A.Mem x := by
  cases t <;> cases A <;> simp only [BoundedSet] at h <;> try exact absurd h id
  · obtain ⟨i, hi⟩ := List.exists_mem_of_ne_nil _ h.1
    obtain ⟨a, b, h1, h2, h3⟩ := h.2.2 i hi
    obtain ⟨x, hx1, hx2⟩ := EReal.lt_iff_exists_real_btwn.1 (show i.lower < i.upper by rw [h1, h2]; exact_mod_cast h3)
    exact ⟨x, i, hi, SimpleInterval.mem_of_between hx1 hx2⟩
  · obtain ⟨k, hk⟩ := List.exists_mem_of_ne_nil _ h.1
    exact ⟨k, k, hk, rfl⟩
  · obtain ⟨i, hi⟩ := List.exists_mem_of_ne_nil _ h.1
    obtain ⟨k, rfl⟩ := h.2.2 i hi
    exact ⟨k, _, hi, le_refl _, le_refl _⟩

theorem entry_unique {F : SimpleEvent} (h : F.keys.Nodup) {p q : Var × VSet} (hp : p ∈ F) (hq : q ∈ F) (hpq : p.1 = q.1) : p = q := by
  have h1 := SimpleEvent.find?_of_mem h hp
  rw [hpq, SimpleEvent.find?_of_mem h hq] at h1
  injection h1 with h1
  exact h1.symm

/-- A box that is contained in another one is contained in it in every variable. -/
theorem box_subset (hE : BoundedBox ty s E) (hsub : ∀ x, E.Mem x → B.Mem x) {p q : Var × VSet} (hp : p ∈ B) (hq : q ∈ E)
    (hpq : p.1 = q.1) {t : ℝ} (ht : q.2.Mem t) : p.2.Mem t := by
  have hy : ∀ v, ∃ y, ∀ q' ∈ E, q'.1 = v → q'.2.Mem y := by
    intro v
    by_cases hv : ∃ q' ∈ E, q'.1 = v
    · obtain ⟨q', hq', rfl⟩ := hv
      obtain ⟨y, hy⟩ := bounded_nonempty (hE.sets q' hq')
      exact ⟨y, fun q'' h1 h2 => by rw [entry_unique hE.nodup h1 hq' h2]; exact hy⟩
    · exact ⟨0, fun q' h1 h2 => absurd ⟨q', h1, h2⟩ hv⟩
  choose y hy using hy
  have := hsub (Function.update y q.1 t) (by
    intro q' hq'
    by_cases hv : q'.1 = q.1
    · rw [entry_unique hE.nodup hq' hq hv, Function.update_self]
      exact ht
    · rw [Function.update_of_ne hv]
      exact hy _ q' hq' rfl) p hp
  rwa [hpq, Function.update_self] at this

theorem unif_support {v : Var} {i : SimpleInterval} {a b : ℝ} (h1 : i.lower = a) (h2 : i.upper = b) :
    (unif v i).support = .interval [i] := by
  simp only [unif, Leaf.support, h1, h2, EReal.toReal_coe]
  rw [← h1, ← h2]

/-- The simple event cuts no single points and no more than one interval out of the leaves. -/
theorem partLeaf_cut (hB : BoundedBox ty s B) (hE : BoundedBox ty s E) (hsub : ∀ x, E.Mem x → B.Mem x) (hfit : CutsCleanly ty B E)
    {p q : Var × VSet} (hp : p ∈ B) (hq : q ∈ E) (hpq : p.1 = q.1) {d : Leaf} (hd : PartLeaf ty p d) :
    ProperOn d q.2 ∧ OneIntervalOn d q.2 := by
  have hb := hB.sets p hp
  have he := hE.sets q hq
  have hs := fun t => box_subset hE hsub hp hq hpq (t := t)
  have hf := hfit p hp q hq hpq
  obtain ⟨v, A⟩ := p
  obtain ⟨v', C⟩ := q
  simp only at hpq
  subst hpq
  unfold PartLeaf at hd
  simp only at hb he hs hf hd ⊢
  cases ht : ty v <;> cases A <;> simp only [ht] at hd hb he hf <;> try exact absurd hb id
  · cases C with
    | symbols S => exact absurd he id
    | interval J =>
    rename_i I
    obtain ⟨i, hi, rfl⟩ := hd
    obtain ⟨a, b, h1, h2, h3⟩ := hb.2.2 i hi
    have hsup := unif_support (v := v) h1 h2
    have hcase := hf trivial I J rfl rfl
    rcases hcase with ⟨i', j, rfl, rfl⟩ | hcase
    · rw [List.mem_singleton] at hi
      subst hi
      obtain ⟨a', b', h1', h2', h3'⟩ := he.2.2 j (by simp)
      refine ⟨?_, ?_⟩
      · intro t hst k hk
        rw [hsup] at hst
        injection hst with hst
        injection hst with hst
        subst hst
        rw [List.mem_singleton.1 hk]
        rintro ⟨e, -⟩
        obtain ⟨x, hx1, hx2⟩ := EReal.lt_iff_exists_real_btwn.1 (show j.lower < j.upper by rw [h1', h2']; exact_mod_cast h3')
        obtain ⟨y, hy1, hy2⟩ := EReal.lt_iff_exists_real_btwn.1 hx2
        have hmem : ∀ z : ℝ, j.lower < z → (z : EReal) < j.upper → (i.inter j).Mem z := by
          intro z hz1 hz2
          have hz := SimpleInterval.mem_of_between hz1 hz2
          obtain ⟨i'', hi'', hz'⟩ := hs z ⟨j, by simp, hz⟩
          rw [List.mem_singleton.1 hi''] at hz'
          exact (SimpleInterval.mem_inter i j z).2 ⟨hz', hz⟩
        have hlow := (hmem x hx1 hx2).lower_le
        have hup := (hmem y (hx1.trans hy1) hy2).le_upper
        rw [e] at hlow
        exact absurd hy1 (not_lt.2 (hup.trans hlow))
      · show ∀ L, (unif v i).support.inter _ = .interval L → L.length ≤ 1
        intro L hL
        rw [hsup] at hL
        simp only [VSet.inter, List.flatMap_cons, List.flatMap_nil, List.append_nil, VSet.interval.injEq, List.map_cons,
          List.map_nil] at hL
        rw [← hL]
        exact (List.length_filter_le _ _).trans (by simp)
    · rcases hcase i hi with hiJ | hno
      · refine partLeaf_proper (ty := ty) (p := (v, .interval J)) (by rw [ht]; exact he) ?_
        unfold PartLeaf
        simp only [ht]
        exact ⟨i, hiJ, rfl⟩
      · refine ⟨?_, ?_⟩
        · intro t hst k hk
          rw [hsup] at hst
          injection hst with hst
          injection hst with hst
          subst hst
          exact (inter_empty h1 h2 (hno k hk)).2
        · show ∀ L, (unif v i).support.inter _ = .interval L → L.length ≤ 1
          intro L hL
          rw [hsup] at hL
          simp only [VSet.inter, List.flatMap_cons, List.flatMap_nil, List.append_nil, VSet.interval.injEq] at hL
          rw [← hL, List.filter_eq_nil_iff.2]
          · simp
          · intro k hk
            obtain ⟨j, hj, rfl⟩ := List.mem_map.1 hk
            simpa using (inter_empty h1 h2 (hno j hj)).1
  · subst hd
    exact ⟨trivial, trivial⟩
  · subst hd
    exact ⟨trivial, trivial⟩

/-- Possible leaves of the same variable have the same probability. -/
theorem partLeaf_same (hE : BoundedBox ty s E) (hfit : CutsCleanly ty B E)
    {p q : Var × VSet} (hB : BoundedSet (ty p.1) p.2) (hp : p ∈ B) (hq : q ∈ E) (hpq : p.1 = q.1) {d d' : Leaf} (hd : PartLeaf ty p d)
    (hd' : PartLeaf ty p d') (h0 : (leafLaw d).real q.2.toSet ≠ 0) (h0' : (leafLaw d').real q.2.toSet ≠ 0) :
    (leafLaw d).real q.2.toSet = (leafLaw d').real q.2.toSet := by
  have he := hE.sets q hq
  have hf := hfit p hp q hq hpq
  obtain ⟨v, A⟩ := p
  obtain ⟨v', C⟩ := q
  simp only at hpq
  subst hpq
  have hout := fun d => partLeaf_outside hB (d := d)
  have hval := fun d => bounded_valid hB (d := d)
  have hval₁ := hval d hd
  have hval₂ := hval d' hd'
  have hout₁ := hout d hd
  have hout₂ := hout d' hd'
  unfold PartLeaf at hd hd'
  simp only at hB he hf hd hd' h0 h0' hout₁ hout₂ ⊢
  cases ht : ty v <;> cases A <;> simp only [ht] at hd hd' hB he hf <;> try exact absurd hB id
  · cases C with
    | symbols S => exact absurd he id
    | interval J =>
    rename_i I
    rcases hf trivial I J rfl rfl with ⟨i', j, rfl, rfl⟩ | hcase
    · obtain ⟨i, hi, rfl⟩ := hd
      obtain ⟨k, hk, rfl⟩ := hd'
      rw [List.mem_singleton.1 hi, List.mem_singleton.1 hk]
    · have key : ∀ d : Leaf, (∃ i ∈ I, d = unif v i) → d.Valid → d.Normalized → (leafLaw d).real (VSet.interval J).toSet ≠ 0 →
          (leafLaw d).real (VSet.interval J).toSet = 1 := by
        rintro d ⟨i, hi, rfl⟩ hv hn h0
        have := finite_leafLaw hv
        obtain ⟨a, b, h1, h2, h3⟩ := hB.2.2 i hi
        rcases hcase i hi with hiJ | hno
        · have hz := partLeaf_outside (ty := ty) (p := (v, .interval J)) (by rw [ht]; exact he) (d := unif v i) (by
            unfold PartLeaf
            simp only [ht]
            exact ⟨i, hiJ, rfl⟩)
          have h1 := leafLaw_univ hv hn
          rw [measureReal_def, show leafLaw (unif v i) (VSet.interval J).toSet = 1 from ?_, ENNReal.toReal_one]
          rw [← h1, ← measure_add_measure_compl (VSet.measurableSet_toSet (VSet.interval J)), hz, add_zero]
        · exfalso
          apply h0
          have hz := partLeaf_outside (ty := fun _ => .continuous) (p := (v, .interval [i])) (d := unif v i)
            ⟨by simp, ⟨List.pairwise_singleton _ _, by
              intro k hk
              rw [List.mem_singleton.1 hk]
              exact hB.2.1.2 i hi⟩, by
              intro k hk
              rw [List.mem_singleton.1 hk]
              exact ⟨a, b, h1, h2, h3⟩⟩ (by simp [PartLeaf])
          rw [measureReal_eq_zero_iff]
          refine measure_mono_null ?_ hz
          rintro x ⟨j, hj, hx⟩ ⟨k, hk, hx'⟩
          rw [List.mem_singleton.1 hk] at hx'
          exact hno j hj x ⟨hx', hx⟩
      rw [key d hd hval₁.1 hval₁.2.1 h0, key d' hd' hval₂.1 hval₂.2.1 h0']
  · rw [hd, hd']
  · rw [hd, hd']

/-- The circuit of a box is ready to be conditioned on simple events that cut it cleanly. -/
theorem box_proportional {g : Circuit} (hB : BoundedBox ty s B) (hg : BoxCircuit ty s B g) (hleafy : LeafySums g)
    (hE : BoundedBox ty s E) (hfit : CutsCleanly ty B E) {P T : Node → ℝ}
    (hP : CircuitValue g (fun d => (leafLaw d).real (allowed E d.var)) P) (hT : RemainingWeight g P T) : Proportional g P T := by
  intro n hk _
  obtain ⟨sc, hs, _, _⟩ := hg.denotes.scope
  have hchild : ∀ e ∈ possibleEdges g P n, ∃ d p q, g.kind? e.dst = some (.leaf d) ∧ p ∈ B ∧ PartLeaf ty p d ∧ q ∈ E ∧ p.1 = q.1 ∧
      sc n = {p.1} ∧ P e.dst = (leafLaw d).real q.2.toSet ∧ P e.dst ≠ 0 := by
    intro e he
    have he' := List.mem_filter.1 he
    obtain ⟨d, hd⟩ := hleafy n hk e he'.1
    obtain ⟨p, hp, hpd⟩ := hg.leaves _ _ hd
    have hv := (bounded_valid (hB.sets p hp) hpd).2.2
    have hps : p.1 ∈ s := (hB.keys _).1 (List.mem_map.2 ⟨p, hp, rfl⟩)
    obtain ⟨q, hq, hqp⟩ := List.mem_map.1 ((hE.keys _).2 hps)
    refine ⟨d, p, q, hd, hp, hpd, hq, hqp.symm, ?_, ?_, by simpa using he'.2⟩
    · rw [← hs.sum n hk _ (dst_mem_succ he'.1), hs.leaf _ _ hd, hv]
    · rw [hP.leaf _ _ hd, hv, ← hqp, allowed_of_mem hE.nodup hq]
  rcases hempty : possibleEdges g P n with _ | ⟨e₀, l⟩
  · exact ⟨0, by simp⟩
  · refine ⟨P e₀.dst, fun e he => ?_⟩
    rw [← hempty] at he
    obtain ⟨d, p, q, hd, hp, hpd, hq, hpq, hsc, h1, h2⟩ := hchild e he
    obtain ⟨d', p', q', hd', hp', hpd', hq', hpq', hsc', h1', h2'⟩ := hchild e₀ (by rw [hempty]; simp)
    have : p' = p := entry_unique hB.nodup hp' hp (by
      rw [hsc] at hsc'
      exact (Finset.singleton_injective hsc').symm)
    subst this
    have : q' = q := entry_unique hE.nodup hq' hq (hpq'.symm.trans hpq)
    subst this
    rw [hT.leaf _ _ hd, mul_one, h1, h1']
    rw [h1] at h2
    rw [h1'] at h2'
    exact partLeaf_same hE hfit (hB.sets _ hp) hp hq hpq hpd hpd' h2 h2'

/-- The simple events have intervals of the same length. -/
theorem equalLengths_of_cut (hB : BoundedBox ty s B) (heq : EqualLengths ty B) (hE : BoundedBox ty s E) (hsub : ∀ x, E.Mem x → B.Mem x)
    (hfit : CutsCleanly ty B E) : EqualLengths ty E := by
  intro q hq hc J hJ
  have hqs : q.1 ∈ s := (hE.keys _).1 (List.mem_map.2 ⟨q, hq, rfl⟩)
  obtain ⟨p, hp, hpq⟩ := List.mem_map.1 ((hB.keys _).2 hqs)
  have hb := hB.sets p hp
  have he := hE.sets q hq
  have hs := fun t => box_subset hE hsub hp hq hpq (t := t)
  have hf := hfit p hp q hq hpq (hpq ▸ hc)
  have hlen := heq p hp (hpq ▸ hc)
  rw [hpq, hc] at hb
  rw [hc, hJ] at he
  rw [hJ] at hs
  cases hA : p.2 with
  | symbols S => rw [hA] at hb; exact absurd hb id
  | interval I =>
  rw [hA] at hb hs
  have hlen := hlen I hA
  rcases hf I J hA hJ with ⟨i, j, rfl, rfl⟩ | hcase
  · intro a ha b hb
    rw [List.mem_singleton.1 ha, List.mem_singleton.1 hb]
  · have hin : ∀ j ∈ J, j ∈ I := by
      intro j hj
      obtain ⟨a, b, h1, h2, h3⟩ := he.2.2 j hj
      obtain ⟨x, hx1, hx2⟩ := EReal.lt_iff_exists_real_btwn.1 (show j.lower < j.upper by rw [h1, h2]; exact_mod_cast h3)
      have hx := SimpleInterval.mem_of_between hx1 hx2
      obtain ⟨i, hi, hxi⟩ := hs x ⟨j, hj, hx⟩
      rcases hcase i hi with hiJ | hno
      · by_cases hij : i = j
        · exact hij ▸ hi
        · have hsym : Std.Symm fun i j : SimpleInterval => ∀ x, ¬ (i.Mem x ∧ j.Mem x) := ⟨fun a b hab x hx => hab x ⟨hx.2, hx.1⟩⟩
          exact absurd ⟨hxi, hx⟩ (he.2.1.1.forall hiJ hj hij x)
      · exact absurd ⟨hxi, hx⟩ (hno j hj x)
    exact fun a ha b hb => hlen a (hin a ha) b (hin b hb)

theorem eventVolume_mono {Es Fs : Event} (h : ∀ x, (∃ E ∈ Es, SimpleEvent.Mem E x) → ∃ F ∈ Fs, SimpleEvent.Mem F x) :
    eventVolume ty s Es ≤ eventVolume ty s Fs := by
  unfold eventVolume integralOver
  refine lmarginal_mono (fun x => ?_) _
  by_cases h1 : ∃ E ∈ Es, SimpleEvent.Mem E x
  · simp [h1, h x h1]
  · simp [h1]

theorem eventVolume_congr {Es Fs : Event} (h : ∀ x, (∃ E ∈ Es, SimpleEvent.Mem E x) ↔ ∃ F ∈ Fs, SimpleEvent.Mem F x) :
    eventVolume ty s Es = eventVolume ty s Fs := le_antisymm (eventVolume_mono fun x => (h x).1) (eventVolume_mono fun x => (h x).2)

/-- **C50 for unions**, as far as it holds: for at least two disjoint boxes inside their bounding box, in which the intervals of every
continuous variable have the same length and are cut cleanly by every one of the boxes, every event `Fs` gets its share of the volume of
the union. -/
theorem C50_union_partial {Es : Event} {box : Event → SimpleEvent} (hB : BoundedBox ty s (box Es)) (heq : EqualLengths ty (box Es))
    (hdom : TypedDomain ty dom (box Es)) (hlen : 2 ≤ Es.length) (hE : ∀ E ∈ Es, BoundedBox ty s E) (hdis : DisjointFamily Es)
    (hsub : ∀ E ∈ Es, ∀ x, E.Mem x → (box Es).Mem x) (hfit : ∀ E ∈ Es, CutsCleanly ty (box Es) E) :
    0 < eventVolume ty s Es ∧ eventVolume ty s Es < ⊤ ∧
    ∃ g, uniformOfEvent ty dom box Es = .ok (some g) ∧
      ∀ Fs : Event, (∀ F ∈ Fs, TypedEvent ty s F) → DisjointFamily Fs → ∀ m, ∃ q, 0 ≤ q ∧ (g.probability m dom Fs).2 = .ok q ∧
        ENNReal.ofReal q * eventVolume ty s Es = eventVolume ty s (Es.inter Fs) := by
  generalize hbox : box Es = B at hB heq hdom hsub hfit
  obtain ⟨g, hgo, h1, h2, h3, hleafy⟩ := uniformOfSimple_full hB
  have hg : BoxCircuit ty s B g := ⟨h1, h2, h3⟩
  obtain ⟨g₂, c, hgo₂, hc, hlik⟩ := C50_constant_density_partial hB heq
  rw [hgo] at hgo₂
  injection hgo₂ with hgo₂
  subst hgo₂
  have hint := box_integral hB hdom hg hlik
  have hc0 : ENNReal.ofReal c ≠ 0 := by simpa using hc
  have hBt := typed_of_box hB
  have hEt : ∀ E ∈ Es, TypedEvent ty s E := fun E hEm => typed_of_box (hE E hEm)
  obtain ⟨E₀, hE₀⟩ : ∃ E, E ∈ Es := by
    cases Es with
    | nil => simp at hlen
    | cons E l => exact ⟨E, by simp⟩
  have hinB : ∀ Gs : Event, (∀ F ∈ Gs, TypedEvent ty s F) → (∀ G ∈ Gs, ∀ x, SimpleEvent.Mem G x → B.Mem x) →
      eventVolume ty s (Event.inter [B] Gs) = eventVolume ty s Gs := by
    intro Gs hG hGB
    refine eventVolume_congr fun x => ?_
    rw [mem_inter_event hBt hG]
    exact ⟨fun h => h.2, fun ⟨G, hGm, hx⟩ => ⟨hGB G hGm x hx, G, hGm, hx⟩⟩
  have hpos : 0 < eventVolume ty s Es := by
    have hd₀ : TypedDomain ty dom E₀ := by
      refine ⟨hdom.numeric, hdom.symbolic, fun q hq hsy x hx => ?_⟩
      have hqs : q.1 ∈ s := ((hE E₀ hE₀).keys _).1 (List.mem_map.2 ⟨q, hq, rfl⟩)
      obtain ⟨p, hp, hpq⟩ := List.mem_map.1 ((hB.keys _).2 hqs)
      rw [← hpq]
      exact hdom.covers p hp (hpq ▸ hsy) x (box_subset (hE E₀ hE₀) (hsub E₀ hE₀) hp hq hpq hx)
    exact (C50_share_of_volume_partial (hE E₀ hE₀) (equalLengths_of_cut hB heq (hE E₀ hE₀) (hsub E₀ hE₀) (hfit E₀ hE₀)) hd₀
      (box := fun _ => E₀) rfl).1.trans_le (eventVolume_mono fun x ⟨E, hEm, hx⟩ => ⟨E₀, hE₀, by rw [List.mem_singleton.1 hEm] at hx; exact hx⟩)
  have hfin : eventVolume ty s Es < ⊤ :=
    (eventVolume_mono fun x ⟨E, hEm, hx⟩ => ⟨B, by simp, hsub E hEm x hx⟩).trans_lt
      (C50_share_of_volume_partial hB heq hdom (box := fun _ => B) rfl).2.1
  obtain ⟨sc, hs, hdec, hr⟩ := h1.scope
  have hL := h1.layered
  choose P T hP hT _ using fun E => C88_defined hL E
  obtain ⟨pE, hpE0, hpE, hpEi⟩ := hint Es hEt hdis freshMem
  rw [hinB Es hEt hsub] at hpEi
  have hpE1 : 0 < pE := by
    rw [← ENNReal.ofReal_pos, hpEi]
    exact ENNReal.mul_pos hc0 hpos.ne'
  have hp := hg.proper hB hdom
  have hcut : ∀ E ∈ Es, ∀ q ∈ E, ∀ n d, g.kind? n = some (.leaf d) → d.var = q.1 → ProperOn d q.2 ∧ OneIntervalOn d q.2 := by
    intro E hEm q hq n d hk hdq
    obtain ⟨p, hp, hd⟩ := h3 n d hk
    rw [(bounded_valid (hB.sets p hp) hd).2.2] at hdq
    exact partLeaf_cut hB (hE E hEm) (hsub E hEm) (hfit E hEm) hp hq hdq hd
  have hU : UnionFor g (sc 0) dom Es := ⟨fun E hEm => by rw [hr]; exact hg.eventFor hB (hEt E hEm),
    fun E hEm => ⟨fun q hq n d hk hdq => (hcut E hEm q hq n d hk hdq).1, hp.1.domain⟩,
    fun E hEm => ⟨fun q hq n d hk hdq => (hcut E hEm q hq n d hk hdq).2, hp.2.domain⟩⟩
  obtain ⟨g', r', sc', x, h4, _, _, _, _, _, h5⟩ := C08_union_partial hL hs hdec h1.valid h2.pos h2.tree (hg.domainFor hB hdom) hU hlen
    (fun E _ => hP E) (fun E _ => hT E) (fun E hEm => box_proportional hB hg hleafy (hE E hEm) (hfit E hEm) (hP E) (hT E)) hpE hpE1
  refine ⟨hpos, hfin, g', ?_, ?_⟩
  · unfold uniformOfEvent
    rw [hbox, hgo]
    simp only [bind, Except.bind]
    rw [h4]
  · intro Fs hF hFdis m
    obtain ⟨q, h6, h7⟩ := h5 Fs (fun F hFm => by rw [hr]; exact hg.eventFor hB (hF F hFm)) m freshMem
    have hmem : ∀ E ∈ Es, ∀ F ∈ Fs, ∀ x, (E.inter F).Mem x ↔ E.Mem x ∧ F.Mem x := fun E hEm F hFm x =>
      SimpleEvent.mem_inter (hF F hFm).nodup (compatible_of_typed (hEt E hEm) (hF F hFm)) x
    have hflat : ∀ G ∈ Es.flatMap (fun E => Fs.map fun F => E.inter F), ∃ E ∈ Es, ∃ F ∈ Fs, G = E.inter F := by
      intro G hG
      obtain ⟨E, hEm, hG⟩ := List.mem_flatMap.1 hG
      obtain ⟨F, hFm, rfl⟩ := List.mem_map.1 hG
      exact ⟨E, hEm, F, hFm, rfl⟩
    have htyp : ∀ G ∈ Es.flatMap (fun E => Fs.map fun F => E.inter F), TypedEvent ty s G := by
      intro G hG
      obtain ⟨E, hEm, F, hFm, rfl⟩ := hflat G hG
      exact typed_inter (hEt E hEm) (hF F hFm)
    obtain ⟨p, h8, h9, h10⟩ := hint (Es.flatMap fun E => Fs.map fun F => E.inter F) htyp (by
      rw [DisjointFamily, List.pairwise_flatMap]
      refine ⟨fun E hEm => ?_, List.Pairwise.imp_of_mem ?_ hdis⟩
      · rw [List.pairwise_map]
        refine List.Pairwise.imp_of_mem ?_ hFdis
        intro a b ha hb hab x hx
        rw [hmem E hEm a ha, hmem E hEm b hb] at hx
        exact hab x ⟨hx.1.2, hx.2.2⟩
      · intro a b ha hb hab G hG G' hG' x hx
        obtain ⟨F, hFm, rfl⟩ := List.mem_map.1 hG
        obtain ⟨F', hFm', rfl⟩ := List.mem_map.1 hG'
        rw [hmem a ha F hFm, hmem b hb F' hFm'] at hx
        exact hab x ⟨hx.1.1, hx.2.1⟩) freshMem
    rw [h7] at h9
    injection h9 with h9
    subst h9
    rw [hinB _ htyp (fun G hG x hx => by
      obtain ⟨E, hEm, F, hFm, rfl⟩ := hflat G hG
      exact hsub E hEm x ((hmem E hEm F hFm x).1 hx).1)] at h10
    have hq0 : 0 ≤ q := nonneg_of_mul_nonneg_left h8 hpE1
    refine ⟨q, hq0, h6, ?_⟩
    rw [ENNReal.ofReal_mul hq0, hpEi, mul_left_comm] at h10
    exact (ENNReal.mul_right_inj hc0 ENNReal.ofReal_ne_top).1 h10

/-! ### Concrete cases -/

/-- `[a, b] × [c, d]`, the first interval open on the left if `l` is. -/
noncomputable def rectangle (l : Bound) (a b c d : ℝ) : SimpleEvent := [(0, .interval [⟨a, b, l, .closed⟩]), (1, .interval [cc c d])]

theorem rectangle_bounded {l : Bound} {a b c d : ℝ} (h1 : a < b) (h2 : c < d) : BoundedBox allContinuous {0, 1} (rectangle l a b c d) := by
  refine ⟨by simp [SimpleEvent.keys, rectangle], fun v => by simp [SimpleEvent.keys, rectangle], ?_⟩
  intro p hp
  simp only [rectangle, List.mem_cons, List.not_mem_nil, or_false] at hp
  rcases hp with rfl | rfl
  · refine ⟨by simp, ⟨List.pairwise_singleton _ _, ?_⟩, ?_⟩ <;> intro i hi <;> rw [List.mem_singleton.1 hi]
    · simp [SimpleInterval.IsEmpty, h1.ne, not_lt.2 h1.le]
    · exact ⟨a, b, rfl, rfl, h1⟩
  · refine ⟨by simp, ⟨List.pairwise_singleton _ _, ?_⟩, ?_⟩ <;> intro i hi <;> rw [List.mem_singleton.1 hi]
    · simp [cc, SimpleInterval.IsEmpty, h2.ne, not_lt.2 h2.le]
    · exact ⟨c, d, rfl, rfl, h2⟩

theorem rectangle_mem {l : Bound} {a b c d : ℝ} {x : Var → ℝ} : (rectangle l a b c d).Mem x ↔
    (match l with | .opn => a < x 0 | .closed => a ≤ x 0) ∧ x 0 ≤ b ∧ c ≤ x 1 ∧ x 1 ≤ d := by
  cases l <;> simp [rectangle, SimpleEvent.Mem, VSet.Mem, SimpleInterval.Mem, SimpleInterval.leftOK, SimpleInterval.rightOK, cc, and_assoc]

theorem rectangle_cuts {l l' : Bound} {a b c d a' b' c' d' : ℝ} :
    CutsCleanly allContinuous (rectangle l a b c d) (rectangle l' a' b' c' d') := by
  intro p hp q hq _ _ I J hI hJ
  left
  simp only [rectangle, List.mem_cons, List.not_mem_nil, or_false] at hp hq
  rcases hp with rfl | rfl <;> rcases hq with rfl | rfl <;> simp only [VSet.interval.injEq] at hI hJ <;> subst hI hJ <;>
    exact ⟨_, _, rfl, rfl⟩

theorem rectangle_equal {l : Bound} {a b c d : ℝ} : EqualLengths allContinuous (rectangle l a b c d) := by
  intro p hp _ I hI
  simp only [rectangle, List.mem_cons, List.not_mem_nil, or_false] at hp
  rcases hp with rfl | rfl <;> simp only [VSet.interval.injEq] at hI <;> subst hI <;> simp

/-- `C50_union_partial` applies to the L-shaped event `[0,1] × [0,2] ∪ (1,2] × [0,1]` with the bounding box `[0,2] × [0,2]`. -/
example : ∃ g, uniformOfEvent allContinuous (fun _ => realLine) (fun _ => rectangle .closed 0 2 0 2)
      [rectangle .closed 0 1 0 2, rectangle .opn 1 2 0 1] = .ok (some g) ∧
    ∀ Fs : Event, (∀ F ∈ Fs, TypedEvent allContinuous {0, 1} F) → DisjointFamily Fs → ∀ m, ∃ q, 0 ≤ q ∧
      (g.probability m (fun _ => realLine) Fs).2 = .ok q ∧
      ENNReal.ofReal q * eventVolume allContinuous {0, 1} [rectangle .closed 0 1 0 2, rectangle .opn 1 2 0 1] =
        eventVolume allContinuous {0, 1} (Event.inter [rectangle .closed 0 1 0 2, rectangle .opn 1 2 0 1] Fs) := by
  refine (C50_union_partial (rectangle_bounded (by norm_num) (by norm_num)) rectangle_equal (line_domain _) (by simp) ?_ ?_ ?_ ?_).2.2
  · simp only [List.mem_cons, List.not_mem_nil, or_false, forall_eq_or_imp, forall_eq]
    exact ⟨rectangle_bounded (by norm_num) (by norm_num), rectangle_bounded (by norm_num) (by norm_num)⟩
  · simp only [DisjointFamily, List.pairwise_cons, List.mem_singleton, forall_eq, List.not_mem_nil, false_imp_iff,
      implies_true, List.Pairwise.nil, and_self, and_true]
    rintro x ⟨ha, hb⟩
    rw [rectangle_mem] at ha hb
    simp only at ha hb
    linarith [ha.2.1, hb.1]
  · simp only [List.mem_cons, List.not_mem_nil, or_false, forall_eq_or_imp, forall_eq, rectangle_mem]
    refine ⟨fun x hx => ⟨hx.1, ?_, hx.2.2⟩, fun x hx => ⟨?_, hx.2.1, hx.2.2.1, ?_⟩⟩
    · linarith [hx.2.1]
    · linarith [hx.1]
    · linarith [hx.2.2.2]
  · simp only [List.mem_cons, List.not_mem_nil, or_false, forall_eq_or_imp, forall_eq]
    exact ⟨rectangle_cuts, rectangle_cuts⟩

/-- Two unit squares on a diagonal; their bounding box has two intervals of length one in each variable. -/
noncomputable def diagonalBox : SimpleEvent := [(0, .interval [cc 0 1, cc 2 3]), (1, .interval [cc 0 1, cc 2 3])]

theorem cc_apart {x : ℝ} : ¬ ((cc 0 1).Mem x ∧ (cc 2 3).Mem x) := by
  intro hx
  simp only [cc, SimpleInterval.Mem, SimpleInterval.leftOK, SimpleInterval.rightOK, EReal.coe_le_coe_iff] at hx
  linarith [hx.1.2, hx.2.1]

/-- `C50_union_partial` applies to `[0,1] × [0,1] ∪ [2,3] × [2,3]`. -/
example : ∃ g, uniformOfEvent allContinuous (fun _ => realLine) (fun _ => diagonalBox) [rectangle .closed 0 1 0 1, rectangle .closed 2 3 2 3]
    = .ok (some g) := by
  have hbox : BoundedBox allContinuous {0, 1} diagonalBox := by
    refine ⟨by simp [SimpleEvent.keys, diagonalBox], fun v => by simp [SimpleEvent.keys, diagonalBox], ?_⟩
    have key : BoundedSet .continuous (.interval [cc 0 1, cc 2 3]) := by
      refine ⟨by simp, ⟨?_, ?_⟩, ?_⟩
      · simp only [List.pairwise_cons, List.mem_singleton, forall_eq, List.not_mem_nil, false_imp_iff, implies_true, List.Pairwise.nil,
          and_true]
        exact fun x => cc_apart
      · intro i hi
        simp only [List.mem_cons, List.not_mem_nil, or_false] at hi
        rcases hi with rfl | rfl <;> exact cc_not_empty (by norm_num)
      · intro i hi
        simp only [List.mem_cons, List.not_mem_nil, or_false] at hi
        rcases hi with rfl | rfl
        · exact ⟨0, 1, rfl, rfl, by norm_num⟩
        · exact ⟨2, 3, rfl, rfl, by norm_num⟩
    intro p hp
    simp only [diagonalBox, List.mem_cons, List.not_mem_nil, or_false] at hp
    rcases hp with rfl | rfl <;> exact key
  refine Exists.imp (fun g h => h.1) (C50_union_partial (box := fun _ => diagonalBox)
    (Es := [rectangle .closed 0 1 0 1, rectangle .closed 2 3 2 3]) hbox ?_ (line_domain _) (by simp) ?_ ?_ ?_ ?_).2.2
  · intro p hp _ I hI i hi j hj
    simp only [diagonalBox, List.mem_cons, List.not_mem_nil, or_false] at hp
    rcases hp with rfl | rfl <;> simp only [VSet.interval.injEq] at hI <;> subst hI <;>
      simp only [List.mem_cons, List.not_mem_nil, or_false] at hi hj <;> rcases hi with rfl | rfl <;> rcases hj with rfl | rfl <;>
      simp only [cc, EReal.toReal_coe] <;> norm_num
  · simp only [List.mem_cons, List.not_mem_nil, or_false, forall_eq_or_imp, forall_eq]
    exact ⟨rectangle_bounded (by norm_num) (by norm_num), rectangle_bounded (by norm_num) (by norm_num)⟩
  · simp only [DisjointFamily, List.pairwise_cons, List.mem_singleton, forall_eq, List.not_mem_nil, false_imp_iff,
      implies_true, List.Pairwise.nil, and_self, and_true]
    rintro x ⟨ha, hb⟩
    rw [rectangle_mem] at ha hb
    simp only at ha hb
    linarith [ha.2.1, hb.1]
  · intro E hE x hx p hp
    simp only [diagonalBox, List.mem_cons, List.not_mem_nil, or_false] at hE hp
    rcases hE with rfl | rfl
    · rcases hp with rfl | rfl
      · obtain ⟨i, hi, hxi⟩ := hx (0, .interval [cc 0 1]) (by simp [rectangle, cc])
        exact ⟨i, by simp at hi ⊢; exact Or.inl hi, hxi⟩
      · obtain ⟨i, hi, hxi⟩ := hx (1, .interval [cc 0 1]) (by simp [rectangle, cc])
        exact ⟨i, by simp at hi ⊢; exact Or.inl hi, hxi⟩
    · rcases hp with rfl | rfl
      · obtain ⟨i, hi, hxi⟩ := hx (0, .interval [cc 2 3]) (by simp [rectangle, cc])
        exact ⟨i, by simp at hi ⊢; exact Or.inr hi, hxi⟩
      · obtain ⟨i, hi, hxi⟩ := hx (1, .interval [cc 2 3]) (by simp [rectangle, cc])
        exact ⟨i, by simp at hi ⊢; exact Or.inr hi, hxi⟩
  · intro E hE p hp q hq _ _ I J hI hJ
    right
    intro i hi
    have hI' : I = [cc 0 1, cc 2 3] := by
      simp only [diagonalBox, List.mem_cons, List.not_mem_nil, or_false] at hp
      rcases hp with rfl | rfl <;> exact (VSet.interval.inj hI).symm
    subst hI'
    simp only [List.mem_cons, List.not_mem_nil, or_false] at hE hi
    rcases hE with rfl | rfl
    · have hJ' : J = [cc 0 1] := by
        simp only [rectangle, List.mem_cons, List.not_mem_nil, or_false] at hq
        rcases hq with rfl | rfl <;> exact (VSet.interval.inj hJ).symm
      subst hJ'
      rcases hi with rfl | rfl
      · left; simp
      · right
        intro j hj x hx
        rw [List.mem_singleton.1 hj] at hx
        exact cc_apart ⟨hx.2, hx.1⟩
    · have hJ' : J = [cc 2 3] := by
        simp only [rectangle, List.mem_cons, List.not_mem_nil, or_false] at hq
        rcases hq with rfl | rfl <;> exact (VSet.interval.inj hJ).symm
      subst hJ'
      rcases hi with rfl | rfl
      · right
        intro j hj x hx
        rw [List.mem_singleton.1 hj] at hx
        exact cc_apart hx
      · left; simp

end PM.Props
