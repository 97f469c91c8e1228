import Verif.Circuit.CondBalanced
import Verif.Circuit.ProbLemmas
import Verif.Events.Algebra

/-! Helper lemmas for C07 and C08: events and leaves. -/

namespace PM

open Spec MeasureTheory Graph

theorem condSpec_congr {d : Leaf} {S T : Set ℝ}
    (h : ∀ X, MeasurableSet X → (leafLaw d).real (S ∩ X) = (leafLaw d).real (T ∩ X)) {c : LeafCond} (hc : CondSpec d S c) :
    CondSpec d T c := by
  have h0 : (leafLaw d).real S = (leafLaw d).real T := by
    have := h Set.univ MeasurableSet.univ
    rwa [Set.inter_univ, Set.inter_univ] at this
  cases c with
  | impossible =>
    change (leafLaw d).real T = 0
    rw [← h0]; exact hc
  | several ps => simpa only [CondSpec, h0] using hc
  | one d' p =>
    obtain ⟨h1, h2, h3, h4, h5, h6, h7⟩ := hc
    refine ⟨h0 ▸ h1, h0 ▸ h2, h3, h4, h5, h6, fun X hX => ?_⟩
    rw [h7 X hX, h X hX, h0]

theorem pieces_not_several {d : Leaf} {I : List SimpleInterval} {ps : List (Leaf × LogP)}
    (hd : ∀ L, d.support.inter (.interval I) = .interval L → L.length ≤ 1) :
    (match d.support.inter (.interval I) with
      | .symbols _ => .error .typeError
      | .interval [] => .ok .impossible
      | .interval [K] => (d.condSimple K).map fun r => .one r.1 r.2
      | .interval Ks => do
        let ps ← Ks.mapM d.condSimple
        match ps.filter fun q => 0 < q.2.exp with
        | [] => .ok .impossible
        | q :: qs => .ok (.several (q :: qs)) : Except PyErr LeafCond) ≠ .ok (.several ps) := by
  intro hx
  cases hi : d.support.inter (.interval I) with
  | symbols S => rw [hi] at hx; cases hx
  | interval L =>
    have hl := hd L hi
    rw [hi] at hx
    match L, hl, hx with
    | [], _, hx => cases hx
    | [K], _, hx =>
      cases hk : d.condSimple K with
      | error e => simp only [hk] at hx; cases hx
      | ok q => simp only [hk] at hx; cases hx
    | _ :: _ :: _, hl, _ => simp at hl

theorem condInPlace_not_several {d : Leaf} {A : VSet} (h : OneIntervalOn d A) {c : LeafCond} (hc : d.condInPlace A = .ok c) :
    ∀ ps, c ≠ .several ps := by
  rintro ps rfl
  have hdisc : ∀ {d : Leaf}, (match d.logConditional A with
      | .error e => .error e
      | .ok (none, _) => .ok .impossible
      | .ok (some d', p) => .ok (.one d' p) : Except PyErr LeafCond) ≠ .ok (.several ps) := by
    intro d hx
    split at hx <;> cases hx
  cases d with
  | symbolic v l => exact hdisc hc
  | integer v l => exact hdisc hc
  | uniform | gaussian | truncGaussian | dirac =>
    cases A with
    | symbols S => cases hc
    | interval I => exact pieces_not_several h hc

variable {g : Circuit} {r : Node} {sc : Node → Finset Var} {dom : Var → VSet} {E F : SimpleEvent}

/-- Every leaf can be conditioned on its part of the event. -/
theorem leaf_ready (hL : Layered g r) (hs : Scoped g sc) (hv : ∀ n d, g.kind? n = some (.leaf d) → d.Valid)
    (hdom : DomainFor g dom) (hE : EventFor g (sc r) E) (hpr : ProperEvent g dom E) :
    ∀ n d, g.kind? n = some (.leaf d) → ∃ A c, (E.fillMissing dom ((sc r).sort (· ≤ ·))).get d.var = .ok A ∧
      d.condInPlace A = .ok c ∧ CondSpec d (allowed E d.var) c ∧
      ((∃ p ∈ E, d.var = p.1 ∧ A = p.2) ∨ A = dom d.var) := by
  intro n d hk
  have hreach := reachable_of_root hL.wf hL.graded.acyclic hL.root n (mem_ids_of_kind? hk)
  have hd : d.var ∈ sc r := scope_mono hL.wf hL.leaves hs (root_mem hL.root).1 hreach (by simp [hs.leaf n d hk])
  rcases fill_get (dom := dom) hE.nodup (show d.var ∈ (sc r).sort (· ≤ ·) by simpa using hd) with
    ⟨q, hq, hqv, hget⟩ | ⟨hnk, hget⟩
  · obtain ⟨c, h1, h2⟩ := condInPlace_spec (hv n d hk) (hE.fits q hq n d hk hqv.symm) (hE.disjoint q hq)
      (hpr.event q hq n d hk hqv.symm)
    refine ⟨q.2, c, hget, h1, ?_, .inl ⟨q, hq, hqv.symm, rfl⟩⟩
    rw [← hqv, allowed_of_mem hE.nodup hq]; exact h2
  · obtain ⟨c, h1, h2⟩ := condInPlace_spec (hv n d hk) (hdom.fits n d hk) (hdom.disjoint _) (hpr.domain n d hk)
    refine ⟨dom d.var, c, hget, h1, ?_, .inr rfl⟩
    refine condSpec_congr (fun X hX => ?_) h2
    rw [allowed_of_not_mem hnk, Set.univ_inter, measureReal_def, measureReal_def]
    congr 1
    have h0 := hdom.covers n d hk
    refine le_antisymm (measure_mono Set.inter_subset_right) ?_
    calc leafLaw d X ≤ leafLaw d ((dom d.var).toSet ∩ X) + leafLaw d ((dom d.var).toSetᶜ) := by
          refine (measure_mono ?_).trans (measure_union_le _ _)
          intro x hx
          by_cases h : x ∈ (dom d.var).toSet
          · exact .inl ⟨h, hx⟩
          · exact .inr h
      _ = _ := by rw [h0, add_zero]

/-- … and does not fall into several pieces. -/
theorem unsplit_ready (hL : Layered g r) (hs : Scoped g sc) (hv : ∀ n d, g.kind? n = some (.leaf d) → d.Valid)
    (hdom : DomainFor g dom) (hE : EventFor g (sc r) E) (hpr : ProperEvent g dom E) (hone : OneInterval g dom E) :
    Unsplit g (E.fillMissing dom ((sc r).sort (· ≤ ·))) (allowed E) := by
  intro n d hk
  obtain ⟨A, c, h1, h2, h3, h4⟩ := leaf_ready hL hs hv hdom hE hpr n d hk
  refine ⟨A, c, h1, h2, h3, condInPlace_not_several ?_ h2⟩
  rcases h4 with ⟨p, hp, hpv, rfl⟩ | rfl
  · exact hone.event p hp n d hk hpv
  · exact hone.domain n d hk

theorem fits_sameType {d : Leaf} {A B : VSet} (hA : Fits d A) (hB : Fits d B) : VSet.SameType A B := by
  cases A <;> cases B <;> cases d <;> simp_all [Fits, VSet.SameType]

theorem fits_inter {d : Leaf} {A B : VSet} (hA : Fits d A) (hB : Fits d B) : Fits d (A.inter B) := by
  cases A <;> cases B <;> cases d <;> simp_all [Fits, VSet.inter]

/-- Every variable of a circuit occurs in a leaf. -/
theorem exists_leaf_var (hL : Layered g r) (hs : Scoped g sc) {v : Var} (hv : v ∈ sc r) :
    ∃ n d, g.kind? n = some (.leaf d) ∧ d.var = v := by
  have key : ∀ n, n ∈ g.ids → v ∈ sc n → ∃ n d, g.kind? n = some (.leaf d) ∧ d.var = v := by
    refine hL.graded.acyclic.induct ?_
    intro n ih hn hvn
    obtain ⟨k, hk⟩ := exists_kind? hn
    cases k with
    | leaf d =>
      rw [hs.leaf n d hk, Finset.mem_singleton] at hvn
      exact ⟨n, d, hk, hvn.symm⟩
    | sum =>
      obtain ⟨c, hc⟩ := List.exists_mem_of_ne_nil _ (hs.sumNe n hk)
      exact ih c hc (succ_mem_ids hL.wf hc) (by rw [hs.sum n hk c hc]; exact hvn)
    | prod =>
      obtain ⟨c, hc, hcv⟩ := (hs.prod n hk v).1 hvn
      exact ih c hc (succ_mem_ids hL.wf hc) hcv
  exact key r (root_mem hL.root).1 hv

theorem compatible_of (hL : Layered g r) (hs : Scoped g sc) (hE : EventFor g (sc r) E) (hF : EventFor g (sc r) F) :
    E.Compatible F := by
  intro a ha b hb hab
  obtain ⟨n, d, hk, hd⟩ := exists_leaf_var hL hs (hE.keys a.1 (List.mem_map.2 ⟨a, ha, rfl⟩))
  exact fits_sameType (hE.fits a ha n d hk hd) (hF.fits b hb n d hk (hd.trans hab))

theorem eventFor_inter (hL : Layered g r) (hs : Scoped g sc) (hE : EventFor g (sc r) E) (hF : EventFor g (sc r) F) :
    EventFor g (sc r) (E.inter F) := by
  have hc := compatible_of hL hs hE hF
  refine ⟨?_, ?_, ?_, ?_⟩
  · rw [SimpleEvent.keys_inter, List.nodup_append]
    refine ⟨hE.nodup, hF.nodup.filter _, ?_⟩
    intro a ha b hb hab
    subst hab
    have := (List.mem_filter.1 hb).2
    simp [ha] at this
  · intro v hv
    rw [SimpleEvent.keys_inter, List.mem_append] at hv
    rcases hv with hv | hv
    · exact hE.keys v hv
    · exact hF.keys v (List.mem_filter.1 hv).1
  · intro p hp
    rcases (SimpleEvent.mem_inter_iff hF.nodup).1 hp with ⟨a, ha, b, hb, hab, rfl⟩ | ⟨h, _⟩ | ⟨h, _⟩
    · exact (hE.disjoint a ha).inter (hF.disjoint b hb) (hc a ha b hb hab)
    · exact hE.disjoint p h
    · exact hF.disjoint p h
  · intro p hp n d hk hd
    rcases (SimpleEvent.mem_inter_iff hF.nodup).1 hp with ⟨a, ha, b, hb, hab, rfl⟩ | ⟨h, _⟩ | ⟨h, _⟩
    · exact fits_inter (hE.fits a ha n d hk hd) (hF.fits b hb n d hk (hd.trans hab))
    · exact hE.fits p h n d hk hd
    · exact hF.fits p h n d hk hd

theorem allowed_inter (hF : F.keys.Nodup) (hc : E.Compatible F) (v : Var) :
    allowed (E.inter F) v = allowed E v ∩ allowed F v := by
  ext t
  simp only [allowed, Set.mem_inter_iff, Set.mem_ofPred_eq]
  constructor
  · intro h
    refine ⟨fun a ha hav => ?_, fun b hb hbv => ?_⟩
    · by_cases hk : a.1 ∈ F.keys
      · obtain ⟨b, hb, hba⟩ := List.mem_map.1 hk
        have := h _ ((SimpleEvent.mem_inter_iff hF).2 (.inl ⟨a, ha, b, hb, hba.symm, rfl⟩)) hav
        exact ((VSet.mem_inter (hc a ha b hb hba.symm) _).1 this).1
      · exact h a ((SimpleEvent.mem_inter_iff hF).2 (.inr (.inl ⟨ha, hk⟩))) hav
    · by_cases hk : b.1 ∈ E.keys
      · obtain ⟨a, ha, hab⟩ := List.mem_map.1 hk
        have := h _ ((SimpleEvent.mem_inter_iff hF).2 (.inl ⟨a, ha, b, hb, hab, rfl⟩)) (hab.trans hbv)
        exact ((VSet.mem_inter (hc a ha b hb hab) _).1 this).2
      · exact h b ((SimpleEvent.mem_inter_iff hF).2 (.inr (.inr ⟨hb, hk⟩))) hbv
  · rintro ⟨h1, h2⟩ p hp hpv
    rcases (SimpleEvent.mem_inter_iff hF).1 hp with ⟨a, ha, b, hb, hab, rfl⟩ | ⟨h, _⟩ | ⟨h, _⟩
    · exact (VSet.mem_inter (hc a ha b hb hab) _).2 ⟨h1 a ha hpv, h2 b hb (hab.symm.trans hpv)⟩
    · exact h1 p h hpv
    · exact h2 p h hpv

end PM
