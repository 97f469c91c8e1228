import Verif.Circuit.CondReady

/-! Helper lemmas for C97: the densities of conditioned leaves. -/

namespace PM

open Classical Spec MeasureTheory Leaf Props

/-- The density of a discrete leaf is the probability of the single value. -/
theorem discrete_density_real (probs : List (ℤ × ℝ)) (hp : ∀ kp ∈ probs, 0 ≤ kp.2) (x : ℝ) :
    ((probs.filter fun kp => (kp.1 : ℝ) = x).map Prod.snd).sum
      = ((probs.map fun kp => ENNReal.ofReal kp.2 • Measure.dirac (kp.1 : ℝ)).sum).real {x} := by
  rw [discrete_real probs hp (measurableSet_singleton x)]
  clear hp
  induction probs with
  | nil => rfl
  | cons a l ih =>
    by_cases h : (a.1 : ℝ) = x
    · rw [List.filter_cons_of_pos (by simpa using h), List.map_cons, List.sum_cons, List.map_cons, List.sum_cons, ih]
      simp [h]
    · rw [List.filter_cons_of_neg (by simpa using h), List.map_cons, List.sum_cons, ih]
      simp [h]

/-- Conditioning a leaf in place cuts its density off and divides it by the probability; an impossible set contains no point of positive
density. -/
theorem condInPlace_density {d : Leaf} {A : VSet} (hd : d.Valid) (hf : Fits d A) (hA : A.Disjoint) (hp : ProperOn d A) :
    (∀ d' p, d.condInPlace A = .ok (.one d' p) → ∀ x,
      leafDensity d' x = if x ∈ A.toSet then leafDensity d x / (leafLaw d).real A.toSet else 0) ∧
    ((leafLaw d).real A.toSet = 0 → ∀ x ∈ A.toSet, leafDensity d x = 0) := by
  have hfin := finite_leafLaw hd
  have discrete : (∀ x, leafDensity d x = (leafLaw d).real {x}) →
      (∀ d' p, d.condInPlace A = .ok (.one d' p) → ∀ x, leafDensity d' x = (leafLaw d').real {x}) →
      (∀ d' p, d.condInPlace A = .ok (.one d' p) → ∀ x,
        leafDensity d' x = if x ∈ A.toSet then leafDensity d x / (leafLaw d).real A.toSet else 0) ∧
      ((leafLaw d).real A.toSet = 0 → ∀ x ∈ A.toSet, leafDensity d x = 0) := by
    intro h1 h2
    obtain ⟨c, hc, hspec⟩ := condInPlace_spec hd hf hA hp
    constructor
    · intro d' p h x
      rw [h2 d' p h x]
      rw [h] at hc
      injection hc with hc
      subst hc
      rw [hspec.2.2.2.2.2.2 _ (measurableSet_singleton x)]
      by_cases hx : x ∈ A.toSet
      · rw [if_pos hx, h1, Set.inter_eq_right.2 (Set.singleton_subset_iff.2 hx)]
      · rw [if_neg hx, Set.inter_singleton_eq_empty.2 hx]
        simp
    · intro h0 x hx
      rw [h1]
      exact le_antisymm (h0 ▸ measureReal_mono (Set.singleton_subset_iff.2 hx)) measureReal_nonneg
  have cont : d.Continuous → (∀ s I, d.support = .interval [s] → A = .interval I → ∀ i ∈ I, ¬ (s.inter i).IsSingleton) →
      (∃ I, A = .interval I) → (∀ I, d.condInPlace (.interval I) = match d.support.inter (.interval I) with
      | .symbols _ => .error .typeError
      | .interval [] => .ok .impossible
      | .interval [K] => (d.condSimple K).map fun r => .one r.1 r.2
      | .interval Ks => do
        let ps ← Ks.mapM d.condSimple
        match ps.filter fun q => 0 < q.2.exp with
        | [] => .ok .impossible
        | q :: qs => .ok (.several (q :: qs))) →
      (∀ d' p, d.condInPlace A = .ok (.one d' p) → ∀ x,
        leafDensity d' x = if x ∈ A.toSet then leafDensity d x / (leafLaw d).real A.toSet else 0) ∧
      ((leafLaw d).real A.toSet = 0 → ∀ x ∈ A.toSet, leafDensity d x = 0) := by
    intro hc hsing ⟨I, hI⟩ hdef
    obtain ⟨s, hs⟩ := support_single hc
    subst hI
    set Ks := (I.map fun j => s.inter j).filter fun k => ¬ k.IsEmpty with hKs
    have hinter : d.support.inter (.interval I) = .interval Ks := by
      rw [hs]; simp [VSet.inter, hKs]
    have hset : (VSet.interval Ks).toSet = d.support.toSet ∩ (VSet.interval I).toSet := by
      rw [← hinter, VSet.toSet_inter]
      rw [hs]; trivial
    have hlaw0 : (leafLaw d).real (VSet.interval Ks).toSet = (leafLaw d).real (VSet.interval I).toSet := by
      rw [hset, Set.inter_comm, measureReal_def, measureReal_def, law_inter_support hd hc (VSet.measurableSet_toSet _)]
    have hK : ∀ K ∈ Ks, K.lower < K.upper ∧ K.toSet ⊆ d.support.toSet := by
      intro K hK
      rw [hKs, List.mem_filter] at hK
      obtain ⟨hm, hne⟩ := hK
      obtain ⟨i, hi, rfl⟩ := List.mem_map.1 hm
      refine ⟨SimpleInterval.lower_lt_upper (by simpa using hne) (hsing s I hs rfl i hi), ?_⟩
      intro x hx
      rw [hs]
      exact ⟨s, by simp, ((SimpleInterval.mem_inter s i x).1 hx).1⟩
    clear_value Ks
    constructor
    · intro d' p h x
      rw [hdef, hinter] at h
      match Ks, h, hset, hlaw0, hK with
      | [], h, _, _, _ => cases h
      | [K], h, hset, hlaw0, hK =>
        obtain ⟨d'', lp, h1, _, _, _, _, _, _, h2⟩ := condSimple_density hd hc (hK K (by simp)).1 (hK K (by simp)).2
        simp only [h1, Except.map, Except.ok.injEq, LeafCond.one.injEq] at h
        rw [← h.1, h2 x]
        rw [single_toSet] at hset hlaw0
        rw [← hlaw0, hset]
        by_cases hx : x ∈ (VSet.interval I).toSet
        · rw [if_pos hx]
          by_cases hxs : x ∈ d.support.toSet
          · rw [Set.indicator_of_mem (show x ∈ d.support.toSet ∩ (VSet.interval I).toSet from ⟨hxs, hx⟩)]
          · rw [Set.indicator_of_notMem fun h => hxs h.1, leafDensity_eq_zero hd hxs, zero_div]
        · rw [if_neg hx, Set.indicator_of_notMem fun h => hx h.2]
      | K₁ :: K₂ :: Ks, h, _, _, _ =>
        simp only [bind, Except.bind] at h
        split at h
        · cases h
        · split at h <;> cases h
    · intro h0 x hx
      by_contra hne
      have hxs : x ∈ d.support.toSet := by
        by_contra hxs
        exact hne (leafDensity_eq_zero hd hxs)
      have hxK : x ∈ (VSet.interval Ks).toSet := by rw [hset]; exact ⟨hxs, hx⟩
      obtain ⟨K, hKm, hxm⟩ := hxK
      obtain ⟨_, _, _, _, _, _, _, h6, _⟩ := condSimple_density hd hc (hK K hKm).1 (hK K hKm).2
      have hsub : K.toSet ⊆ (VSet.interval Ks).toSet := fun y hy => ⟨K, hKm, hy⟩
      have := measureReal_mono (μ := leafLaw d) hsub
      rw [hlaw0, h0] at this
      exact absurd h6 (not_lt.2 this)
  cases d with
  | symbolic v l =>
    refine discrete (discrete_density_real l hd.1) ?_
    intro d' p h x
    cases A with
    | interval I => cases h
    | symbols S =>
      obtain ⟨c, hc, hspec⟩ := condInPlace_spec hd hf hA hp
      rw [h] at hc
      injection hc with hc
      subst hc
      simp only [condInPlace, logConditional, discreteCond] at h
      split at h
      · cases h
      · cases h
      · rename_i h1
        split at h1
        · cases h1
        · simp only [Except.ok.injEq, Prod.mk.injEq, Option.some.injEq] at h1
          simp only [Except.ok.injEq, LeafCond.one.injEq] at h
          rw [← h.1, ← h1.1]
          have hv := hspec.2.2.1
          rw [← h.1, ← h1.1] at hv
          exact discrete_density_real _ hv.1 x
  | integer v l =>
    refine discrete (discrete_density_real l hd.1) ?_
    intro d' p h x
    cases A with
    | symbols S => cases h
    | interval I =>
      obtain ⟨c, hc, hspec⟩ := condInPlace_spec hd hf hA hp
      rw [h] at hc
      injection hc with hc
      subst hc
      simp only [condInPlace, logConditional, discreteCond] at h
      split at h
      · cases h
      · cases h
      · rename_i h1
        split at h1
        · cases h1
        · simp only [Except.ok.injEq, Prod.mk.injEq, Option.some.injEq] at h1
          simp only [Except.ok.injEq, LeafCond.one.injEq] at h
          rw [← h.1, ← h1.1]
          have hv := hspec.2.2.1
          rw [← h.1, ← h1.1] at hv
          exact discrete_density_real _ hv.1 x
  | dirac v loc cap => exact absurd hp id
  | uniform v lo hi l r =>
    cases A with
    | symbols S => exact absurd hf id
    | interval I => exact cont trivial (fun s I' hs hI => by cases hI; exact hp s hs) ⟨I, rfl⟩ fun _ => rfl
  | gaussian v μ σ =>
    cases A with
    | symbols S => exact absurd hf id
    | interval I => exact cont trivial (fun s I' hs hI => by cases hI; exact hp s hs) ⟨I, rfl⟩ fun _ => rfl
  | truncGaussian v J μ σ =>
    cases A with
    | symbols S => exact absurd hf id
    | interval I => exact cont trivial (fun s I' hs hI => by cases hI; exact hp s hs) ⟨I, rfl⟩ fun _ => rfl

variable {g : Circuit} {r : Node} {sc : Node → Finset Var} {dom : Var → VSet} {E : SimpleEvent}

open Graph in
/-- The densities of the new leaves of a conditional circuit at a point of the domain. -/
theorem newLeaf_density (hL : Layered g r) (hs : Scoped g sc) (hv : ∀ n d, g.kind? n = some (.leaf d) → d.Valid)
    (hdom : DomainFor g dom) (hE : EventFor g (sc r) E) (hpr : ProperEvent g dom E) (hone : OneInterval g dom E)
    {x : Var → ℝ} (hx : ∀ v ∈ sc r, v ∉ E.keys → x v ∈ (dom v).toSet) {n : Node} {d : Leaf} (hk : g.kind? n = some (.leaf d)) :
    ((leafLaw d).real (allowed E d.var) ≠ 0 →
      leafDensity (newLeaf (E.fillMissing dom ((sc r).sort (· ≤ ·))) d) (x (newLeaf (E.fillMissing dom ((sc r).sort (· ≤ ·))) d).var) =
        (if x d.var ∈ allowed E d.var then leafDensity d (x d.var) else 0) / (leafLaw d).real (allowed E d.var)) ∧
    ((leafLaw d).real (allowed E d.var) = 0 → x d.var ∈ allowed E d.var → leafDensity d (x d.var) = 0) := by
  have hU := unsplit_ready hL hs hv hdom hE hpr hone
  have hreach := reachable_of_root hL.wf hL.graded.acyclic hL.root n (mem_ids_of_kind? hk)
  have hdr : d.var ∈ sc r := scope_mono hL.wf hL.leaves hs (root_mem hL.root).1 hreach (by simp [hs.leaf n d hk])
  have hfin := finite_leafLaw (hv n d hk)
  -- the set of the own variable, and what it has to do with the event
  have hset : ∃ A, (E.fillMissing dom ((sc r).sort (· ≤ ·))).get d.var = .ok A ∧ Fits d A ∧ A.Disjoint ∧ ProperOn d A ∧
      (leafLaw d).real A.toSet = (leafLaw d).real (allowed E d.var) ∧ (x d.var ∈ A.toSet ↔ x d.var ∈ allowed E d.var) := by
    rcases fill_get (dom := dom) hE.nodup (show d.var ∈ (sc r).sort (· ≤ ·) by simpa using hdr) with
      ⟨q, hq, hqv, hget⟩ | ⟨hnk, hget⟩
    · refine ⟨q.2, hget, hE.fits q hq n d hk hqv.symm, hE.disjoint q hq, hpr.event q hq n d hk hqv.symm, ?_⟩
      rw [← hqv, allowed_of_mem hE.nodup hq]
      exact ⟨rfl, Iff.rfl⟩
    · refine ⟨dom d.var, hget, hdom.fits n d hk, hdom.disjoint _, hpr.domain n d hk, ?_, ?_⟩
      · rw [allowed_of_not_mem hnk, measureReal_def, measureReal_def]
        congr 1
        refine le_antisymm (measure_mono (Set.subset_univ _)) ?_
        rw [← Set.union_compl_self (dom d.var).toSet]
        refine (measure_union_le _ _).trans ?_
        rw [hdom.covers n d hk, add_zero]
      · rw [allowed_of_not_mem hnk]
        exact ⟨fun _ => trivial, fun _ => hx _ hdr hnk⟩
  obtain ⟨A, hget, hf, hA, hp, hreal, hmem⟩ := hset
  obtain ⟨h1, h2⟩ := condInPlace_density (hv n d hk) hf hA hp
  constructor
  · intro h0
    obtain ⟨A', c, h3, h4, h5, h6⟩ := hU n d hk
    rw [hget] at h3
    injection h3 with h3
    subst h3
    cases c with
    | impossible => exact absurd h5 h0
    | several ps => exact absurd rfl (h6 ps)
    | one d' p =>
      have hnew : newLeaf (E.fillMissing dom ((sc r).sort (· ≤ ·))) d = d' := by simp [newLeaf, hget, h4]
      rw [newLeaf_var hU hk, hnew, h1 d' p h4, hreal]
      simp only [hmem]
      split
      · rfl
      · rw [zero_div]
  · intro h0 hxm
    exact h2 (hreal.trans h0) _ (hmem.2 hxm)

end PM
