import Verif.Circuit.CondReady
import Verif.Spec.Evidence

/-!
# Conditioning keeps the kind of a leaf; open intervals
-/

namespace PM

open Classical MeasureTheory ProbabilityTheory Spec Leaf Props

theorem proper_of_open {d : Leaf} {A : VSet} (hd : d.Valid) (hnd : ∀ v l c, d ≠ .dirac v l c) (h : HasDensity d → OneOpen A) :
    ProperOn d A := by
  have key : ∀ s : SimpleInterval, s.lower < s.upper → ∀ lo hi, ¬ (s.inter ⟨lo, hi, .opn, .opn⟩).IsSingleton := by
    rintro s hs lo hi ⟨h1, h2, h3⟩
    simp only [SimpleInterval.inter] at h1 h2 h3
    have hb : ∀ b : Bound, SimpleInterval.meetBound b .opn = .opn := fun b => by cases b <;> rfl
    rw [hb] at h2 h3
    by_cases a1 : s.lower = lo
    · rw [if_pos a1] at h2; cases h2
    by_cases a2 : s.lower < lo
    · rw [if_neg a1, if_pos a2] at h2; cases h2
    by_cases b1 : s.upper = hi
    · rw [if_pos b1] at h3; cases h3
    by_cases b2 : s.upper < hi
    · rw [max_eq_left (not_lt.1 a2), min_eq_left b2.le] at h1
      exact hs.ne h1
    · rw [if_neg b1, if_neg b2] at h3; cases h3
  cases d with
  | symbolic v p => trivial
  | integer v p => trivial
  | dirac v l c => exact (hnd v l c rfl).elim
  | uniform v lo hi l r =>
    obtain ⟨a, b, rfl⟩ := h trivial
    intro s hs i hi
    rw [List.mem_singleton.1 hi]
    exact key s (support_lt hd trivial hs) a b
  | gaussian v μ σ =>
    obtain ⟨a, b, rfl⟩ := h trivial
    intro s hs i hi
    rw [List.mem_singleton.1 hi]
    exact key s (support_lt hd trivial hs) a b
  | truncGaussian v J μ σ =>
    obtain ⟨a, b, rfl⟩ := h trivial
    intro s hs i hi
    rw [List.mem_singleton.1 hi]
    exact key s (support_lt hd trivial hs) a b

theorem oneInterval_of_open {d : Leaf} {A : VSet} (hnd : ∀ v l c, d ≠ .dirac v l c) (h : HasDensity d → OneOpen A) :
    OneIntervalOn d A := by
  have key : ∀ d : Leaf, d.Continuous → ∀ lo hi L, d.support.inter (.interval [⟨lo, hi, .opn, .opn⟩]) = .interval L → L.length ≤ 1 := by
    intro d hc lo hi L hL
    obtain ⟨s, hs⟩ := support_single hc
    rw [hs] at hL
    simp only [VSet.inter, VSet.interval.injEq] at hL
    rw [← hL]
    exact (List.length_filter_le _ _).trans (by simp)
  cases d with
  | symbolic v p => trivial
  | integer v p => trivial
  | dirac v l c => exact (hnd v l c rfl).elim
  | uniform v lo hi l r =>
    obtain ⟨a, b, rfl⟩ := h trivial
    exact key (.uniform v lo hi l r) trivial a b
  | gaussian v μ σ =>
    obtain ⟨a, b, rfl⟩ := h trivial
    exact key (.gaussian v μ σ) trivial a b
  | truncGaussian v J μ σ =>
    obtain ⟨a, b, rfl⟩ := h trivial
    exact key (.truncGaussian v J μ σ) trivial a b

theorem condSimple_kind {d : Leaf} {K : SimpleInterval} (hK : ¬ K.IsSingleton) {r : Leaf × LogP} (h : d.condSimple K = .ok r) :
    HasDensity r.1 ∧ HasDensity d := by
  cases d <;> simp only [condSimple, if_neg hK, reduceCtorEq, Except.ok.injEq] at h <;> subst h <;> exact ⟨trivial, trivial⟩

/-- Conditioning a leaf on a set that cuts out no single points keeps its kind. -/
theorem condInPlace_kind {d d' : Leaf} {A : VSet} {p : LogP} (hp : ProperOn d A) (h : d.condInPlace A = .ok (.one d' p)) :
    (HasDensity d' → HasDensity d) ∧ ∀ v l c, d' ≠ .dirac v l c := by
  have disc : ∀ {mk : List (ℤ × ℝ) → Leaf} {kept : List (ℤ × ℝ)}, d.logConditional A = .ok (discreteCond mk kept) →
      (match d.logConditional A with
        | .error e => .error e
        | .ok (none, _) => .ok .impossible
        | .ok (some d', p) => .ok (.one d' p) : Except PyErr LeafCond) = .ok (.one d' p) → ∃ l, d' = mk l := by
    intro mk kept h1 h2
    rw [h1, discreteCond] at h2
    by_cases h0 : (kept.map Prod.snd).sum = 0
    · rw [if_pos h0] at h2
      cases h2
    · rw [if_neg h0] at h2
      cases h2
      exact ⟨_, rfl⟩
  have cont : d.Continuous → (∀ I, A = .interval I → ∀ s, d.support = .interval [s] → ∀ i ∈ I, ¬ (s.inter i).IsSingleton) → ∀ I, A = .interval I →
      (match d.support.inter (.interval I) with
      | .symbols _ => .error .typeError
      | .interval [] => .ok .impossible
      | .interval [K] => (d.condSimple K).map fun r => .one r.1 r.2
      | .interval Ks => do
        let ps ← Ks.mapM d.condSimple
        match ps.filter fun q => 0 < q.2.exp with
        | [] => .ok .impossible
        | q :: qs => .ok (.several (q :: qs)) : Except PyErr LeafCond) = .ok (.one d' p) → HasDensity d' := by
    intro hc hs I hI hx
    obtain ⟨s, hsup⟩ := support_single hc
    have hL : ∃ L, d.support.inter (.interval I) = .interval L ∧ ∀ K ∈ L, ¬ K.IsSingleton := by
      rw [hsup]
      refine ⟨_, rfl, fun K hK => ?_⟩
      have := (List.mem_filter.1 hK).1
      simp only [List.flatMap_cons, List.flatMap_nil, List.append_nil] at this
      obtain ⟨i, hi, rfl⟩ := List.mem_map.1 this
      exact hs I hI s hsup i hi
    obtain ⟨L, hL1, hL2⟩ := hL
    rw [hL1] at hx
    match L, hL2, hx with
    | [], _, hx => cases hx
    | [K], hL2, hx =>
      cases hk : d.condSimple K with
      | error e => simp only [hk] at hx; cases hx
      | ok q =>
        simp only [hk] at hx
        cases hx
        exact (condSimple_kind (hL2 K (by simp)) hk).1
    | K₁ :: K₂ :: Ks, _, hx =>
      exfalso
      simp only [bind, Except.bind] at hx
      split at hx
      · cases hx
      · split at hx <;> cases hx
  cases d with
  | symbolic v ps =>
    cases A with
    | interval I => simp [condInPlace, logConditional] at h
    | symbols S =>
      obtain ⟨l, rfl⟩ := disc (mk := symbolic v) rfl h
      exact ⟨fun h => h.elim, fun _ _ _ h => by cases h⟩
  | integer v ps =>
    cases A with
    | symbols S => simp [condInPlace, logConditional] at h
    | interval I =>
      obtain ⟨l, rfl⟩ := disc (mk := integer v) rfl h
      exact ⟨fun h => h.elim, fun _ _ _ h => by cases h⟩
  | dirac v l c => exact absurd hp id
  | uniform v lo hi l r =>
    cases A with
    | symbols S => simp [condInPlace] at h
    | interval I =>
      have := cont trivial (fun J hJ s hs i hi => hp s hs i (by injection hJ with hJ; rw [hJ]; exact hi)) I rfl h
      exact ⟨fun _ => trivial, fun v l c h => by rw [h] at this; exact this⟩
  | gaussian v μ σ =>
    cases A with
    | symbols S => simp [condInPlace] at h
    | interval I =>
      have := cont trivial (fun J hJ s hs i hi => hp s hs i (by injection hJ with hJ; rw [hJ]; exact hi)) I rfl h
      exact ⟨fun _ => trivial, fun v l c h => by rw [h] at this; exact this⟩
  | truncGaussian v J μ σ =>
    cases A with
    | symbols S => simp [condInPlace] at h
    | interval I =>
      have := cont trivial (fun J hJ s hs i hi => hp s hs i (by injection hJ with hJ; rw [hJ]; exact hi)) I rfl h
      exact ⟨fun _ => trivial, fun v l c h => by rw [h] at this; exact this⟩

end PM
