import Verif.Learn.NygaLemmas

/-!
# The loop of `NygaDistribution.fit`
-/

namespace PM.Learn.Nyga

open Classical Graph Spec

/-- Index ranges that follow one another from `a` to `c`. -/
inductive Segs : ℕ → ℕ → List (ℕ × ℕ) → Prop
  | nil (a : ℕ) : Segs a a []
  | cons {a b c : ℕ} {l : List (ℕ × ℕ)} : a < b → Segs b c l → Segs a c ((a, b) :: l)

theorem Segs.le {a c : ℕ} {l : List (ℕ × ℕ)} (h : Segs a c l) : a ≤ c := by
  induction h with
  | nil => exact le_rfl
  | cons h1 _ ih => omega

theorem Segs.bounds {a c : ℕ} {l : List (ℕ × ℕ)} (h : Segs a c l) : ∀ s ∈ l, a ≤ s.1 ∧ s.1 < s.2 ∧ s.2 ≤ c := by
  induction h with
  | nil => simp
  | cons h1 h2 ih =>
    intro s hs
    rcases List.mem_cons.1 hs with rfl | hs
    · exact ⟨le_rfl, h1, h2.le⟩
    · have := ih s hs
      exact ⟨by omega, this.2.1, this.2.2⟩

theorem Segs.pairwise {a c : ℕ} {l : List (ℕ × ℕ)} (h : Segs a c l) : l.Pairwise fun s t => s.2 ≤ t.1 := by
  induction h with
  | nil => exact List.Pairwise.nil
  | cons h1 h2 ih => exact List.Pairwise.cons (fun t ht => (h2.bounds t ht).1) ih

theorem Segs.split {a c : ℕ} {l : List (ℕ × ℕ)} (h : Segs a c l) {s : ℕ × ℕ} (hs : s ∈ l) {k : ℕ} (h1 : s.1 < k) (h2 : k < s.2) :
    ∃ l1 l2, l = l1 ++ s :: l2 ∧ Segs a c (l1 ++ (s.1, k) :: (k, s.2) :: l2) := by
  induction h with
  | nil => simp at hs
  | cons h3 h4 ih =>
    rename_i a b c l
    rcases List.mem_cons.1 hs with rfl | hs
    · exact ⟨[], l, rfl, Segs.cons h1 (Segs.cons h2 h4)⟩
    · obtain ⟨l1, l2, rfl, h5⟩ := ih hs
      exact ⟨(a, b) :: l1, l2, rfl, Segs.cons h3 h5⟩

theorem Segs.mass (ws : List ℝ) {a c : ℕ} {l : List (ℕ × ℕ)} (h : Segs a c l) :
    (l.map fun s => massOf ws s.1 s.2).sum = massOf ws a c := by
  induction h with
  | nil => simp [massOf]
  | cons h1 h2 ih =>
    rw [List.map_cons, List.sum_cons, ih]
    unfold massOf
    exact Finset.sum_Ico_consecutive _ h1.le h2.le

/-- The rounds the steps in the queue can still cause. -/
def rounds (q : List (ℕ × ℕ)) : ℕ := (q.map fun s => 2 * (s.2 - s.1) - 1).sum

/-- A step as a pair of natural numbers. -/
def toStep (s : ℕ × ℕ) : Step := ⟨s.1, s.2⟩

variable {data ws : List ℝ} {P : Params}

/-- The entry of the mixture for a quantile. -/
noncomputable def entry (v : Var) (data ws : List ℝ) (n : Node) (s : ℕ × ℕ) : Node × Leaf × LogP :=
  (n, quantile v data s, quantileWeight ws s)

/-- No admissible split of the range raises the likelihood by more than the required factor. -/
def NoBetter (P : Params) (data ws : List ℝ) (s : ℕ × ℕ) : Prop :=
  ∀ j : ℕ, s.1 + P.minSamples ≤ j → j + P.minSamples ≤ s.2 →
    Real.exp (splitScore data ws s.1 s.2 j - uniformScore data ws 1 s.1 s.2) ≤ P.minImprovement

theorem loop_eq (h : Fine data ws) (hm : 1 ≤ P.minSamples) (ht : 0 ≤ P.minImprovement) :
    ∀ (fuel : ℕ) (q : List (ℕ × ℕ)) (E : List (Node × (ℕ × ℕ))), rounds q ≤ fuel →
      FreshIds 0 (E.map fun x => entry P.var data ws x.1 x.2) → (∀ x ∈ E, NoBetter P data ws x.2) →
      (∃ ch, Segs 0 data.length ch ∧ (q ++ E.map Prod.snd).Perm ch ∧
        (∀ s ∈ ch, s = (0, data.length) ∨ (s.1 : ℤ) + P.minSamples ≤ s.2)) →
      ∃ E' : List (Node × (ℕ × ℕ)),
        loop P (arrays data ws) fuel (q.map toStep) (leafMix 0 (E.map fun x => entry P.var data ws x.1 x.2))
          = .ok (leafMix 0 (E'.map fun x => entry P.var data ws x.1 x.2)) ∧
        FreshIds 0 (E'.map fun x => entry P.var data ws x.1 x.2) ∧ (∀ x ∈ E', NoBetter P data ws x.2) ∧
        ∃ ch, Segs 0 data.length ch ∧ (E'.map Prod.snd).Perm ch ∧
          (∀ s ∈ ch, s = (0, data.length) ∨ (s.1 : ℤ) + P.minSamples ≤ s.2) := by
  intro fuel
  induction fuel with
  | zero =>
    intro q E hq hE hNB hch
    have hq0 : q = [] := by
      cases q with
      | nil => rfl
      | cons s q =>
        exfalso
        obtain ⟨ch, h1, h2, _⟩ := hch
        have := h1.bounds s (h2.mem_iff.1 (by simp))
        simp only [rounds, List.map_cons, List.sum_cons] at hq
        omega
    subst hq0
    exact ⟨E, rfl, hE, hNB, by simpa using hch⟩
  | succ fuel ih =>
    intro q E hq hE hNB hch
    cases q with
    | nil => exact ⟨E, rfl, hE, hNB, by simpa using hch⟩
    | cons s q =>
      obtain ⟨ch, h1, h2, h3⟩ := hch
      have hmem : s ∈ ch := h2.mem_iff.1 (by simp)
      obtain ⟨_, hs1, hs2⟩ := h1.bounds s hmem
      simp only [rounds, List.map_cons, List.sum_cons] at hq
      have hstep : ∀ new g', induce P (arrays data ws) (toStep s) (leafMix 0 (E.map fun x => entry P.var data ws x.1 x.2))
          = .ok (new, g') → loop P (arrays data ws) (fuel + 1) ((s :: q).map toStep)
            (leafMix 0 (E.map fun x => entry P.var data ws x.1 x.2)) = loop P (arrays data ws) fuel (q.map toStep ++ new) g' := by
        intro new g' hi
        rw [List.map_cons, loop]
        simp only [bind, Except.bind, hi]
      rcases induce_eq h hm ht hs1 hs2 hE.layered.root with ⟨k, hk1, hk2, hi, _⟩ | ⟨hi, hnb⟩
      · rw [hstep _ _ hi]
        have hq' : q.map toStep ++ [⟨(s.1 : ℤ), (k : ℤ)⟩, ⟨(k : ℤ), (s.2 : ℤ)⟩] = (q ++ [(s.1, k), (k, s.2)]).map toStep := by
          simp [toStep]
        rw [hq']
        obtain ⟨l1, l2, rfl, h5⟩ := h1.split hmem (by omega : s.1 < k) (by omega)
        refine ih _ E ?_ hE hNB ⟨_, h5, ?_, ?_⟩
        · simp only [rounds, List.map_append, List.sum_append, List.map_cons, List.map_nil, List.sum_cons, List.sum_nil]
          omega
        · have h6 : (q ++ E.map Prod.snd).Perm (l1 ++ l2) := by
            have : (s :: (q ++ E.map Prod.snd)).Perm (s :: (l1 ++ l2)) := h2.trans List.perm_middle
            exact this.cons_inv
          have h7 : (q ++ [(s.1, k), (k, s.2)] ++ E.map Prod.snd).Perm ((s.1, k) :: (k, s.2) :: (q ++ E.map Prod.snd)) := by
            rw [List.append_assoc]
            refine List.perm_append_comm.trans ?_
            rw [List.append_assoc]
            simp only [List.cons_append, List.nil_append]
            exact ((List.perm_append_comm).cons _).cons _
          refine h7.trans ?_
          refine ((h6.cons _).cons _).trans ?_
          refine (List.Perm.trans ?_ List.perm_middle.symm)
          exact (List.perm_middle.symm).cons _
        · intro t ht'
          simp only [List.mem_append, List.mem_cons] at ht'
          rcases ht' with ht' | rfl | rfl | ht'
          · exact h3 t (by simp [ht'])
          · right; exact hk1
          · right; exact hk2
          · exact h3 t (by simp [ht'])
      · rw [hstep _ _ hi, List.append_nil]
        set n := (leafMix 0 (E.map fun x => entry P.var data ws x.1 x.2)).fresh with hn
        have happ : (E.map fun x => entry P.var data ws x.1 x.2) ++ [entry P.var data ws n s]
            = (E ++ [(n, s)]).map fun x => entry P.var data ws x.1 x.2 := by simp
        have hg : (leafMix 0 (E.map fun x => entry P.var data ws x.1 x.2)).addSubcircuit
            (newUnit n (.leaf (quantile P.var data (s.1, s.2)))) 0 n (some (quantileWeight ws (s.1, s.2)))
            = leafMix 0 ((E ++ [(n, s)]).map fun x => entry P.var data ws x.1 x.2) := by
          rw [← happ, leafMix_append]
          rfl
        rw [hg]
        refine ih q (E ++ [(n, s)]) ?_ ?_ ?_ ⟨ch, h1, ?_, h3⟩
        · simp only [rounds]; omega
        · rw [← happ]; exact hE.append _ _
        · intro x hx
          rcases List.mem_append.1 hx with hx | hx
          · exact hNB x hx
          · rw [List.mem_singleton.1 hx]; exact hnb
        · rw [List.map_append, ← List.append_assoc]
          refine List.Perm.trans ?_ h2
          exact List.perm_append_comm.trans (by simp)

/-- The circuit of a fit: a mixture with one entry per quantile. -/
theorem fit_arrays (h : Fine data ws) (hm : 1 ≤ P.minSamples) (ht : 0 ≤ P.minImprovement) :
    ∃ E : List (Node × (ℕ × ℕ)),
      (do let g ← loop P (arrays data ws) (2 * data.length) [⟨0, data.length⟩] (newUnit 0 .sum); g.normalize)
        = .ok (leafMix 0 (E.map fun x => entry P.var data ws x.1 x.2)) ∧
      FreshIds 0 (E.map fun x => entry P.var data ws x.1 x.2) ∧ (∀ x ∈ E, NoBetter P data ws x.2) ∧
      ∃ ch, Segs 0 data.length ch ∧ (E.map Prod.snd).Perm ch ∧
        (∀ s ∈ ch, s = (0, data.length) ∨ (s.1 : ℤ) + P.minSamples ≤ s.2) := by
  have h2 := h.two
  obtain ⟨E, h3, h4, hnb, ch, h5, h6, h7⟩ := loop_eq h hm ht (2 * data.length) [(0, data.length)] [] (by simp [rounds])
    FreshIds.nil (by simp) ⟨[(0, data.length)], Segs.cons (by omega) (Segs.nil _), by simp, by simp⟩
  refine ⟨E, ?_, h4, hnb, ch, h5, h6, h7⟩
  have h3' : loop P (arrays data ws) (2 * data.length) [⟨0, data.length⟩] (newUnit 0 .sum)
      = .ok (leafMix 0 (E.map fun x => entry P.var data ws x.1 x.2)) := h3
  simp only [bind, Except.bind, h3']
  have hch : ch ≠ [] := by
    intro h0
    subst h0
    generalize data.length = n at h5 h2
    cases h5
    omega
  refine h4.normalize ?_ ?_
  · intro h0
    have := h6.length_eq
    rw [List.map_eq_nil_iff] at h0
    subst h0
    exact hch (List.length_eq_zero_iff.1 this.symm)
  · have hpos : 0 < ws.sum := by
      have := seg_pos h.pos (i := 0) (j := ws.length) (by rw [h.len]; omega) le_rfl
      rwa [seg_all] at this
    rw [List.map_map]
    have h8 : (E.map ((fun x : Node × Leaf × LogP => x.2.2.exp) ∘ fun x => entry P.var data ws x.1 x.2))
        = (E.map Prod.snd).map fun s => massOf ws s.1 s.2 / ws.sum := by
      rw [List.map_map]
      apply List.map_congr_left
      intro x hx
      simp only [Function.comp, entry, quantileWeight]
      apply LogP.exp_log
      have hb := h5.bounds x.2 (h6.mem_iff.1 (List.mem_map_of_mem hx))
      rw [massOf_eq hb.2.1.le (by rw [h.len]; exact hb.2.2)]
      exact div_nonneg (seg_pos h.pos hb.2.1 (by rw [h.len]; exact hb.2.2)).le hpos.le
    rw [h8, (h6.map _).sum_eq]
    have h9 : (ch.map fun s => massOf ws s.1 s.2 / ws.sum).sum = (ch.map fun s => massOf ws s.1 s.2).sum / ws.sum := by
      simp only [div_eq_mul_inv]
      exact List.sum_map_mul_right ..
    rw [h9, h5.mass]
    rw [← h.len, massOf_eq (Nat.zero_le _) le_rfl, seg_all, div_self hpos.ne']

end PM.Learn.Nyga
