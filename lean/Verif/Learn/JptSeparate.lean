import Verif.Spec.JptMode
import Verif.Learn.JptFit

/-! # The leaves of a tree that was learned with separating splits are told apart by a column -/

namespace PM.Learn.Jpt

open Classical Graph Spec

theorem tellsApart_symm {ci : Column × ℕ} {A B : List Row} (h : TellsApart ci A B) : TellsApart ci B A := by
  obtain ⟨c, i⟩ := ci
  cases c with
  | continuous P => exact h.symm.imp (fun h x hx y hy => h y hy x hx) (fun h x hx y hy => h y hy x hx)
  | symbolic v d => exact fun x hx y hy => (h y hy x hx).symm
  | integer v => exact fun x hx y hy => (h y hy x hx).symm
  | other v => exact h

theorem tellsApart_mono {ci : Column × ℕ} {A B A' B' : List Row} (hA : ∀ x ∈ A', x ∈ A) (hB : ∀ x ∈ B', x ∈ B)
    (h : TellsApart ci A B) : TellsApart ci A' B' := by
  obtain ⟨c, i⟩ := ci
  cases c with
  | continuous P => exact h.imp (fun h x hx y hy => h x (hA x hx) y (hB y hy)) (fun h x hx y hy => h x (hA x hx) y (hB y hy))
  | symbolic v d => exact fun x hx y hy => h x (hA x hx) y (hB y hy)
  | integer v => exact fun x hx y hy => h x (hA x hx) y (hB y hy)
  | other v => exact h

/-- Some column tells the samples of two ranges apart. -/
def Apart (columns : List Column) (data : List Row) (ix : List ℕ) (a b : ℕ × ℕ) : Prop :=
  ∃ ci ∈ columns.zipIdx, TellsApart ci (rowsAt data (slice ix a.1 a.2)) (rowsAt data (slice ix b.1 b.2))

theorem Apart.symm {columns : List Column} {data : List Row} {ix : List ℕ} {a b : ℕ × ℕ} (h : Apart columns data ix a b) :
    Apart columns data ix b a := by
  obtain ⟨ci, h1, h2⟩ := h
  exact ⟨ci, h1, tellsApart_symm h2⟩

theorem rowsAt_mono {data : List Row} {A B : List ℕ} (h : ∀ i ∈ A, i ∈ B) : ∀ x ∈ rowsAt data A, x ∈ rowsAt data B := by
  intro x hx
  obtain ⟨i, hi, rfl⟩ := List.mem_map.1 hx
  exact List.mem_map.2 ⟨i, h i hi, rfl⟩

theorem Apart.mono {columns : List Column} {data : List Row} {ix ix' : List ℕ} {a b a' b' : ℕ × ℕ} (h : Apart columns data ix a b)
    (hA : ∀ i ∈ slice ix' a'.1 a'.2, i ∈ slice ix a.1 a.2) (hB : ∀ i ∈ slice ix' b'.1 b'.2, i ∈ slice ix b.1 b.2) :
    Apart columns data ix' a' b' := by
  obtain ⟨ci, h1, h2⟩ := h
  exact ⟨ci, h1, tellsApart_mono (rowsAt_mono hA) (rowsAt_mono hB) h2⟩

theorem slice_sub {ix : List ℕ} {a b c d : ℕ} (h1 : a ≤ c) (h2 : d ≤ b) : ∀ i ∈ slice ix c d, i ∈ slice ix a b := by
  intro i hi
  simp only [slice, List.mem_iff_getElem?, List.getElem?_take, List.getElem?_drop] at hi ⊢
  obtain ⟨k, hk⟩ := hi
  split at hk
  · refine ⟨c - a + k, ?_⟩
    rw [if_pos (by omega), ← hk]
    congr 1
    omega
  · cases hk

/-- The ranges that wait and those of the leaves. -/
def ranges (st : State) (q : List Task) : List (ℕ × ℕ) := q.map (fun t => (t.start, t.stop)) ++ st.samples

variable {S : Settings} {I : Impurity} {data : List Row} {st : State} {q : List Task} {E : List Emitted} {t : Task}

theorem Inv.ranges_apart (h : Inv S I data st (t :: q) E) :
    ∀ s ∈ ranges st q, s.2 ≤ t.start ∨ t.stop ≤ s.1 := by
  obtain ⟨ch, h1, h2⟩ := h.segs
  have h3 : ch.Pairwise fun a b : ℕ × ℕ => a.2 ≤ b.1 ∨ b.2 ≤ a.1 := h1.pairwise.imp fun h => .inl h
  have h4 := (h2.pairwise_iff (R := fun a b : ℕ × ℕ => a.2 ≤ b.1 ∨ b.2 ≤ a.1) (fun h => h.symm)).2 h3
  rw [List.map_cons, List.cons_append, List.pairwise_cons, ← h.samples] at h4
  intro s hs
  exact (h4.1 s hs).symm

/-- One round keeps the ranges apart. -/
theorem apart_step (hI : TreeInput S data) (hC : SplitContract I S.minImprovement (S.minSamples data.length))
    (hS : SeparatingSplits I S.minImprovement S.columns data) (h : Inv S I data st (t :: q) E)
    (hA : (ranges st (t :: q)).Pairwise (Apart S.columns data st.indices)) {st' : State} {new : List Task}
    (hc : c45 S I data.length st t = .ok (st', new)) :
    (ranges st' (q ++ new)).Pairwise (Apart S.columns data st'.indices) := by
  obtain ⟨h1, h2⟩ := h.bounds
  have hdata := h.same t (by simp)
  have hlen : data.length ≠ 0 := fun h0 => hI.nonempty (List.length_eq_zero_iff.1 h0)
  have hcons : ∀ st : State, ranges st (t :: q) = (t.start, t.stop) :: ranges st q := fun _ => rfl
  have emit : ∀ st0 : State, (ranges st0 (t :: q)).Pairwise (Apart S.columns data st0.indices) → ∀ g : Circuit,
      (ranges { st0 with circuit := g, samples := st0.samples ++ [(t.start, t.stop)] } (q ++ [])).Pairwise
        (Apart S.columns data st0.indices) := by
    intro st0 h0 g
    rw [List.append_nil]
    refine (List.Perm.pairwise_iff (fun {_ _} hab => hab.symm) ?_).1 h0
    simp only [ranges, ← List.append_assoc]
    exact (List.perm_append_singleton _ _).symm
  by_cases hstop : (t.depth : EReal) ≥ S.maxDepth ∨ ((t.stop - t.start : ℕ) : ℝ) < 2 * S.minSamples data.length
  · obtain ⟨g, Fs, hg⟩ := h.rows hI
    simp only [c45, bind, Except.bind, h.root, if_pos hstop] at hc
    rw [hdata, gather_ok h.rows_mem] at hc
    have hge := hg.eq
    simp only [rowsOf] at hge
    simp only [hge, if_neg hlen, Except.ok.injEq, Prod.mk.injEq] at hc
    obtain ⟨rfl, rfl⟩ := hc
    exact emit st hA _
  · set a := I st.calls st.indices t.start t.stop with ha
    obtain ⟨seg, hs1, hs2⟩ := hC.perm st.calls st.indices t.start t.stop h1 (h.length ▸ h2)
    have h' := h.reindex (c := st.calls + 1) hs1 hs2
    have hl : seg.length = t.stop - t.start := by rw [hs2.length_eq]; exact length_slice h1.le (h.length ▸ h2)
    rw [← ha] at h' hs1
    have hA' : ((t.start, t.stop) :: ranges st q).Pairwise (Apart S.columns data a.indices) := by
      rw [hcons, List.pairwise_cons] at hA
      have hother : ∀ s ∈ ranges st q, slice a.indices s.1 s.2 = slice st.indices s.1 s.2 := fun s hs => by
        rw [hs1]
        exact slice_other h1.le (h.length ▸ h2) hl (h.ranges_apart s hs)
      have hself : ∀ i ∈ slice a.indices t.start t.stop, i ∈ slice st.indices t.start t.stop := by
        rw [hs1, slice_self h1.le (h.length ▸ h2) hl]
        exact fun i hi => hs2.mem_iff.1 hi
      rw [List.pairwise_cons]
      refine ⟨fun s hs => (hA.1 s hs).mono hself (by rw [hother s hs]; exact fun _ h => h), ?_⟩
      refine hA.2.imp_of_mem ?_
      intro s s' hs hs' hss
      exact hss.mono (by rw [hother s hs]; exact fun _ h => h) (by rw [hother s' hs']; exact fun _ h => h)
    by_cases hgain : a.gain ≤ S.minImprovement
    · obtain ⟨g, Fs, hg⟩ := h'.rows hI
      simp only [c45, bind, Except.bind, h.root, if_neg hstop, ← ha, if_pos hgain] at hc
      rw [hdata, gather_ok h'.rows_mem] at hc
      have hge := hg.eq
      simp only [rowsOf] at hge
      simp only [hge, if_neg hlen, Except.ok.injEq, Prod.mk.injEq] at hc
      obtain ⟨rfl, rfl⟩ := hc
      exact emit { st with indices := a.indices, calls := st.calls + 1 } hA' _
    · obtain ⟨hp1, hp2, hp3⟩ := hC.pos st.calls st.indices t.start t.stop h1 (h.length ▸ h2) (not_le.1 hgain)
      obtain ⟨ci, hci, hsep⟩ := hS st.calls st.indices t.start t.stop h.perm h1 (h.length ▸ h2) (not_le.1 hgain)
      rw [← ha] at hp1 hp2 hp3 hsep
      simp only [c45, bind, Except.bind, h.root, if_neg hstop, ← ha, if_neg hgain, Except.ok.injEq, Prod.mk.injEq] at hc
      obtain ⟨rfl, rfl⟩ := hc
      rw [List.pairwise_cons] at hA'
      have hnew : ((t.start, t.start + a.pos + 1) :: (t.start + a.pos + 1, t.stop) :: ranges st q).Pairwise
          (Apart S.columns data a.indices) := by
        rw [List.pairwise_cons, List.pairwise_cons]
        refine ⟨fun s hs => ?_, fun s hs => ?_, hA'.2⟩
        · rcases List.mem_cons.1 hs with rfl | hs
          · refine ⟨ci, hci, ?_⟩
            simp only [slice]
            have : t.start + a.pos + 1 - t.start = a.pos + 1 := by omega
            rw [this]
            exact hsep
          · exact (hA'.1 s hs).mono (slice_sub le_rfl (by omega)) (fun _ h => h)
        · exact (hA'.1 s hs).mono (slice_sub (by omega) le_rfl) (fun _ h => h)
      refine (List.Perm.pairwise_iff (fun {_ _} hab => hab.symm) ?_).1 hnew
      simp only [ranges, List.map_append, List.map_cons, List.map_nil, List.append_assoc]
      exact List.perm_append_comm_assoc [(t.start, t.start + a.pos + 1), (t.start + a.pos + 1, t.stop)] _ _

theorem loop_apart (hI : TreeInput S data) (hC : SplitContract I S.minImprovement (S.minSamples data.length))
    (hS : SeparatingSplits I S.minImprovement S.columns data) :
    ∀ (fuel : ℕ) (st : State) (q : List Task) (E : List Emitted), rounds q ≤ fuel → Inv S I data st q E →
      (ranges st q).Pairwise (Apart S.columns data st.indices) →
      ∀ r st', loop S I data.length fuel st q = (r, .ok st') → st'.samples.Pairwise (Apart S.columns data st'.indices) := by
  intro fuel
  induction fuel with
  | zero =>
    intro st q E hq h hA r st' hl
    cases q with
    | nil =>
      simp only [loop, Prod.mk.injEq, Except.ok.injEq] at hl
      obtain ⟨_, rfl⟩ := hl
      exact hA
    | cons t q => simp [rounds] at hq
  | succ fuel ih =>
    intro st q E hq h hA r st' hl
    cases q with
    | nil =>
      simp only [loop, Prod.mk.injEq, Except.ok.injEq] at hl
      obtain ⟨_, rfl⟩ := hl
      exact hA
    | cons t q =>
      obtain ⟨st1, new, E', h1, h2, h3⟩ := c45_step hI hC h
      simp only [loop, h1] at hl
      exact ih st1 (q ++ new) E' (by omega) h2 (apart_step hI hC hS h hA h1) r st' hl

theorem fit_apart (hI : TreeInput S data) (hC : SplitContract I S.minImprovement (S.minSamples data.length))
    (hS : SeparatingSplits I S.minImprovement S.columns data) {r : List Task} {st : State} (hf : fit S I data [] = (r, .ok st)) :
    st.samples.Pairwise (Apart S.columns data st.indices) :=
  loop_apart hI hC hS _ _ _ _ le_rfl (inv_init hI) (by simp [ranges]) r st hf

end PM.Learn.Jpt
