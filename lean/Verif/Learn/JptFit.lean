import Verif.Learn.JptColumn

/-! # The leaves and the queue of a joint probability tree -/

namespace PM.Learn.Jpt

open Classical Graph Spec

/-! ### Leaves -/

/-- What is known about a leaf of the tree. -/
structure LeafResult (cap : ℝ) (columns : List Column) (rows : List Row) (g : Circuit) (Fs : Column × ℕ → (Leaf → ℝ) → ℝ) :
    Prop where
  eq : createLeafNode cap columns rows = .ok g
  denotes : Denotes g 0 (columns.map columnVar).toFinset (fun ℓ => (columns.zipIdx.map fun ci => Fs ci ℓ).prod)
  kind : g.kind? 0 = some .prod
  parts : ∀ ci ∈ columns.zipIdx, ∃ g r, ColumnResult cap rows ci g r (Fs ci)

theorem exists_leaf {cap : ℝ} (hcap : 0 < cap) {columns : List Column} (hd : (columns.map columnVar).Nodup) {rows : List Row}
    (hne : rows ≠ []) (hc : ∀ ci ∈ columns.zipIdx, ColumnFits rows ci) : ∃ g Fs, LeafResult cap columns rows g Fs := by
  have h : ∀ ci, ∃ g r F, ci ∈ columns.zipIdx → ColumnResult cap rows ci g r F := by
    intro ci
    by_cases hci : ci ∈ columns.zipIdx
    · obtain ⟨g, r, F, h⟩ := exists_result hcap hne (hc ci hci)
      exact ⟨g, r, F, fun _ => h⟩
    · exact ⟨newUnit 0 .sum, 0, fun _ => 0, fun h => absurd h hci⟩
  choose G o F hF using h
  have hm : columns.zipIdx.mapM (fun ci => columnCircuit cap rows ci.1 ci.2) = .ok (columns.zipIdx.map fun ci => (G ci, o ci)) :=
    mapM_ok_map fun ci hci => (hF ci hci).eq
  have hfst : columns.zipIdx.map (fun ci => columnVar ci.1) = columns.map columnVar := by
    conv_rhs => rw [← List.zipIdx_map_fst 0 columns, List.map_map]
    rfl
  obtain ⟨hD, _, hk⟩ := denotes_attach_prod (u := 0) (U := (columns.map columnVar).toFinset) (is := columns.zipIdx)
    (V := fun ci => {columnVar ci.1}) (fun ci hci => (hF ci hci).denotes) (by
      intro v
      rw [List.mem_toFinset, ← hfst]
      simp only [List.mem_map, Finset.mem_singleton, eq_comm]) (by
      rw [← hfst, List.Nodup, List.pairwise_map] at hd
      exact hd.imp fun h => by simpa using h)
  refine ⟨_, F, ⟨?_, hD, hk, fun ci hci => ⟨_, _, hF ci hci⟩⟩⟩
  simp only [createLeafNode, bind, Except.bind]
  rw [hm]
  simp only [List.map_map]
  rfl

/-! ### Slices -/

theorem slice_eq_getElem {α : Type} (l : List α) (a b : ℕ) : slice l a b = (l.drop a).take (b - a) := rfl

theorem length_slice {α : Type} {l : List α} {a b : ℕ} (h : a ≤ b) (hb : b ≤ l.length) : (slice l a b).length = b - a := by
  simp only [slice, List.length_take, List.length_drop]
  omega

/-- Permuting a range leaves ranges that do not overlap with it alone. -/
theorem slice_other {l seg : List ℕ} {s e a b : ℕ} (hse : s ≤ e) (he : e ≤ l.length) (hl : seg.length = e - s)
    (h : b ≤ s ∨ e ≤ a) : slice (l.take s ++ seg ++ l.drop e) a b = slice l a b := by
  refine List.ext_getElem? fun i => ?_
  simp only [slice, List.getElem?_take, List.getElem?_drop]
  by_cases hi : i < b - a
  · rw [if_pos hi, if_pos hi]
    rcases h with h | h
    · rw [List.append_assoc, List.getElem?_append_left (by simp; omega), List.getElem?_take_of_lt (by omega)]
    · rw [List.getElem?_append_right (by simp; omega), List.getElem?_drop]
      congr 1
      simp
      omega
  · rw [if_neg hi, if_neg hi]

theorem slice_self {l seg : List ℕ} {s e : ℕ} (hse : s ≤ e) (he : e ≤ l.length) (hl : seg.length = e - s) :
    slice (l.take s ++ seg ++ l.drop e) s e = seg := by
  have h1 : (l.take s).length = s := by simp; omega
  rw [slice, List.append_assoc, List.drop_append_of_le_length (by omega), List.drop_of_length_le (by omega), List.nil_append,
    List.take_append_of_le_length (by omega), List.take_of_length_le (by omega)]

theorem perm_of_segment {l seg : List ℕ} {s e : ℕ} (hse : s ≤ e) (hp : seg.Perm (slice l s e)) :
    (l.take s ++ seg ++ l.drop e).Perm l := by
  have h1 : l.take s ++ slice l s e ++ l.drop e = l := by
    rw [List.append_assoc]
    conv_rhs => rw [← List.take_append_drop s l]
    congr 1
    rw [slice]
    conv_rhs => rw [← List.take_append_drop (e - s) (l.drop s)]
    rw [List.drop_drop]
    congr 2
    omega
  conv_rhs => rw [← h1]
  exact (List.Perm.append_left _ hp).append_right _

theorem flatten_slices {α : Type} (l : List α) {a c : ℕ} {ch : List (ℕ × ℕ)} (h : Nyga.Segs a c ch) :
    (ch.map fun s => slice l s.1 s.2).flatten = slice l a c := by
  induction h with
  | nil a => simp [slice]
  | @cons a b c ch h1 h2 ih =>
    have := h2.le
    rw [List.map_cons, List.flatten_cons, ih]
    simp only [slice]
    have h3 : c - a = (b - a) + (c - b) := by omega
    rw [h3, List.take_add, List.drop_drop]
    congr 3
    omega

theorem gather_ok {data : List Row} {idx : List ℕ} (h : ∀ i ∈ idx, i < data.length) :
    gather data idx = .ok (idx.map fun i => data.getD i default) := by
  refine mapM_ok_map fun i hi => ?_
  rw [List.getElem?_eq_getElem (h i hi)]
  simp only [List.getD_eq_getElem?_getD, List.getElem?_eq_getElem (h i hi), Option.getD_some]

/-! ### The queue -/

/-- A leaf that was made for the samples `indices[start:stop]`. -/
structure Emitted where
  start : ℕ
  stop : ℕ
  depth : ℕ
  idx : List ℕ
  circuit : Circuit
  Fs : Column × ℕ → (Leaf → ℝ) → ℝ

/-- The circuit with the leaves made so far. -/
noncomputable def tree (n : ℕ) (E : List Emitted) : Circuit :=
  (newUnit 0 .sum).attachAll 0 (partsOf (fun e : Emitted => e.circuit) (fun _ => 0)
    (fun e => some (LogP.log (((e.stop - e.start : ℕ) : ℝ) / n))) E)

theorem tree_append (n : ℕ) (E : List Emitted) (e : Emitted) :
    tree n (E ++ [e]) = (tree n E).attach e.circuit 0 0 (some (LogP.log (((e.stop - e.start : ℕ) : ℝ) / n))) := by
  simp [tree, attachAll, partsOf, List.foldl_append]

/-- The rows with the given indices. -/
noncomputable def rowsOf (data : List Row) (idx : List ℕ) : List Row := idx.map fun i => data.getD i default

/-- Why no split of the leaf was made. -/
def Stopped (S : Settings) (I : Impurity) (n : ℕ) (e : Emitted) : Prop :=
  (e.depth : EReal) ≥ S.maxDepth ∨ ((e.stop - e.start : ℕ) : ℝ) < 2 * S.minSamples n ∨
    ∃ calls indices, (I calls indices e.start e.stop).gain ≤ S.minImprovement

structure Inv (S : Settings) (I : Impurity) (data : List Row) (st : State) (q : List Task) (E : List Emitted) : Prop where
  perm : st.indices.Perm (List.range data.length)
  circuit : st.circuit = tree data.length E
  samples : st.samples = E.map fun e => (e.start, e.stop)
  leaf : ∀ e ∈ E, e.idx = slice st.indices e.start e.stop ∧ LeafResult S.cap S.columns (rowsOf data e.idx) e.circuit e.Fs
  same : ∀ t ∈ q, t.data = data
  segs : ∃ ch, Nyga.Segs 0 data.length ch ∧
    (q.map (fun t => (t.start, t.stop)) ++ E.map fun e => (e.start, e.stop)).Perm ch
  min : ∀ s ∈ q.map (fun t => (t.start, t.stop)) ++ E.map fun e => (e.start, e.stop),
    s = (0, data.length) ∨ S.minSamples data.length ≤ ((s.2 - s.1 : ℕ) : ℝ)
  kraft : (q.map fun t => (1 / 2 : ℝ) ^ t.depth).sum + (E.map fun e => (1 / 2 : ℝ) ^ e.depth).sum = 1
  depth : ∀ D : ℕ, S.maxDepth = ((D : ℝ) : EReal) → (∀ t ∈ q, t.depth ≤ D) ∧ ∀ e ∈ E, e.depth ≤ D
  stopped : ∀ e ∈ E, Stopped S I data.length e

variable {S : Settings} {I : Impurity} {data : List Row} {st : State} {q : List Task} {E : List Emitted} {t : Task}

theorem Inv.bounds (h : Inv S I data st (t :: q) E) : t.start < t.stop ∧ t.stop ≤ data.length := by
  obtain ⟨ch, h1, h2⟩ := h.segs
  exact (h1.bounds (t.start, t.stop) (h2.mem_iff.1 (by simp))).2

theorem Inv.apart (h : Inv S I data st (t :: q) E) : ∀ e ∈ E, e.stop ≤ t.start ∨ t.stop ≤ e.start := by
  obtain ⟨ch, h1, h2⟩ := h.segs
  have h3 : ch.Pairwise fun a b : ℕ × ℕ => a.2 ≤ b.1 ∨ b.2 ≤ a.1 := h1.pairwise.imp fun h => .inl h
  have h4 := (h2.pairwise_iff (R := fun a b : ℕ × ℕ => a.2 ≤ b.1 ∨ b.2 ≤ a.1) (fun h => h.symm)).2 h3
  intro e he
  rw [List.map_cons, List.cons_append, List.pairwise_cons] at h4
  exact (h4.1 (e.start, e.stop) (List.mem_append.2 (.inr (List.mem_map.2 ⟨e, he, rfl⟩)))).symm

theorem Inv.length (h : Inv S I data st q E) : st.indices.length = data.length := by
  rw [h.perm.length_eq, List.length_range]

/-- Permuting the range of the next task is allowed. -/
theorem Inv.reindex (h : Inv S I data st (t :: q) E) {ix : List ℕ} {c : ℕ} {seg : List ℕ}
    (hix : ix = st.indices.take t.start ++ seg ++ st.indices.drop t.stop) (hp : seg.Perm (slice st.indices t.start t.stop)) :
    Inv S I data { st with indices := ix, calls := c } (t :: q) E := by
  obtain ⟨h1, h2⟩ := h.bounds
  have hl : seg.length = t.stop - t.start := by
    rw [hp.length_eq, length_slice h1.le (h.length ▸ h2)]
  refine ⟨?_, h.circuit, h.samples, ?_, h.same, h.segs, h.min, h.kraft, h.depth, h.stopped⟩
  · simp only [hix]
    exact (perm_of_segment h1.le hp).trans h.perm
  · intro e he
    obtain ⟨h3, h4⟩ := h.leaf e he
    refine ⟨?_, h4⟩
    simp only [hix]
    rw [slice_other h1.le (h.length ▸ h2) hl (h.apart e he), h3]

theorem Inv.rows_mem (h : Inv S I data st (t :: q) E) : ∀ i ∈ slice st.indices t.start t.stop, i < data.length := by
  intro i hi
  have := h.perm.mem_iff.1 (List.mem_of_mem_drop (List.mem_of_mem_take hi))
  simpa using this

theorem Inv.rows (h : Inv S I data st (t :: q) E) (hI : TreeInput S data) :
    ∃ g Fs, LeafResult S.cap S.columns (rowsOf data (slice st.indices t.start t.stop)) g Fs := by
  obtain ⟨h1, h2⟩ := h.bounds
  have hsub : ∀ x ∈ rowsOf data (slice st.indices t.start t.stop), x ∈ data := by
    intro x hx
    obtain ⟨i, hi, rfl⟩ := List.mem_map.1 hx
    rw [List.getD_eq_getElem _ _ (h.rows_mem i hi)]
    exact List.getElem_mem _
  refine exists_leaf hI.cap hI.distinct ?_ ?_
  · intro h0
    have h3 := congrArg List.length h0
    rw [rowsOf, List.length_map, length_slice h1.le (h.length ▸ h2), List.length_nil] at h3
    omega
  · intro ci hci
    have h3 := hI.columns ci hci
    obtain ⟨c, i⟩ := ci
    cases c with
    | continuous P => exact h3
    | symbolic v domain => exact ⟨h3.1, h3.2.1, fun x hx => h3.2.2 x (hsub x hx)⟩
    | integer v => trivial
    | other v => exact h3

theorem denotes_tree (hE : E ≠ []) (h : ∀ e ∈ E, ∃ rows, LeafResult S.cap S.columns rows e.circuit e.Fs) (n : ℕ) :
    Denotes (tree n E) 0 (S.columns.map columnVar).toFinset
      (fun ℓ => (E.map fun e => (LogP.log (((e.stop - e.start : ℕ) : ℝ) / n)).exp *
        (S.columns.zipIdx.map fun ci => e.Fs ci ℓ).prod).sum) ∧
    List.Forall₂ (fun (e : Emitted) e' => Part (tree n E) 0 e.circuit 0 (some (LogP.log (((e.stop - e.start : ℕ) : ℝ) / n)))
      (fun ℓ => (S.columns.zipIdx.map fun ci => e.Fs ci ℓ).prod) e') E ((tree n E).outEdges 0) ∧
    (tree n E).kind? 0 = some .sum :=
  denotes_attach_sum (W := fun e : Emitted => LogP.log (((e.stop - e.start : ℕ) : ℝ) / n)) hE fun e he => by
    obtain ⟨rows, hr⟩ := h e he
    exact hr.denotes

theorem Inv.root (h : Inv S I data st q E) : st.circuit.root = .ok 0 := by
  rw [h.circuit]
  by_cases hE : E = []
  · subst hE
    exact (layered_newUnit 0 .sum).root
  · exact (denotes_tree hE (fun e he => ⟨_, (h.leaf e he).2⟩) _).1.layered.root

/-- Making a leaf. -/
theorem Inv.emit (h : Inv S I data st (t :: q) E) {g : Circuit} {Fs : Column × ℕ → (Leaf → ℝ) → ℝ}
    (hr : LeafResult S.cap S.columns (rowsOf data (slice st.indices t.start t.stop)) g Fs)
    (hs : Stopped S I data.length ⟨t.start, t.stop, t.depth, slice st.indices t.start t.stop, g, Fs⟩) :
    Inv S I data { st with
      circuit := st.circuit.attach g 0 0 (some (LogP.log (((t.stop - t.start : ℕ) : ℝ) / data.length)))
      samples := st.samples ++ [(t.start, t.stop)] } q
      (E ++ [⟨t.start, t.stop, t.depth, slice st.indices t.start t.stop, g, Fs⟩]) := by
  have hp : (q.map (fun t => (t.start, t.stop)) ++ (E ++ [(⟨t.start, t.stop, t.depth, slice st.indices t.start t.stop, g, Fs⟩ :
      Emitted)]).map fun e => (e.start, e.stop)).Perm ((t :: q).map (fun t => (t.start, t.stop)) ++ E.map fun e => (e.start, e.stop)) := by
    rw [List.map_append, ← List.append_assoc]
    exact (List.perm_append_singleton _ _)
  refine ⟨h.perm, ?_, ?_, ?_, fun x hx => h.same x (by simp [hx]), ?_, ?_, ?_, ?_, ?_⟩
  · simp only [h.circuit, tree_append]
  · simp only [h.samples, List.map_append, List.map_cons, List.map_nil]
  · intro e he
    rcases List.mem_append.1 he with he | he
    · exact h.leaf e he
    · rw [List.mem_singleton.1 he]
      exact ⟨rfl, hr⟩
  · obtain ⟨ch, h1, h2⟩ := h.segs
    exact ⟨ch, h1, hp.trans h2⟩
  · intro s hs
    exact h.min s (hp.mem_iff.1 hs)
  · refine Eq.trans ?_ h.kraft
    simp only [List.map_cons, List.sum_cons, List.map_append, List.sum_append, List.map_nil, List.sum_nil]
    ring
  · intro D hD
    obtain ⟨h1, h2⟩ := h.depth D hD
    refine ⟨fun x hx => h1 x (by simp [hx]), fun e he => ?_⟩
    rcases List.mem_append.1 he with he | he
    · exact h2 e he
    · rw [List.mem_singleton.1 he]
      exact h1 t (by simp)
  · intro e he
    rcases List.mem_append.1 he with he | he
    · exact h.stopped e he
    · rw [List.mem_singleton.1 he]
      exact hs

/-- Splitting a range. -/
theorem Inv.split (h : Inv S I data st (t :: q) E) {k : ℕ} (h1 : t.start < k) (h2 : k < t.stop)
    (hm1 : S.minSamples data.length ≤ ((k - t.start : ℕ) : ℝ)) (hm2 : S.minSamples data.length ≤ ((t.stop - k : ℕ) : ℝ))
    (hd : (t.depth : EReal) < S.maxDepth) :
    Inv S I data st (q ++ [⟨t.data, t.start, k, t.depth + 1⟩, ⟨t.data, k, t.stop, t.depth + 1⟩]) E := by
  have hp : ((q ++ [(⟨t.data, t.start, k, t.depth + 1⟩ : Task), ⟨t.data, k, t.stop, t.depth + 1⟩]).map (fun t : Task => (t.start, t.stop)) ++
      E.map fun e => (e.start, e.stop)).Perm
      ((t.start, k) :: (k, t.stop) :: (q.map (fun t => (t.start, t.stop)) ++ E.map fun e => (e.start, e.stop))) := by
    rw [List.map_append, List.append_assoc]
    exact List.perm_append_comm_assoc _ _ _
  refine ⟨h.perm, h.circuit, h.samples, h.leaf, ?_, ?_, ?_, ?_, ?_, h.stopped⟩
  · intro x hx
    rcases List.mem_append.1 hx with hx | hx
    · exact h.same x (by simp [hx])
    · rcases List.mem_pair.1 hx with rfl | rfl <;> exact h.same t (by simp)
  · obtain ⟨ch, h3, h4⟩ := h.segs
    obtain ⟨l1, l2, rfl, h5⟩ := h3.split (s := (t.start, t.stop)) (h4.mem_iff.1 (by simp)) h1 h2
    refine ⟨_, h5, hp.trans ?_⟩
    rw [List.map_cons, List.cons_append] at h4
    have h6 := (h4.trans List.perm_middle).cons_inv
    exact (((h6.cons _).cons _)).trans ((List.Perm.cons _ List.perm_middle.symm).trans List.perm_middle.symm)
  · intro s hs
    have := hp.mem_iff.1 hs
    simp only [List.mem_cons] at this
    rcases this with rfl | rfl | hs
    · exact .inr hm1
    · exact .inr hm2
    · exact h.min s (by rw [List.map_cons, List.cons_append]; exact List.mem_cons_of_mem _ hs)
  · refine Eq.trans ?_ h.kraft
    simp only [List.map_cons, List.sum_cons, List.map_append, List.sum_append, List.map_nil, List.sum_nil]
    ring
  · intro D hD
    obtain ⟨h3, h4⟩ := h.depth D hD
    refine ⟨fun x hx => ?_, h4⟩
    rw [hD] at hd
    have hd' : (t.depth : ℝ) < D := by exact_mod_cast hd
    have hd' : t.depth < D := by exact_mod_cast hd'
    rcases List.mem_append.1 hx with hx | hx
    · exact h3 x (by simp [hx])
    · rcases List.mem_pair.1 hx with rfl | rfl <;> exact hd'

theorem rounds_append (a b : List Task) : rounds (a ++ b) = rounds a + rounds b := by simp [rounds]

theorem c45_step (hI : TreeInput S data) (hC : SplitContract I S.minImprovement (S.minSamples data.length))
    (h : Inv S I data st (t :: q) E) :
    ∃ st' new E', c45 S I data.length st t = .ok (st', new) ∧ Inv S I data st' (q ++ new) E' ∧
      rounds (q ++ new) < rounds (t :: q) := by
  obtain ⟨h1, h2⟩ := h.bounds
  have hdata := h.same t (by simp)
  have hlen : data.length ≠ 0 := fun h0 => hI.nonempty (List.length_eq_zero_iff.1 h0)
  have hr : rounds (t :: q) = 2 * (t.stop - t.start - 1) + 1 + rounds q := by simp [rounds]
  have leafCase : ∀ st : State, Inv S I data st (t :: q) E → ∀ g Fs,
      LeafResult S.cap S.columns (rowsOf data (slice st.indices t.start t.stop)) g Fs →
      gather t.data (slice st.indices t.start t.stop) = .ok (rowsOf data (slice st.indices t.start t.stop)) := by
    intro st h g Fs _
    rw [hdata]
    exact gather_ok h.rows_mem
  by_cases hstop : (t.depth : EReal) ≥ S.maxDepth ∨ ((t.stop - t.start : ℕ) : ℝ) < 2 * S.minSamples data.length
  · obtain ⟨g, Fs, hg⟩ := h.rows hI
    refine ⟨_, [], _, ?_, by rw [List.append_nil]; exact h.emit hg (hstop.imp_right .inl), by rw [List.append_nil, hr]; omega⟩
    simp only [c45, bind, Except.bind, h.root, if_pos hstop]
    rw [leafCase st h g Fs hg]
    simp only [hg.eq, hdata, if_neg hlen]
  · set a := I st.calls st.indices t.start t.stop with ha
    obtain ⟨seg, hs1, hs2⟩ := hC.perm st.calls st.indices t.start t.stop h1 (h.length ▸ h2)
    have h' := h.reindex (c := st.calls + 1) hs1 hs2
    rw [← ha] at h'
    by_cases hgain : a.gain ≤ S.minImprovement
    · obtain ⟨g, Fs, hg⟩ := h'.rows hI
      refine ⟨_, [], _, ?_, by rw [List.append_nil]; exact h'.emit hg (.inr (.inr ⟨_, _, hgain⟩)), by rw [List.append_nil, hr]; omega⟩
      simp only [c45, bind, Except.bind, h.root, if_neg hstop, ← ha, if_pos hgain]
      rw [leafCase _ h' g Fs hg]
      simp only [hg.eq, hdata, if_neg hlen]
    · obtain ⟨hp1, hp2, hp3⟩ := hC.pos st.calls st.indices t.start t.stop h1 (h.length ▸ h2) (not_le.1 hgain)
      rw [← ha] at hp1 hp2 hp3
      refine ⟨_, _, E, ?_, h'.split (k := t.start + a.pos + 1) (by omega) hp1 ?_ hp3 (not_le.1 fun h0 => hstop (.inl h0)), ?_⟩
      · simp only [c45, bind, Except.bind, h.root, if_neg hstop, ← ha, if_neg hgain]
      · have : t.start + a.pos + 1 - t.start = a.pos + 1 := by omega
        rw [this]
        exact hp2
      · rw [rounds_append, hr]
        simp only [rounds, List.map_cons, List.map_nil, List.sum_cons, List.sum_nil]
        omega

theorem loop_ok (hI : TreeInput S data) (hC : SplitContract I S.minImprovement (S.minSamples data.length)) :
    ∀ (fuel : ℕ) (st : State) (q : List Task) (E : List Emitted), rounds q ≤ fuel → Inv S I data st q E →
      ∃ st' E', loop S I data.length fuel st q = ([], .ok st') ∧ Inv S I data st' [] E' := by
  intro fuel
  induction fuel with
  | zero =>
    intro st q E hq h
    cases q with
    | nil => exact ⟨st, E, by simp [loop], h⟩
    | cons t q => simp [rounds] at hq
  | succ fuel ih =>
    intro st q E hq h
    cases q with
    | nil => exact ⟨st, E, by simp [loop], h⟩
    | cons t q =>
      obtain ⟨st', new, E', h1, h2, h3⟩ := c45_step hI hC h
      obtain ⟨st'', E'', h4, h5⟩ := ih st' (q ++ new) E' (by omega) h2
      exact ⟨st'', E'', by simp only [loop, h1, h4], h5⟩

theorem inv_init (hI : TreeInput S data) :
    Inv S I data ⟨List.range data.length, 0, newUnit 0 .sum, []⟩ [⟨data, 0, data.length, 0⟩] [] := by
  have hlen : 0 < data.length := List.length_pos_iff.2 hI.nonempty
  refine ⟨List.Perm.refl _, rfl, rfl, by simp, by simp, ⟨_, Nyga.Segs.cons hlen (Nyga.Segs.nil _), by simp⟩, by simp, by simp, by simp, by simp⟩

theorem fit_ok (hI : TreeInput S data)
    (hC : SplitContract I S.minImprovement (S.minSamples data.length)) :
    ∃ st E, fit S I data [] = ([], .ok st) ∧ Inv S I data st [] E :=
  loop_ok hI hC _ _ _ _ le_rfl (inv_init hI)

end PM.Learn.Jpt
