import Verif.Spec.Preprocess
import Verif.Learn.ConfigLemmas
import Verif.Props.LeafDiscrete

/-!
# C80, C81: preprocessing and inferred variables
-/

namespace PM.Props

open Classical Learn.Jpt Spec

theorem elementIndex_ok {d : List (String × ℤ)} (h : (d.map Prod.fst).Nodup) {i : ℕ} {x : String} {z : ℤ} (hi : d[i]? = some (x, z)) :
    elementIndex d x = .ok (some (i : ℝ)) := by
  have h1 : (d.zipIdx.map fun ei => ei.1.1).Nodup := by
    have : d.zipIdx.map (fun ei => ei.1.1) = (d.zipIdx.map Prod.fst).map Prod.fst := by rw [List.map_map]; rfl
    rw [this, List.zipIdx_map_fst]
    exact h
  have h2 := dict_nodup (ν := ℕ) (fun ei : (String × ℤ) × ℕ => ei.1.1) (fun ei => ei.2) h1
  rw [elementIndex, h2, lookup_of_nodup (v := i)]
  · rw [List.map_map]
    exact h1
  · exact List.mem_map.2 ⟨((x, z), i), List.mem_zipIdx_iff_getElem?.2 (by simpa using hi), rfl⟩

/-- The entry for a cell. -/
noncomputable def indexOfElement (d : List (String × ℤ)) (x : String) : ℕ := (d.map Prod.fst).idxOf x

theorem getElem?_indexOfElement {d : List (String × ℤ)} {x : String} (h : x ∈ d.map Prod.fst) :
    ∃ z, d[indexOfElement d x]? = some (x, z) := by
  have hlt : indexOfElement d x < (d.map Prod.fst).length := List.idxOf_lt_length_iff.2 h
  have hlt' : indexOfElement d x < d.length := by simpa using hlt
  have h1 : (d.map Prod.fst)[indexOfElement d x]'hlt = x := by simp [indexOfElement]
  rw [List.getElem_map] at h1
  refine ⟨(d[indexOfElement d x]'hlt').2, ?_⟩
  rw [List.getElem?_eq_getElem hlt']
  congr 1
  exact Prod.ext h1 rfl

theorem symbolic_column {d : List (String × ℤ)} (hd : (d.map Prod.fst).Nodup) {xs : List String} (hx : ∀ x ∈ xs, x ∈ d.map Prod.fst) :
    xs.mapM (elementIndex d) = .ok (xs.map fun x => some ((indexOfElement d x : ℕ) : ℝ)) :=
  mapM_ok' fun x h => by
    obtain ⟨z, hz⟩ := getElem?_indexOfElement (hx x h)
    exact elementIndex_ok hd hz

/-- One column. -/
theorem encodeColumn_ok {v : TreeVar} {c : Cells} (h : Describes v c) :
    ∃ l, encodeColumn v c = .ok l ∧ l.length = c.length ∧ ∀ r y, l[r]? = some y → Shows v c r y := by
  obtain ⟨n, k⟩ := v
  rcases k with ⟨m, s, a, b, e⟩ | ⟨m, s, a, b, e⟩ | ⟨m, s⟩ | ⟨d⟩ <;> rcases c with xs | xs | xs | xs <;>
    simp only [Describes] at h
  · refine ⟨xs.map some, rfl, by simp [Cells.length], fun r y hy => ?_⟩
    obtain ⟨x, hx, rfl⟩ := by simpa using hy
    exact ⟨x, x, rfl, hx, rfl⟩
  · refine ⟨xs.map fun x : ℤ => some (x : ℝ), rfl, by simp [Cells.length], fun r y hy => ?_⟩
    obtain ⟨x, hx, rfl⟩ := by simpa using hy
    exact ⟨x, x, rfl, hx, rfl⟩
  · obtain ⟨hm, hs, hs0⟩ := h
    obtain ⟨m, rfl⟩ := Option.ne_none_iff_exists'.1 hm
    obtain ⟨s, rfl⟩ := Option.ne_none_iff_exists'.1 hs
    have hs0 : s ≠ 0 := fun e => hs0 (by rw [e])
    refine ⟨xs.map (encodeCell (some m) (some s)), rfl, by simp [Cells.length], fun r y hy => ?_⟩
    obtain ⟨x, hx, rfl⟩ := by simpa using hy
    refine ⟨(x - m) / s, x, by rw [encodeCell, if_neg hs0], hx, ?_⟩
    simp only [StandsFor]
    field_simp
    ring
  · obtain ⟨hm, hs, hs0⟩ := h
    obtain ⟨m, rfl⟩ := Option.ne_none_iff_exists'.1 hm
    obtain ⟨s, rfl⟩ := Option.ne_none_iff_exists'.1 hs
    have hs0 : s ≠ 0 := fun e => hs0 (by rw [e])
    refine ⟨xs.map fun x : ℤ => encodeCell (some m) (some s) (x : ℝ), rfl, by simp [Cells.length], fun r y hy => ?_⟩
    obtain ⟨x, hx, rfl⟩ := by simpa using hy
    refine ⟨(x - m) / s, x, by rw [encodeCell, if_neg hs0], hx, ?_⟩
    simp only [StandsFor]
    field_simp
    ring
  · refine ⟨xs.map some, rfl, by simp [Cells.length], fun r y hy => ?_⟩
    obtain ⟨x, hx, rfl⟩ := by simpa using hy
    exact ⟨x, x, rfl, hx, rfl⟩
  · refine ⟨xs.map fun x : ℤ => some (x : ℝ), rfl, by simp [Cells.length], fun r y hy => ?_⟩
    obtain ⟨x, hx, rfl⟩ := by simpa using hy
    exact ⟨x, x, rfl, hx, rfl⟩
  · refine ⟨_, symbolic_column h.1 h.2, by simp [Cells.length], fun r y hy => ?_⟩
    obtain ⟨x, hx, rfl⟩ := by simpa using hy
    obtain ⟨z, hz⟩ := getElem?_indexOfElement (h.2 x (List.mem_of_getElem? hx))
    exact ⟨d, indexOfElement d x, z, rfl, rfl, x, hx, hz⟩

theorem preprocess_loop (F : Frame) : ∀ (l : List (TreeVar × ℕ)) (M : List (List (Option ℝ))), (l.map Prod.snd).Nodup →
    (∀ vi ∈ l, vi.2 < M.length ∧ ∃ c col, F.columns.lookup vi.1.name = some c ∧ encodeColumn vi.1 c = .ok col) →
    ∃ M', l.foldlM (m := Except PyErr) (fun result vi => do
        let cells ← field (F.columns.lookup vi.1.name)
        let column ← encodeColumn vi.1 cells
        if vi.2 < result.length then .ok (result.set vi.2 column) else .error .indexError) M = .ok M' ∧
      M'.length = M.length ∧ (∀ i, i ∉ l.map Prod.snd → M'[i]? = M[i]?) ∧
      ∀ vi ∈ l, ∃ c col, F.columns.lookup vi.1.name = some c ∧ encodeColumn vi.1 c = .ok col ∧ M'[vi.2]? = some col := by
  intro l
  induction l with
  | nil => intro M _ _; exact ⟨M, rfl, rfl, fun _ _ => rfl, by simp⟩
  | cons vi l ih =>
    intro M hnd h
    obtain ⟨hlt, c, col, hc, hcol⟩ := h vi (by simp)
    simp only [List.map_cons, List.nodup_cons] at hnd
    obtain ⟨M', h1, h2, h3, h4⟩ := ih (M.set vi.2 col) hnd.2 (fun w hw => by simpa using h w (by simp [hw]))
    refine ⟨M', ?_, by simpa using h2, ?_, ?_⟩
    · rw [List.foldlM_cons]
      simp only [hc, field, hcol, bind, Except.bind, if_pos hlt] at h1 ⊢
      exact h1
    · intro i hi
      simp only [List.map_cons, List.mem_cons, not_or] at hi
      rw [h3 i hi.2, List.getElem?_set_ne (Ne.symm hi.1)]
    · intro w hw
      rcases List.mem_cons.1 hw with rfl | hw
      · refine ⟨c, col, hc, hcol, ?_⟩
        rw [h3 _ hnd.1, List.getElem?_set_self hlt]
      · exact h4 w hw

/-! ### C80 -/

/-- C80.  If every variable can describe the column of the data frame with its name, preprocessing succeeds: the array has the shape
of the data frame, and its column at the index of a variable shows the cells of the column with the name of the variable, whatever
the order of the columns in the data frame. -/
theorem C80_values_partial {vars : List TreeVar} {F : Frame} (hF : ProperFrame F) (hn : (vars.map TreeVar.name).Nodup)
    (hd : ∀ v ∈ vars, ∃ c, (v.name, c) ∈ F.columns ∧ Describes v c) :
    ∃ M, preprocess vars F = .ok M ∧ M.length = F.columns.length ∧ (∀ l ∈ M, l.length = F.rows) ∧
      ∀ (i : ℕ) (v : TreeVar), vars[i]? = some v → ∃ c l, (v.name, c) ∈ F.columns ∧ M[i]? = some l ∧ ∀ r y, l[r]? = some y → Shows v c r y := by
  have hlen : vars.length ≤ F.columns.length := by
    have h1 : (vars.map TreeVar.name) ⊆ F.columns.map Prod.fst := by
      intro x hx
      obtain ⟨v, hv, rfl⟩ := List.mem_map.1 hx
      obtain ⟨c, hc, _⟩ := hd v hv
      exact List.mem_map.2 ⟨_, hc, rfl⟩
    simpa using (List.subperm_of_subset hn h1).length_le
  have hzip : (vars.zipIdx.map Prod.snd).Nodup := by
    rw [List.zipIdx_map_snd]
    exact List.nodup_range'
  obtain ⟨M, h1, h2, h3, h4⟩ := preprocess_loop F vars.zipIdx (List.replicate F.columns.length (List.replicate F.rows (some 0))) hzip (by
    rintro ⟨v, i⟩ hvi
    have hvi' : vars[i]? = some v := by simpa using List.mem_zipIdx_iff_getElem?.1 hvi
    obtain ⟨hi, _⟩ := List.getElem?_eq_some_iff.1 hvi'
    obtain ⟨c, hc, hdc⟩ := hd v (List.mem_of_getElem? hvi')
    obtain ⟨l, hl, _⟩ := encodeColumn_ok hdc
    exact ⟨by simpa using lt_of_lt_of_le hi hlen, c, l, lookup_of_nodup hF.names hc, hl⟩)
  have key : ∀ (i : ℕ) (v : TreeVar), vars[i]? = some v → ∃ (c : Cells) (l : List (Option ℝ)), (v.name, c) ∈ F.columns ∧ M[i]? = some l ∧ l.length = F.rows ∧
      ∀ r y, l[r]? = some y → Shows v c r y := by
    intro i v hv
    obtain ⟨c, col, hc, hcol, hM⟩ := h4 (v, i) (List.mem_zipIdx_iff_getElem?.2 (by simpa using hv))
    obtain ⟨c', hc', hdc⟩ := hd v (List.mem_of_getElem? hv)
    rw [lookup_of_nodup hF.names hc'] at hc
    injection hc with hc
    subst hc
    obtain ⟨l, hl, hll, hs⟩ := encodeColumn_ok hdc
    rw [hl] at hcol
    injection hcol with hcol
    subst hcol
    exact ⟨c', l, hc', hM, hll.trans (hF.rows _ hc'), hs⟩
  refine ⟨M, h1, by simpa using h2, ?_, ?_⟩
  · intro l hl
    obtain ⟨i, hi⟩ := List.mem_iff_getElem?.1 hl
    cases hv : vars[i]? with
    | none =>
      rw [h3 i (by
        rw [List.zipIdx_map_snd]
        intro hm
        have hlt := List.mem_range'_1.1 hm
        rw [List.getElem?_eq_none_iff] at hv
        omega)] at hi
      obtain ⟨_, e⟩ := List.getElem?_eq_some_iff.1 hi
      rw [← e]
      simp
    | some v =>
      obtain ⟨c, l', _, h5, h6, _⟩ := key i v hv
      rw [hi] at h5
      injection h5 with h5
      rw [h5]
      exact h6
  · intro i v hv
    obtain ⟨c, l, h5, h6, _, h7⟩ := key i v hv
    exact ⟨c, l, h5, h6, h7⟩

theorem standsFor_unique {v : TreeVar} {u x x' : ℝ} (h : StandsFor v u x) (h' : StandsFor v u x') : x = x' := by
  obtain ⟨n, k⟩ := v
  rcases k with ⟨m, s, a, b, e⟩ | ⟨m, s, a, b, e⟩ | ⟨m, s⟩ | ⟨d⟩
  · exact h.trans h'.symm
  · rcases m with _ | m <;> rcases s with _ | s <;> simp only [StandsFor] at h h'
    exact h.trans h'.symm
  · exact h.trans h'.symm
  · exact h.elim

theorem cells_eq {v : TreeVar} {c c' : Cells} (hs : SameType c c') {l : List (Option ℝ)} (hl : c.length = l.length)
    (hl' : c'.length = l.length) (h : ∀ r y, l[r]? = some y → Shows v c r y) (h' : ∀ r y, l[r]? = some y → Shows v c' r y) :
    c = c' := by
  have hext : ∀ {α : Type} (xs xs' : List α), xs.length = l.length → xs'.length = l.length →
      (∀ (r : ℕ) (y : Option ℝ), l[r]? = some y → xs[r]? = xs'[r]?) → xs = xs' := by
    intro α xs xs' h1 h2 h3
    refine List.ext_getElem? fun r => ?_
    by_cases hr : r < l.length
    · exact h3 r _ (List.getElem?_eq_getElem hr)
    · rw [List.getElem?_eq_none (by omega), List.getElem?_eq_none (by omega)]
  rcases c with xs | xs | xs | xs <;> rcases c' with xs' | xs' | xs' | xs' <;> simp only [SameType] at hs
  · congr 1
    refine hext xs xs' hl hl' fun r y hy => ?_
    obtain ⟨u, x, e, hx, hst⟩ := h r y hy
    obtain ⟨u', x', e', hx', hst'⟩ := h' r y hy
    rw [e] at e'
    injection e' with e'
    subst e'
    rw [hx, hx', standsFor_unique hst hst']
  · congr 1
    refine hext xs xs' hl hl' fun r y hy => ?_
    obtain ⟨u, x, e, hx, hst⟩ := h r y hy
    obtain ⟨u', x', e', hx', hst'⟩ := h' r y hy
    rw [e] at e'
    injection e' with e'
    subst e'
    have := standsFor_unique hst hst'
    rw [hx, hx', show x = x' by exact_mod_cast this]
  · congr 1
    refine hext xs xs' hl hl' fun r y hy => ?_
    obtain ⟨d, i, z, hk, e, x, hx, hd⟩ := h r y hy
    obtain ⟨d', i', z', hk', e', x', hx', hd'⟩ := h' r y hy
    rw [hk] at hk'
    injection hk' with hk'
    subst hk'
    rw [e] at e'
    injection e' with e'
    have hii : i = i' := by exact_mod_cast e'
    subst hii
    rw [hd] at hd'
    injection hd' with hd'
    have hxx : x = x' := (Prod.ext_iff.1 hd').1
    rw [hx, hx', hxx]

/-- C80.  Preprocessing loses no information: data frames with the same preprocessed data have the same cells in the columns of the
variables, if these have the same types. -/
theorem C80_lossless_partial {vars : List TreeVar} {F F' : Frame} (hF : ProperFrame F) (hF' : ProperFrame F')
    (hn : (vars.map TreeVar.name).Nodup) (hd : ∀ v ∈ vars, ∃ c, (v.name, c) ∈ F.columns ∧ Describes v c)
    (hd' : ∀ v ∈ vars, ∃ c, (v.name, c) ∈ F'.columns ∧ Describes v c) (he : preprocess vars F = preprocess vars F') :
    ∀ v ∈ vars, ∀ c c', (v.name, c) ∈ F.columns → (v.name, c') ∈ F'.columns → SameType c c' → c = c' := by
  intro v hv c c' hc hc' hs
  obtain ⟨M, h1, _, h3, h4⟩ := C80_values_partial hF hn hd
  obtain ⟨M', h1', _, h3', h4'⟩ := C80_values_partial hF' hn hd'
  rw [he, h1'] at h1
  injection h1 with h1
  subst h1
  obtain ⟨i, hi⟩ := List.mem_iff_getElem?.1 hv
  obtain ⟨b, l, hb, hl, hsh⟩ := h4 i v hi
  obtain ⟨b', l', hb', hl', hsh'⟩ := h4' i v hi
  rw [hl] at hl'
  injection hl' with hl'
  subst hl'
  have e1 : b = c := by
    have := lookup_of_nodup hF.names hb
    rw [lookup_of_nodup hF.names hc] at this
    injection this with this
    exact this.symm
  have e2 : b' = c' := by
    have := lookup_of_nodup hF'.names hb'
    rw [lookup_of_nodup hF'.names hc'] at this
    injection this with this
    exact this.symm
  subst e1 e2
  have hlm := List.mem_of_getElem? hl
  exact cells_eq hs ((hF.rows _ hb).trans (h3 l hlm).symm) ((hF'.rows _ hb').trans (h3' l hlm).symm) hsh hsh'

theorem sortedUnique_mem {α : Type} [LinearOrder α] {xs : List α} {x : α} : x ∈ sortedUnique xs ↔ x ∈ xs := by
  simp [sortedUnique]

theorem sortedUnique_lt {α : Type} [LinearOrder α] (xs : List α) : (sortedUnique xs).Pairwise (· < ·) := by
  have := Finset.sortedLT_sort xs.toFinset
  exact this.pairwise

/-- The least of the differences of neighbours is the least difference. -/
theorem min_diff : ∀ {l : List ℝ}, l.Pairwise (· < ·) → 2 ≤ l.length → ∃ d, (diff l).min? = some d ∧ 0 < d ∧
    (∀ x ∈ l, ∀ y ∈ l, x < y → d ≤ y - x) ∧ ∃ x ∈ l, ∃ y ∈ l, x < y ∧ d = y - x := by
  intro l
  induction l with
  | nil => intro _ h; simp at h
  | cons a l ih =>
    intro hp hl
    rcases l with _ | ⟨b, l⟩
    · simp at hl
    · obtain ⟨ha, hp'⟩ := List.pairwise_cons.1 hp
      have hab : a < b := ha b (by simp)
      have hdiff : diff (a :: b :: l) = (b - a) :: diff (b :: l) := rfl
      rcases l with _ | ⟨c, l⟩
      · refine ⟨b - a, rfl, by linarith, ?_, a, by simp, b, by simp, hab, rfl⟩
        intro x hx y hy hxy
        simp only [List.mem_cons, List.not_mem_nil, or_false] at hx hy
        rcases hx with rfl | rfl <;> rcases hy with rfl | rfl <;> first | exact le_rfl | linarith
      · obtain ⟨d, hd, hpos, hle, x, hx, y, hy, hxy, he⟩ := ih hp' (by simp)
        refine ⟨min (b - a) d, by rw [hdiff, List.min?_cons, hd]; rfl, lt_min (by linarith) hpos, ?_, ?_⟩
        · have hb : ∀ z ∈ b :: c :: l, b ≤ z := by
            intro z hz
            rcases List.mem_cons.1 hz with rfl | hz
            · exact le_rfl
            · exact ((List.pairwise_cons.1 hp').1 z hz).le
          intro x hx y hy hxy
          rcases List.mem_cons.1 hx with rfl | hx' <;> rcases List.mem_cons.1 hy with rfl | hy'
          · exact absurd hxy (lt_irrefl _)
          · exact (min_le_left _ _).trans (by linarith [hb y hy'])
          · exact absurd hxy (not_lt.2 (ha x hx').le)
          · exact (min_le_right _ _).trans (hle x hx' y hy' hxy)
        · rcases le_total (b - a) d with h | h
          · exact ⟨a, by simp, b, by simp, hab, min_eq_left h⟩
          · exact ⟨x, List.mem_cons_of_mem _ hx, y, List.mem_cons_of_mem _ hy, hxy, by rw [min_eq_right h, he]⟩

theorem minimalDistance_spec {xs : List ℝ} (h : xs ≠ []) : ∃ d, minimalDistance xs = .ok d ∧ 0 < d ∧
    (∀ x ∈ xs, ∀ y ∈ xs, x ≠ y → d ≤ |x - y|) ∧
    ((∃ x ∈ xs, ∃ y ∈ xs, x ≠ y) → ∃ x ∈ xs, ∃ y ∈ xs, x ≠ y ∧ d = |x - y|) := by
  unfold minimalDistance
  by_cases h1 : (sortedUnique xs).length = 1
  · rw [if_pos h1]
    obtain ⟨a, ha⟩ := List.length_eq_one_iff.1 h1
    have hall : ∀ x ∈ xs, x = a := fun x hx => by
      have := sortedUnique_mem.2 hx
      rw [ha] at this
      simpa using this
    refine ⟨1, rfl, one_pos, ?_, ?_⟩
    · intro x hx y hy hne
      exact absurd ((hall x hx).trans (hall y hy).symm) hne
    · rintro ⟨x, hx, y, hy, hne⟩
      exact absurd ((hall x hx).trans (hall y hy).symm) hne
  · rw [if_neg h1]
    have h2 : 2 ≤ (sortedUnique xs).length := by
      obtain ⟨x, hx⟩ := List.exists_mem_of_ne_nil _ h
      have := List.length_pos_of_mem (sortedUnique_mem.2 hx)
      omega
    obtain ⟨d, hd, hpos, hle, x, hx, y, hy, hlt, he⟩ := min_diff (sortedUnique_lt xs) h2
    rw [hd]
    refine ⟨d, rfl, hpos, ?_, fun _ => ⟨x, sortedUnique_mem.1 hx, y, sortedUnique_mem.1 hy, hlt.ne, ?_⟩⟩
    · intro x hx y hy hne
      rcases lt_or_gt_of_ne hne with h | h
      · rw [abs_sub_comm]
        exact (hle x (sortedUnique_mem.2 hx) y (sortedUnique_mem.2 hy) h).trans (le_abs_self _)
      · exact (hle y (sortedUnique_mem.2 hy) x (sortedUnique_mem.2 hx) h).trans (le_abs_self _)
    · rw [he, abs_sub_comm, abs_of_pos (by linarith)]

theorem std_ne_zero {xs : List ℝ} (h : ∃ x ∈ xs, ∃ y ∈ xs, x ≠ y) : std xs ≠ none ∧ std xs ≠ some 0 := by
  obtain ⟨x, hx, y, hy, hne⟩ := h
  have hlen : 1 < xs.length := by
    rcases xs with _ | ⟨a, _ | ⟨b, xs⟩⟩
    · simp at hx
    · simp only [List.mem_singleton] at hx hy
      exact absurd (hx.trans hy.symm) hne
    · simp
  rw [std, if_neg (by omega)]
  refine ⟨by simp, ?_⟩
  intro h0
  injection h0 with h0
  have hl1 : (0 : ℝ) < (xs.length : ℝ) - 1 := by
    have : (1 : ℝ) < xs.length := by exact_mod_cast hlen
    linarith
  set μ : ℝ := xs.sum / xs.length
  have hnn : 0 ≤ (xs.map fun x => (x - μ) ^ 2).sum := List.sum_nonneg (by
    intro z hz
    obtain ⟨w, _, rfl⟩ := List.mem_map.1 hz
    positivity)
  have hz : (xs.map fun x => (x - μ) ^ 2).sum = 0 := by
    have := (Real.sqrt_eq_zero (div_nonneg hnn hl1.le)).1 h0
    rcases div_eq_zero_iff.1 this with h | h
    · exact h
    · exact absurd h hl1.ne'
  have hall : ∀ z ∈ xs, z = μ := by
    intro z hz'
    have h1 : (z - μ) ^ 2 ≤ (xs.map fun x => (x - μ) ^ 2).sum := List.single_le_sum (by
      intro a ha
      obtain ⟨w, _, rfl⟩ := List.mem_map.1 ha
      positivity) _ (List.mem_map.2 ⟨z, hz', rfl⟩)
    rw [hz] at h1
    have h2 := pow_eq_zero_iff (two_ne_zero) |>.1 (le_antisymm h1 (sq_nonneg _))
    linarith
  exact hne ((hall x hx).trans (hall y hy).symm)

theorem inferVariable_ok {scale : Bool} {improvement : ℝ} {samples : ℤ} {nc : String × Cells} (hs : NumbersOrStrings nc.2)
    (hr : 0 < nc.2.length) (hv : scale = false ∨ Varies nc.2) :
    ∃ v, inferVariable scale improvement samples nc = .ok v ∧ v.name = nc.1 ∧ Describes v nc.2 := by
  obtain ⟨n, c⟩ := nc
  rcases c with xs | xs | xs | k
  · have hne : xs ≠ [] := List.length_pos_iff.1 hr
    obtain ⟨d, hd, _⟩ := minimalDistance_spec hne
    cases scale with
    | false => exact ⟨⟨n, .continuous (mean xs) (std xs) d improvement samples⟩, by simp [inferVariable, hd, bind, Except.bind], rfl, trivial⟩
    | true =>
      have hvar := hv.resolve_left (by simp)
      refine ⟨⟨n, .scaled (mean xs) (std xs) d improvement samples⟩, by simp [inferVariable, hd, bind, Except.bind], rfl, ?_⟩
      exact ⟨by simp [mean, hne], (std_ne_zero hvar).1, (std_ne_zero hvar).2⟩
  · exact ⟨_, rfl, rfl, trivial⟩
  · refine ⟨_, rfl, rfl, ?_, ?_⟩
    · rw [List.map_map, show (Prod.fst ∘ fun vi : String × ℕ => (vi.1, (vi.2 : ℤ))) = Prod.fst from rfl, List.zipIdx_map_fst]
      exact (sortedUnique_lt xs).imp fun h => ne_of_lt h
    · intro x hx
      rw [List.map_map, show (Prod.fst ∘ fun vi : String × ℕ => (vi.1, (vi.2 : ℤ))) = Prod.fst from rfl, List.zipIdx_map_fst]
      exact sortedUnique_mem.2 hx
  · exact hs.elim

/-- C80, full: the variables that are inferred from a data frame of numbers and strings, scaled or not, can be used to preprocess it,
and the result shows all cells. -/
def C80_full : Prop :=
  ∀ F : Frame, ProperFrame F → 0 < F.rows → (∀ c ∈ F.columns, NumbersOrStrings c.2) → ∀ (scale : Bool) (improvement : ℝ) (samples : ℤ),
    ∃ vars M, inferVariables F scale improvement samples = .ok vars ∧ vars.map TreeVar.name = F.columns.map Prod.fst ∧
      preprocess (sortVars vars) F = .ok M ∧ M.length = F.columns.length ∧ (∀ l ∈ M, l.length = F.rows) ∧
      ∀ (i : ℕ) (v : TreeVar), (sortVars vars)[i]? = some v → ∃ c l, (v.name, c) ∈ F.columns ∧ M[i]? = some l ∧
        ∀ r y, l[r]? = some y → Shows v c r y

/-- C80 for inferred variables that are not scaled, and for scaled ones if every column of floats has two different values. -/
theorem C80_inferred_partial {F : Frame} (hF : ProperFrame F) (hr : 0 < F.rows) (hs : ∀ c ∈ F.columns, NumbersOrStrings c.2) (scale : Bool)
    (improvement : ℝ) (samples : ℤ) (hv : scale = false ∨ ∀ c ∈ F.columns, Varies c.2) :
    ∃ vars M, inferVariables F scale improvement samples = .ok vars ∧ vars.map TreeVar.name = F.columns.map Prod.fst ∧
      preprocess (sortVars vars) F = .ok M ∧ M.length = F.columns.length ∧ (∀ l ∈ M, l.length = F.rows) ∧
      ∀ (i : ℕ) (v : TreeVar), (sortVars vars)[i]? = some v → ∃ c l, (v.name, c) ∈ F.columns ∧ M[i]? = some l ∧
        ∀ r y, l[r]? = some y → Shows v c r y := by
  have hone : ∀ nc ∈ F.columns, ∃ v, inferVariable scale improvement samples nc = .ok v ∧ v.name = nc.1 ∧ Describes v nc.2 :=
    fun nc hnc => inferVariable_ok (hs nc hnc) (by rw [hF.rows nc hnc]; exact hr) (hv.imp_right fun h => h nc hnc)
  have : Nonempty TreeVar := ⟨⟨"", .integer none none⟩⟩
  choose! f hf using hone
  have hinf : inferVariables F scale improvement samples = .ok (F.columns.map f) := mapM_ok' fun nc hnc => (hf nc hnc).1
  have hnames : (F.columns.map f).map TreeVar.name = F.columns.map Prod.fst := by
    rw [List.map_map]
    exact List.map_congr_left fun nc hnc => (hf nc hnc).2.1
  have hn : ((F.columns.map f).map TreeVar.name).Nodup := hnames ▸ hF.names
  obtain ⟨M, h1, h2, h3, h4⟩ := C80_values_partial (vars := sortVars (F.columns.map f)) hF (sorted_sortVars hn).nodup_names (by
    intro v hv'
    obtain ⟨nc, hnc, rfl⟩ := List.mem_map.1 (mem_sortVars.1 hv')
    exact ⟨nc.2, by rw [(hf nc hnc).2.1]; exact hnc, (hf nc hnc).2.2⟩)
  exact ⟨_, M, hinf, hnames, h1, h2, h3, h4⟩

example : ∃ F : Frame, ProperFrame F ∧ 0 < F.rows ∧ (∀ c ∈ F.columns, NumbersOrStrings c.2) ∧ (∀ c ∈ F.columns, Varies c.2) ∧
    F.columns.length = 3 := by
  refine ⟨⟨2, [("x", .floats [1, 2]), ("k", .ints [3, 3]), ("s", .objects ["b", "a"])]⟩, ⟨by simp, ?_⟩, by norm_num, ?_, ?_, rfl⟩
  · simp [Cells.length]
  · simp [NumbersOrStrings]
  · simp only [List.mem_cons, List.not_mem_nil, or_false, forall_eq_or_imp, forall_eq, Varies, and_true]
    exact ⟨1, by simp, 2, by simp, by norm_num⟩

/-- A column with the value three twice, scaled: the preprocessed data is not a number. -/
theorem C80_full_false : ¬ C80_full := by
  intro h
  obtain ⟨vars, M, h1, _, h2, _, h3, h4⟩ := h ⟨2, [("x", .floats [3, 3])]⟩ ⟨by simp, by simp [Cells.length]⟩ (by norm_num)
    (by simp [NumbersOrStrings]) true 0 1
  obtain ⟨d, hd, _⟩ := minimalDistance_spec (xs := [3, 3]) (by simp)
  have hvars : vars = [⟨"x", .scaled (mean [3, 3]) (std [3, 3]) d 0 1⟩] := by
    simp only [inferVariables, List.mapM_cons, List.mapM_nil, inferVariable, hd, bind, Except.bind, pure, Except.pure, if_true] at h1
    injection h1 with h1
    exact h1.symm
  have hstd : std [3, 3] = some 0 := by
    rw [std, if_neg (by simp)]
    congr 1
    norm_num
  subst hvars
  have hsort : sortVars [⟨"x", .scaled (mean [3, 3]) (std [3, 3]) d 0 1⟩] = [⟨"x", .scaled (mean [3, 3]) (std [3, 3]) d 0 1⟩] := by
    simp [sortVars]
  rw [hsort] at h2 h4
  obtain ⟨c, l, hc, hl, hsh⟩ := h4 0 _ rfl
  simp only [List.mem_singleton, Prod.mk.injEq, true_and] at hc
  subst hc
  have hlen := h3 l (List.mem_of_getElem? hl)
  obtain ⟨y, hy⟩ : ∃ y, l[0]? = some y := ⟨_, List.getElem?_eq_getElem (by rw [hlen]; norm_num)⟩
  obtain ⟨u, x, rfl, hx, hst⟩ := hsh 0 y hy
  rw [hstd] at hst h2
  have hM : preprocess [⟨"x", .scaled (mean [3, 3]) (some 0) d 0 1⟩] ⟨2, [("x", .floats [3, 3])]⟩
      = .ok [[3, 3].map (encodeCell (mean [3, 3]) (some 0))] := rfl
  rw [hM] at h2
  injection h2 with h2
  subst h2
  simp only [List.getElem?_cons_zero, Option.some.injEq] at hl
  subst hl
  have hnan : encodeCell (mean [3, 3]) (some 0) 3 = none := by simp [encodeCell, mean]
  simp [hnan] at hy

/-- C80.  The `minimal_distance` of an inferred continuous variable is positive and the least distance of two different values of the
column, if there are some. -/
theorem C80_distance {scale : Bool} {improvement : ℝ} {samples : ℤ} {name : String} {xs : List ℝ} (hne : xs ≠ []) :
    ∃ m s d, inferVariable scale improvement samples (name, .floats xs) =
        .ok ⟨name, if scale then .scaled m s d improvement samples else .continuous m s d improvement samples⟩ ∧ 0 < d ∧
      (∀ x ∈ xs, ∀ y ∈ xs, x ≠ y → d ≤ |x - y|) ∧
      ((∃ x ∈ xs, ∃ y ∈ xs, x ≠ y) → ∃ x ∈ xs, ∃ y ∈ xs, x ≠ y ∧ d = |x - y|) := by
  obtain ⟨d, hd, h1, h2, h3⟩ := minimalDistance_spec hne
  refine ⟨mean xs, std xs, d, ?_, h1, h2, h3⟩
  simp only [inferVariable, hd, bind, Except.bind]

/-! ### C81 -/

/-- C81, full: in a leaf, the probability of an element of the domain of a symbolic variable is its relative frequency in the data
frame, for all domains (elements with different names and values, in the order of the values). -/
def C81_full : Prop :=
  ∀ (name : String) (d : List (String × ℤ)), (d.map Prod.fst).Nodup → (d.map Prod.snd).Pairwise (· < ·) →
    ∀ hash : ℤ → ℤ, Function.Injective hash → ∀ xs : List String, xs ≠ [] → (∀ x ∈ xs, x ∈ d.map Prod.fst) →
      ∃ ks probs, encodeColumn ⟨name, .symbolic d⟩ (.objects xs) = .ok (ks.map fun k : ℤ => some (k : ℝ)) ∧
        Leaf.fitSymbolic (d.map fun e => (e.2, hash e.2)) ks = .ok probs ∧
        ∀ e ∈ d, Leaf.lookup probs (hash e.2) = (xs.count e.1 : ℝ) / xs.length

/-- C81 for domains in which the value of every element is its position, as those of inferred variables. -/
theorem C81_frequencies_partial (name : String) {d : List (String × ℤ)} (hd : (d.map Prod.fst).Nodup)
    (hpos : ∀ (i : ℕ) (e : String × ℤ), d[i]? = some e → e.2 = i) {hash : ℤ → ℤ} (hh : Function.Injective hash) {xs : List String}
    (hne : xs ≠ []) (hx : ∀ x ∈ xs, x ∈ d.map Prod.fst) :
    ∃ ks probs, encodeColumn ⟨name, .symbolic d⟩ (.objects xs) = .ok (ks.map fun k : ℤ => some (k : ℝ)) ∧
      Leaf.fitSymbolic (d.map fun e => (e.2, hash e.2)) ks = .ok probs ∧
      ∀ e ∈ d, Leaf.lookup probs (hash e.2) = (xs.count e.1 : ℝ) / xs.length := by
  have hval : (d.map Prod.snd).Nodup := by
    rw [List.nodup_iff_injective_getElem]
    intro i j hij
    simp only [List.getElem_map] at hij
    have h1 := hpos i _ (List.getElem?_eq_getElem (by simpa using i.2))
    have h2 := hpos j _ (List.getElem?_eq_getElem (by simpa using j.2))
    rw [h1, h2] at hij
    exact Fin.ext (by exact_mod_cast hij)
  have hidx : ∀ e ∈ d, e.2 = (indexOfElement d e.1 : ℤ) := by
    intro e he
    obtain ⟨z, hz⟩ := getElem?_indexOfElement (List.mem_map.2 ⟨e, he, rfl⟩)
    have h1 := hpos _ _ hz
    have : e = (e.1, z) := List.inj_on_of_nodup_map hd he (List.mem_of_getElem? hz) rfl
    rw [this]
    exact h1
  have hks : ∀ k ∈ (xs.map fun x => (indexOfElement d x : ℤ)), k ∈ (d.map fun e => (e.2, hash e.2)).map Prod.fst := by
    intro k hk
    obtain ⟨x, hxm, rfl⟩ := List.mem_map.1 hk
    obtain ⟨e, he, rfl⟩ := List.mem_map.1 (hx x hxm)
    rw [List.map_map]
    exact List.mem_map.2 ⟨e, he, hidx e he⟩
  obtain ⟨probs, h1, h2, _⟩ := C32_fit_symbolic (domain := d.map fun e => (e.2, hash e.2)) (data := xs.map fun x => (indexOfElement d x : ℤ))
    (by simpa using hne) (by rw [List.map_map]; exact hval) (by
      rw [List.map_map]
      have : (Prod.snd ∘ fun e : String × ℤ => (e.2, hash e.2)) = hash ∘ Prod.snd := rfl
      rw [this, ← List.map_map]
      exact hval.map hh) hks
  refine ⟨_, probs, ?_, h1, ?_⟩
  · change xs.mapM (elementIndex d) = _
    rw [symbolic_column hd hx, List.map_map]
    simp [Function.comp_def]
  · intro e he
    rw [h2 (e.2, hash e.2) (List.mem_map.2 ⟨e, he, rfl⟩), List.length_map]
    congr 2
    rw [hidx e he]
    clear hne h1 h2 hks
    induction xs with
    | nil => rfl
    | cons x xs ih =>
      rw [List.map_cons, List.count_cons, List.count_cons, ih fun y hy => hx y (by simp [hy])]
      congr 1
      have : ((indexOfElement d x : ℤ) = (indexOfElement d e.1 : ℤ)) ↔ x = e.1 := by
        constructor
        · intro h
          have h' : indexOfElement d x = indexOfElement d e.1 := by exact_mod_cast h
          obtain ⟨z, hz⟩ := getElem?_indexOfElement (hx x (by simp))
          obtain ⟨z', hz'⟩ := getElem?_indexOfElement (List.mem_map.2 ⟨e, he, rfl⟩)
          rw [h', hz'] at hz
          injection hz with hz
          exact (Prod.ext_iff.1 hz).1.symm
        · rintro rfl; rfl
      by_cases hxe : x = e.1
      · simp [hxe]
      · have h1 : ((indexOfElement d x : ℤ) ≠ (indexOfElement d e.1 : ℤ)) := fun h => hxe (this.1 h)
        simp [hxe, h1]

/-- The domains of inferred variables are such domains. -/
theorem C81_inferred (scale : Bool) (improvement : ℝ) (samples : ℤ) (name : String) (xs : List String) :
    ∃ d, inferVariable scale improvement samples (name, .objects xs) = .ok ⟨name, .symbolic d⟩ ∧ (d.map Prod.fst).Nodup ∧
      (∀ (i : ℕ) (e : String × ℤ), d[i]? = some e → e.2 = i) ∧ ∀ x, x ∈ d.map Prod.fst ↔ x ∈ xs := by
  have hfst : ((sortedUnique xs).zipIdx.map fun vi => (vi.1, (vi.2 : ℤ))).map Prod.fst = sortedUnique xs := by
    rw [List.map_map, show (Prod.fst ∘ fun vi : String × ℕ => (vi.1, (vi.2 : ℤ))) = Prod.fst from rfl, List.zipIdx_map_fst]
  refine ⟨_, rfl, ?_, ?_, ?_⟩
  · rw [hfst]
    exact (sortedUnique_lt xs).imp fun h => ne_of_lt h
  · intro i e he
    rw [List.getElem?_map, Option.map_eq_some_iff] at he
    obtain ⟨a, ha, rfl⟩ := he
    rw [List.getElem?_zipIdx, Option.map_eq_some_iff] at ha
    obtain ⟨b, _, rfl⟩ := ha
    simp
  · intro x
    rw [hfst]
    exact sortedUnique_mem

example : ∀ (i : ℕ) (e : String × ℤ), [("a", (0 : ℤ)), ("b", 1), ("c", 2)][i]? = some e → e.2 = i := by
  intro i e h
  match i, h with
  | 0, h => simp at h; rw [← h]; rfl
  | 1, h => simp at h; rw [← h]; rfl
  | 2, h => simp at h; rw [← h]; rfl
  | i + 3, h => simp at h

/-- An enumeration that starts with one: if all cells are the second element, the leaf gives all probability to the first one. -/
theorem C81_wrong_element : ∃ probs,
    encodeColumn ⟨"s", .symbolic [("a", 1), ("b", 2)]⟩ (.objects ["b"]) = .ok ([(1 : ℤ)].map fun k : ℤ => some (k : ℝ)) ∧
    Leaf.fitSymbolic ([("a", (1 : ℤ)), ("b", 2)].map fun e => (e.2, id e.2)) [(1 : ℤ)] = .ok probs ∧
    Leaf.lookup probs 1 = 1 ∧ Leaf.lookup probs 2 = 0 := by
  obtain ⟨probs, h1, h2, _⟩ := C32_fit_symbolic (domain := [((1 : ℤ), (1 : ℤ)), (2, 2)]) (data := [(1 : ℤ)]) (by simp) (by decide)
    (by decide) (by simp)
  refine ⟨probs, ?_, h1, ?_, ?_⟩
  · have h := symbolic_column (d := [("a", (1 : ℤ)), ("b", 2)]) (xs := ["b"]) (by simp) (by simp)
    change ["b"].mapM (elementIndex [("a", (1 : ℤ)), ("b", 2)]) = _
    rw [h]
    have : indexOfElement [("a", (1 : ℤ)), ("b", 2)] "b" = 1 := by
      simp [indexOfElement]
    simp [this]
  · simpa using h2 (1, 1) (by simp)
  · simpa using h2 (2, 2) (by simp)

/-- The full property is false. -/
theorem C81_full_false : ¬ C81_full := by
  intro h
  obtain ⟨ks, probs, h1, h2, h3⟩ := h "s" [("a", 1), ("b", 2)] (by simp) (by simp) id Function.injective_id ["b"] (by simp) (by simp)
  obtain ⟨probs', h1', h2', _, h4'⟩ := C81_wrong_element
  rw [h1'] at h1
  injection h1 with h1
  have hks : [1] = ks := List.map_injective_iff.2 (fun a b h => by simpa using h) h1
  rw [← hks, h2'] at h2
  injection h2 with h2
  subst h2
  have := h3 ("b", 2) (by simp)
  simp only [id] at this
  rw [h4'] at this
  norm_num at this

end PM.Props
