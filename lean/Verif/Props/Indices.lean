import Verif.Jax.IndicesLemmas
import Verif.Learn.Variables
import Mathlib.Tactic.FieldSimp
import Mathlib.Tactic.Ring

/-!
# C43, C47, C48, C49: standardisation, index arrays, parameter slices
-/

namespace PM.Props

open Spec Jax Learn

/-- C43: encoding and decoding are inverse to each other for every standardized variable with a standard deviation other than
zero. -/
theorem C43_round_trip (v : ScaledContinuous) (h : v.std ≠ 0) (x y : ℝ) : v.decode (v.encode x) = x ∧ v.encode (v.decode y) = y := by
  unfold ScaledContinuous.decode ScaledContinuous.encode
  constructor
  · field_simp; ring
  · field_simp; ring

example : (⟨3, 2⟩ : ScaledContinuous).std ≠ 0 := by norm_num

/-- Encoding keeps the order of values for a positive standard deviation. -/
theorem C43_order (v : ScaledContinuous) (h : 0 < v.std) (x y : ℝ) : v.encode x ≤ v.encode y ↔ x ≤ y := by
  unfold ScaledContinuous.encode
  rw [div_le_div_iff_of_pos_right h]
  exact sub_le_sub_iff_right _

/-- The full property C47. -/
def C47_full : Prop := ∀ l : List ℕ, l ≠ [] → ∃ idx, bcooIndices l = .ok idx ∧ Enumerates l idx

/-- C47, exactly: the indices are right if and only if each non-empty row after the second one has only empty rows two or more
before it.  Missing with respect to C47: all other row lengths, for which the code is wrong. -/
theorem C47_indices_partial (l : List ℕ) (hl : l ≠ []) : (∃ idx, bcooIndices l = .ok idx ∧ Enumerates l idx) ↔
    ∀ r (h : r < l.length), 2 ≤ r → 0 < l[r] → ∀ q (h' : q < r - 1), l[q]'(by omega) = 0 := by
  have h1 : (∃ idx, bcooIndices l = .ok idx ∧ Enumerates l idx) ↔ rowsFrom 0 0 0 l = cellsFrom 0 l := by
    rw [bcooIndices_eq hl]
    constructor
    · rintro ⟨idx, h, h'⟩
      injection h with h
      rw [h]
      exact Enumerates.unique h' (enumerates_cells l)
    · intro h
      exact ⟨_, rfl, h ▸ enumerates_cells l⟩
  rw [h1, rowsFrom_eq_cells]
  have hz : ∀ r, (∀ q (h' : q < r - 1) (h : q < l.length), l[q] = 0) ↔ (l.take (r - 1)).sum = 0 := by
    intro r
    rw [List.sum_eq_zero_iff]
    constructor
    · intro h x hx
      obtain ⟨i, hi, rfl⟩ := List.getElem_of_mem hx
      rw [List.getElem_take]
      simp only [List.length_take, lt_min_iff] at hi
      exact h i hi.1 hi.2
    · intro h q hq hq'
      have : l[q] ∈ l.take (r - 1) := by
        have h2 : q < (l.take (r - 1)).length := by simp; omega
        have := List.getElem_mem h2
        rwa [List.getElem_take] at this
      exact h _ this
  constructor
  · intro h r hr h2 hp q hq
    have := h r hr hp
    obtain ⟨s, rfl⟩ : ∃ s, r = s + 1 := ⟨r - 1, by omega⟩
    rw [List.getElem_cons_succ, List.take_succ_eq_append_getElem (by omega), List.sum_append] at this
    simp at this
    exact (hz (s + 1)).2 (by simpa using this) q hq (by omega)
  · intro h r hr hp
    rcases r with _ | s
    · simp
    · rw [List.getElem_cons_succ, List.take_succ_eq_append_getElem (by omega), List.sum_append]
      have : (l.take s).sum = 0 := by
        rcases s with _ | s
        · simp
        · have := (hz (s + 2)).1 fun q h' _ => h (s + 2) hr (by omega) hp q h'
          simpa using this
      simp [this]

/-- Two rows, as in the documentation of the function: always right. -/
theorem C47_two_rows (a b : ℕ) : ∃ idx, bcooIndices [a, b] = .ok idx ∧ Enumerates [a, b] idx :=
  (C47_indices_partial [a, b] (by simp)).2 fun r h h2 => by simp at h; omega

/-- C47 is false of the code: three rows of one cell each. -/
theorem C47_full_false : ¬ C47_full := by
  intro H
  have := (C47_indices_partial [1, 1, 1] (by simp)).1 (H _ (by simp)) 2 (by simp) (by simp) (by simp) 0 (by simp)
  simp at this

/-- The row pointers of the compressed variant are right for all row lengths: pointer `i` is the number of cells in the first
`i` rows. -/
theorem C47_row_pointers (l : List ℕ) (hl : l ≠ []) : ∃ cols ptr, bcsrIndices l = .ok (cols, ptr) ∧ ptr.length = l.length + 1 ∧
    ∀ i (h : i < ptr.length), ptr[i] = (l.take i).sum := by
  have h0 : (0 :: l.dropLast).length = l.length := by
    have := List.length_pos_of_ne_nil hl
    simp; omega
  unfold bcsrIndices
  rw [npRepeat_ok h0]
  refine ⟨_, _, rfl, by simp [length_cumsum], fun i h => ?_⟩
  rcases i with _ | i
  · simp
  · rw [List.getElem_cons_succ, getElem_cumsum]; simp

/-- C48: each column of an array of natural numbers is compacted.  (Indices of sparse arrays are natural numbers; see
`C48_negative` for others.) -/
theorem C48_shrink_partial (width : ℕ) (index : List Row) (hpos : ∀ r ∈ index, ∀ d < width, 0 ≤ r d) :
    ∀ d < width, Compacted (index.map fun r => r d) ((shrinkIndexArray width index).map fun r => r d) := by
  intro d hd
  rw [shrinkIndexArray_eq, List.map_map]
  have hs : ∀ z ∈ (index.map fun r => r d).toFinset, 0 ≤ z := by
    intro z hz
    obtain ⟨r, hr, rfl⟩ := List.mem_map.1 (List.mem_toFinset.1 hz)
    exact hpos r hr d hd
  obtain ⟨h1, h2⟩ := newIndex_spec hs
  have hmem : ∀ i (h : i < index.length), index[i] d ∈ (index.map fun r => r d).toFinset := fun i h =>
    List.mem_toFinset.2 (List.mem_map.2 ⟨_, List.getElem_mem h, rfl⟩)
  refine ⟨by simp, fun i j hi hj => ?_, ⟨(index.map fun r => r d).toFinset.card, fun z => ?_⟩⟩
  · simp only [List.length_map] at hi hj
    simp only [List.getElem_map, Function.comp, if_pos hd]
    exact h1 _ (hmem i hi) _ (hmem j hj)
  · rw [← h2 z]
    simp only [List.mem_map, Function.comp, if_pos hd, List.mem_toFinset]
    constructor
    · rintro ⟨r, hr, rfl⟩; exact ⟨_, ⟨r, hr, rfl⟩, rfl⟩
    · rintro ⟨_, ⟨r, hr, rfl⟩, rfl⟩; exact ⟨r, hr, rfl⟩

/-- The example of the documentation: rows `(0, 3), (1, 0), (4, 1)`. -/
example : ∀ r ∈ ([fun d => if d = 0 then 0 else 3, fun d => if d = 0 then 1 else 0, fun d => if d = 0 then 4 else 1] : List Row),
    ∀ d < 2, 0 ≤ r d := by
  intro r hr d hd
  simp only [List.mem_cons, List.not_mem_nil, or_false] at hr
  rcases hr with rfl | rfl | rfl <;> (simp only; split <;> norm_num)

/-- With a negative entry, different indices are merged: the column `-1, 0` becomes `1, 1`. -/
theorem C48_negative : ¬ ∀ (width : ℕ) (index : List Row), ∀ d < width,
    Compacted (index.map fun r => r d) ((shrinkIndexArray width index).map fun r => r d) := by
  intro H
  have h := (H 1 [fun _ => -1, fun _ => 0] 0 (by norm_num)).order 1 0 (by simp) (by simp)
  have he : (shrinkIndexArray 1 [fun _ => -1, fun _ => 0]).map (fun r => r 0) = [1, 1] := by
    rw [shrinkIndexArray_eq]
    have hu : ({-1, 0} : Finset ℤ).sort (· ≤ ·) = [-1, 0] := by
      have := Finset.sort_insert (r := (· ≤ ·)) (a := (-1 : ℤ)) (s := {0}) (by simp) (by simp)
      rw [Finset.sort_singleton] at this
      exact this
    simp [newIndex, hu, stepEntry]
  simp [he] at h

/-- C48, removal of rows and columns: the result stores exactly the entries with another value than `value`, in order; in every
dimension their indices are compacted, and the shape is the number of different indices that are left. -/
theorem C48_remove {width : ℕ} {a b : Sparse} {value : ℝ} (hpos : ∀ e ∈ a.entries, ∀ d < width, 0 ≤ e.2 d)
    (h : sparseRemove width a value = .ok b) :
    b.entries.map Prod.fst = (a.entries.map Prod.fst).filter (fun x => x ≠ value) ∧
    (∀ d < width, Compacted ((a.entries.filter fun e => e.1 ≠ value).map fun e => e.2 d) (b.entries.map fun e => e.2 d) ∧
      ∀ z, (0 ≤ z ∧ z < b.shape d ↔ ∃ e ∈ b.entries, e.2 d = z)) := by
  classical
  unfold sparseRemove at h
  simp only at h
  generalize hv : (a.entries.filter fun e => e.1 ≠ value) = valid at h
  have hvalid : (List.filter (fun e => decide (e.1 ≠ value)) a.entries) = valid := by rw [← hv]
  have hmem : ∀ r ∈ valid.map Prod.snd, ∀ d < width, 0 ≤ r d := by
    intro r hr d hd
    obtain ⟨e, he, rfl⟩ := List.mem_map.1 hr
    rw [← hvalid] at he
    exact hpos e (List.mem_of_mem_filter he) d hd
  have hlen : (shrinkIndexArray width (valid.map Prod.snd)).length = valid.length := by rw [shrinkIndexArray_eq]; simp
  have hC := C48_shrink_partial width _ hmem
  generalize hidx : shrinkIndexArray width (valid.map Prod.snd) = idx at h hlen hC
  cases idx with
  | nil => cases h
  | cons r rs =>
    injection h with h
    subst h
    have hsnd : ((valid.map Prod.fst).zip (r :: rs)).map Prod.snd = r :: rs := List.map_snd_zip (by rw [List.length_map, hlen])
    have hfst : ((valid.map Prod.fst).zip (r :: rs)).map Prod.fst = valid.map Prod.fst := List.map_fst_zip (by rw [List.length_map, hlen])
    refine ⟨?_, fun d hd => ?_⟩
    · show ((valid.map Prod.fst).zip (r :: rs)).map Prod.fst = _
      rw [hfst, List.filter_map, ← hvalid]
      rfl
    · have hcol : ((valid.map Prod.fst).zip (r :: rs)).map (fun e => e.2 d) = (r :: rs).map fun s => s d := by
        conv_rhs => rw [← hsnd]
        rw [List.map_map]; rfl
      have hcd := hC d hd
      rw [List.map_map] at hcd
      refine ⟨?_, fun z => ?_⟩
      · show Compacted _ (((valid.map Prod.fst).zip (r :: rs)).map fun e => e.2 d)
        rw [hcol]
        exact hcd
      · obtain ⟨k, hk⟩ := hcd.initial
        have hm := foldl_max_spec (rs.map fun s => s d) (r d)
        have hex : (∃ e ∈ (valid.map Prod.fst).zip (r :: rs), e.2 d = z) ↔ z ∈ (r :: rs).map fun s => s d := by
          rw [← hcol, List.mem_map]
        rw [hex, hk z]
        show 0 ≤ z ∧ z < (rs.map fun s => s d).foldl max (r d) + 1 ↔ _
        have h1 := (hk _).1 (show (rs.map fun s => s d).foldl max (r d) ∈ (r :: rs).map fun s => s d from hm.2)
        have h2 : ((k : ℤ) - 1) ∈ (r :: rs).map fun s => s d := (hk _).2 ⟨by omega, by omega⟩
        have h3 := hm.1 _ h2
        omega

/-- The removal succeeds if some entry is left; otherwise the maximum over no rows raises `ValueError`. -/
theorem C48_remove_defined (width : ℕ) (a : Sparse) (value : ℝ) :
    (∃ b, sparseRemove width a value = .ok b) ↔ ∃ e ∈ a.entries, e.1 ≠ value := by
  classical
  unfold sparseRemove
  simp only
  constructor
  · rintro ⟨b, h⟩
    by_contra hc
    push Not at hc
    have : (a.entries.filter fun e => decide (e.1 ≠ value)) = [] := by
      rw [List.filter_eq_nil_iff]
      intro e he
      simpa using hc e he
    rw [this, shrinkIndexArray_eq] at h
    cases h
  · rintro ⟨e, he, hv⟩
    have hm : e ∈ a.entries.filter fun e => decide (e.1 ≠ value) := List.mem_filter.2 ⟨he, by simpa using hv⟩
    cases hf : a.entries.filter fun e => decide (e.1 ≠ value) with
    | nil => rw [hf] at hm; cases hm
    | cons x l =>
      rw [shrinkIndexArray_eq, List.map_cons, List.map_cons]
      exact ⟨_, rfl⟩

/-- A removal with three entries, one of which is dropped. -/
example : ∃ b, sparseRemove 1 ⟨[(5, fun _ => 2), (0, fun _ => 4), (7, fun _ => 9)], fun _ => 10⟩ 0 = .ok b ∧
    b.entries.map Prod.fst = [5, 7] := by
  obtain ⟨b, h⟩ := (C48_remove_defined 1 ⟨[(5, fun _ => 2), (0, fun _ => 4), (7, fun _ => 9)], fun _ => 10⟩ 0).2
    ⟨(5, fun _ => 2), by simp, by norm_num⟩
  refine ⟨b, h, ?_⟩
  rw [(C48_remove (by simp) h).1]
  simp

/-- C49: the slices cut a parameter vector of the length that `validate` demands into consecutive pieces of the lengths of the
parameter arrays, without gap or overlap, and nothing is left over. -/
theorem C49_slices {α : Type} (lengths : List ℕ) (params : List α) (h : params.length = numberOfParameters lengths) :
    (splitParameters lengths params).flatten = params ∧ (splitParameters lengths params).map List.length = lengths := by
  have := splitParameters_from lengths 0 params (by rw [h, numberOfParameters, Nat.zero_add])
  exact ⟨this.1.trans (List.drop_zero), this.2⟩

example : ([1, 2, 3, 4, 5] : List ℕ).length = numberOfParameters [2, 0, 3] := rfl

/-- A slice starts where the one before ends. -/
theorem C49_consecutive (lengths : List ℕ) : (slices 0 lengths).length = lengths.length ∧
    ∀ i (h : i < (slices 0 lengths).length), (slices 0 lengths)[i] = ((lengths.take i).sum, (lengths.take (i + 1)).sum) := by
  have key : ∀ (l : List ℕ) (o : ℕ), (slices o l).length = l.length ∧
      ∀ i (h : i < (slices o l).length), (slices o l)[i] = (o + (l.take i).sum, o + (l.take (i + 1)).sum) := by
    intro l
    induction l with
    | nil => intro o; simp [slices]
    | cons n l ih =>
      intro o
      obtain ⟨h1, h2⟩ := ih (o + n)
      refine ⟨by simp [slices, h1], fun i h => ?_⟩
      rcases i with _ | i
      · simp [slices]
      · simp only [slices, List.getElem_cons_succ, h2, List.take_succ_cons, List.sum_cons, Prod.mk.injEq]
        omega
  obtain ⟨h1, h2⟩ := key lengths 0
  exact ⟨h1, fun i h => by rw [h2 i h]; simp⟩

end PM.Props
