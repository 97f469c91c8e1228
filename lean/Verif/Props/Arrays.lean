import Verif.Jax.Arrays
import Verif.Spec.Arrays

/-!
# C93: helpers for arrays of the layered circuits
-/

namespace PM.Props
open PM PM.Jax PM.Jax.Spec

theorem masked_map {α : Type} (l : List α) (p : α → Bool) : masked l (l.map p) = l.filter p := by
  induction l with
  | nil => rfl
  | cons a l ih => simp only [List.map_cons, masked, ih, List.filter_cons]

theorem masked_range {α : Type} (l : List α) (p : ℕ → Bool) :
    masked l ((List.range l.length).map p) = ((List.range l.length).filter p).filterMap fun j => l[j]? := by
  induction l generalizing p with
  | nil => rfl
  | cons a l ih =>
    rw [List.length_cons, List.range_succ_eq_map, List.map_cons, List.map_map, List.filter_cons, masked]
    have h1 : (List.filter p ((List.range l.length).map Nat.succ)).filterMap (fun j => (a :: l)[j]?)
        = ((List.range l.length).filter (p ∘ Nat.succ)).filterMap fun j => l[j]? := by
      rw [List.filter_map, List.filterMap_map]
      rfl
    split_ifs with h
    · rw [List.filterMap_cons]
      simp only [List.getElem?_cons_zero]
      rw [ih, h1]
    · rw [ih, h1]

/-- **C93 (removing rows and columns).**  The result of `remove_rows_and_cols_where_all` consists of the entries in the rows and columns
that have some entry different from the value, in their order: there are increasing lists of exactly those rows and columns, and entry
`(a, b)` of the result is the entry in the `a`-th of these rows and the `b`-th of these columns. -/
theorem C93_remove (width : ℕ) (array : List (List ℝ)) (value : ℝ) (h : Rectangular width array) :
    ∃ rows cols : List ℕ, Enumerates (fun i => ∃ j, Differs array value i j) rows ∧ Enumerates (fun j => ∃ i, Differs array value i j) cols ∧
      (removeRowsAndCols width array value).length = rows.length ∧
      ∀ (a i : ℕ), rows[a]? = some i → ∃ row old, (removeRowsAndCols width array value)[a]? = some row ∧ array[i]? = some old ∧
        row.length = cols.length ∧ ∀ (b j : ℕ), cols[b]? = some j → ∃ x, row[b]? = some x ∧ old[j]? = some x := by
  classical
  set p : List ℝ → Bool := fun row => row.any fun x => decide (x ≠ value) with hp
  set q : ℕ → Bool := fun j => array.any fun row => row[j]?.any fun x => decide (x ≠ value) with hq
  have hsort : ∀ (n : ℕ) (f : ℕ → Bool), ((List.range n).filter f).Pairwise (· < ·) := fun n f =>
    (List.pairwise_lt_range).filter f
  have hres : removeRowsAndCols width array value
      = ((List.range array.length).filter fun i => array[i]?.any p).filterMap fun i =>
          array[i]?.map fun row => ((List.range width).filter q).filterMap fun j => row[j]? := by
    have h1 : masked array (array.map p) = ((List.range array.length).filter fun i => array[i]?.any p).filterMap fun i => array[i]? := by
      have : array.map p = (List.range array.length).map fun i => array[i]?.any p := by
        refine List.ext_getElem (by simp) fun i hi hi' => ?_
        simp only [List.length_map] at hi
        simp [List.getElem?_eq_getElem hi]
      rw [this, masked_range]
    show (masked array (array.map p)).map (fun row => masked row ((List.range width).map q)) = _
    rw [h1, List.map_filterMap]
    refine List.filterMap_congr fun i _ => ?_
    cases hi : array[i]? with
    | none => rfl
    | some row =>
      have hl := h row (List.mem_of_getElem? hi)
      subst hl
      simp only [Option.map_some]
      rw [masked_range]
  refine ⟨(List.range array.length).filter fun i => array[i]?.any p, (List.range width).filter q, ⟨hsort _ _, fun i => ?_⟩,
    ⟨hsort _ _, fun j => ?_⟩, ?_, fun a i hi => ?_⟩
  · rw [List.mem_filter, List.mem_range]
    constructor
    · rintro ⟨_, h2⟩
      cases hr : array[i]? with
      | none => rw [hr] at h2; simp at h2
      | some row =>
        rw [hr] at h2
        simp only [Option.any_some, hp, List.any_eq_true, decide_eq_true_eq] at h2
        obtain ⟨x, hx, hne⟩ := h2
        obtain ⟨j, hj⟩ := List.getElem?_of_mem hx
        exact ⟨j, row, x, hr, hj, hne⟩
    · rintro ⟨j, row, x, hr, hj, hne⟩
      refine ⟨(List.getElem?_eq_some_iff.1 hr).1, ?_⟩
      simp only [hr, Option.any_some, hp, List.any_eq_true, decide_eq_true_eq]
      exact ⟨x, List.mem_of_getElem? hj, hne⟩
  · rw [List.mem_filter, List.mem_range]
    constructor
    · rintro ⟨_, h2⟩
      simp only [hq, List.any_eq_true] at h2
      obtain ⟨row, hr, h2⟩ := h2
      obtain ⟨i, hi⟩ := List.getElem?_of_mem hr
      cases hx : row[j]? with
      | none => rw [hx] at h2; simp at h2
      | some x =>
        rw [hx] at h2
        simp only [Option.any_some, decide_eq_true_eq] at h2
        exact ⟨i, row, x, hi, hx, h2⟩
    · rintro ⟨i, row, x, hi, hx, hne⟩
      have hr := List.mem_of_getElem? hi
      refine ⟨by rw [← h row hr]; exact (List.getElem?_eq_some_iff.1 hx).1, ?_⟩
      simp only [hq, List.any_eq_true]
      exact ⟨row, hr, by simp [hx, hne]⟩
  · rw [hres, List.length_filterMap_eq_countP, List.countP_eq_length]
    intro i hi
    rw [List.mem_filter, List.mem_range] at hi
    simp [hi.1]
  · have hmem := List.mem_of_getElem? hi
    rw [List.mem_filter, List.mem_range] at hmem
    have hold := List.getElem?_eq_getElem hmem.1
    have hget : ∀ {β : Type} (l : List ℕ) (F : ℕ → Option β), (∀ i ∈ l, (F i).isSome) → ∀ (b j : ℕ), l[b]? = some j →
        (l.filterMap F)[b]? = F j := by
      intro β l F hF
      induction l with
      | nil => intro b j hb; simp at hb
      | cons c l ih =>
        intro b j hb
        obtain ⟨y, hy⟩ := Option.isSome_iff_exists.1 (hF c (by simp))
        rw [List.filterMap_cons, hy]
        cases b with
        | zero => simp at hb; subst hb; simp [hy]
        | succ b =>
          rw [List.getElem?_cons_succ] at hb
          simpa using ih (fun i hi => hF i (by simp [hi])) b j hb
    have hrow : (removeRowsAndCols width array value)[a]?
        = some (((List.range width).filter q).filterMap fun j => array[i][j]?) := by
      rw [hres, hget _ _ ?_ a i hi, hold]
      · rfl
      · intro i hi
        rw [List.mem_filter, List.mem_range] at hi
        simp [hi.1]
    have hcol : ∀ j ∈ (List.range width).filter q, (array[i][j]?).isSome := by
      intro j hj
      rw [List.mem_filter, List.mem_range] at hj
      have := h array[i] (List.getElem_mem _)
      simp [this, hj.1]
    refine ⟨_, _, hrow, hold, ?_, fun b j hb => ?_⟩
    · rw [List.length_filterMap_eq_countP, List.countP_eq_length]
      exact hcol
    · obtain ⟨y, hy⟩ := Option.isSome_iff_exists.1 (hcol j (List.mem_of_getElem? hb))
      exact ⟨y, by rw [hget _ _ hcol b j hb, hy], hy⟩

theorem embed_get (entries : List (ℕ × ℕ × ℝ)) : ∀ (M : List (List (Option ℝ))) (i j : ℕ),
    (entries.foldl (fun result e => result.modify e.1 fun row => row.set e.2.1 (some e.2.2)) M).length = M.length ∧
    (((entries.foldl (fun result e => result.modify e.1 fun row => row.set e.2.1 (some e.2.2)) M)[i]?.map List.length)
      = M[i]?.map List.length) ∧
    ((∀ e ∈ entries, ¬ (e.1 = i ∧ e.2.1 = j)) →
      ((entries.foldl (fun result e => result.modify e.1 fun row => row.set e.2.1 (some e.2.2)) M)[i]?.bind fun row => row[j]?)
        = M[i]?.bind fun row => row[j]?) := by
  induction entries with
  | nil => intro M i j; exact ⟨rfl, rfl, fun _ => rfl⟩
  | cons e es ih =>
    intro M i j
    obtain ⟨h1, h2, h3⟩ := ih (M.modify e.1 fun row => row.set e.2.1 (some e.2.2)) i j
    rw [List.foldl_cons]
    refine ⟨by rw [h1, List.length_modify], ?_, fun hne => ?_⟩
    · rw [h2, List.getElem?_modify]
      cases M[i]? with
      | none => rfl
      | some row => by_cases he : e.1 = i <;> simp [he]
    · rw [h3 fun e' he' => hne e' (by simp [he']), List.getElem?_modify]
      have := hne e (by simp)
      cases M[i]? with
      | none => rfl
      | some row =>
        by_cases he : e.1 = i
        · have hj : e.2.1 ≠ j := fun hj => this ⟨he, hj⟩
          simp [he, List.getElem?_set_ne hj]
        · simp [he]

/-- **C93 (embedding).**  `embed_sparse_array_in_nan_array` gives an array of the shape of the sparse array whose entries are the stored
ones, and NaN (`none`) where nothing is stored. -/
theorem C93_embed (rows cols : ℕ) (entries : List (ℕ × ℕ × ℝ)) (hu : (entries.map fun e => (e.1, e.2.1)).Nodup) :
    (embedInNan rows cols entries).length = rows ∧ ∀ i < rows, ∃ row, (embedInNan rows cols entries)[i]? = some row ∧ row.length = cols ∧
      ∀ j < cols, (∀ x, row[j]? = some (some x) ↔ (i, j, x) ∈ entries) ∧ (row[j]? = some none ↔ ∀ x, (i, j, x) ∉ entries) := by
  refine ⟨by rw [embedInNan, (embed_get entries _ 0 0).1, List.length_replicate], fun i hi => ?_⟩
  have hlen := (embed_get entries (List.replicate rows (List.replicate cols none)) i 0).2.1
  rw [List.getElem?_replicate, if_pos hi] at hlen
  cases hr : (embedInNan rows cols entries)[i]? with
  | none => rw [embedInNan] at hr; rw [hr] at hlen; cases hlen
  | some row =>
    have hr' := hr
    rw [embedInNan] at hr'
    rw [hr'] at hlen
    simp only [Option.map_some, List.length_replicate, Option.some.injEq] at hlen
    refine ⟨row, rfl, hlen, fun j hj => ?_⟩
    have hstored : ∀ x, (i, j, x) ∈ entries → row[j]? = some (some x) := by
      intro x hx
      obtain ⟨A, B, hAB⟩ := List.append_of_mem hx
      have hB : ∀ e ∈ B, ¬ (e.1 = i ∧ e.2.1 = j) := by
        rw [hAB, List.map_append, List.map_cons, List.nodup_append, List.nodup_cons] at hu
        rintro e he ⟨rfl, rfl⟩
        exact hu.2.1.1 (List.mem_map.2 ⟨e, he, rfl⟩)
      have h1 := (embed_get B ((A.foldl (fun result e => result.modify e.1 fun row => row.set e.2.1 (some e.2.2))
        (List.replicate rows (List.replicate cols none))).modify i fun row => row.set j (some x)) i j).2.2 hB
      have h2 : embedInNan rows cols entries = B.foldl (fun result e => result.modify e.1 fun row => row.set e.2.1 (some e.2.2))
          ((A.foldl (fun result e => result.modify e.1 fun row => row.set e.2.1 (some e.2.2))
            (List.replicate rows (List.replicate cols none))).modify i fun row => row.set j (some x)) := by
        rw [embedInNan, hAB, List.foldl_append, List.foldl_cons]
      rw [← h2, hr] at h1
      simp only [Option.bind_some] at h1
      rw [h1, List.getElem?_modify]
      have h3 := (embed_get A (List.replicate rows (List.replicate cols none)) i 0).2.1
      rw [List.getElem?_replicate, if_pos hi] at h3
      cases hA : (A.foldl (fun result e => result.modify e.1 fun row => row.set e.2.1 (some e.2.2))
        (List.replicate rows (List.replicate cols none)))[i]? with
      | none => rw [hA] at h3; cases h3
      | some old =>
        rw [hA] at h3
        simp only [Option.map_some, List.length_replicate, Option.some.injEq] at h3
        simp [h3, hj]
    have hnone : (∀ x, (i, j, x) ∉ entries) → row[j]? = some none := by
      intro hno
      have h1 := (embed_get entries (List.replicate rows (List.replicate cols none)) i j).2.2
        (by rintro e he ⟨rfl, rfl⟩; exact hno e.2.2 he)
      rw [hr', List.getElem?_replicate, if_pos hi] at h1
      simpa [List.getElem?_replicate, hj] using h1
    refine ⟨fun x => ⟨fun hx => ?_, hstored x⟩, fun hx x hm => ?_, hnone⟩
    · by_contra hno
      by_cases hall : ∀ y, (i, j, y) ∉ entries
      · rw [hnone hall] at hx; simp at hx
      · push Not at hall
        obtain ⟨y, hy⟩ := hall
        rw [hstored y hy] at hx
        simp only [Option.some.injEq] at hx
        exact hno (hx ▸ hy)
    · rw [hstored x hm] at hx; simp at hx

theorem sample_rows : ∀ (ps : List (CsrRow ℝ)) (ds : List (List ℕ)) (acc : List (CsrRow ℕ)),
    List.Forall₂ (fun p d => d.length = List.length p) ps ds →
    (ps.foldl (fun (acc : List (CsrRow ℕ) × List ℕ) row => (acc.1 ++ [(row.map Prod.fst).zip acc.2], acc.2.drop row.length))
      (acc, ds.flatten)).1 = acc ++ List.zipWith (fun p d => (p.map Prod.fst).zip d) ps ds
  | _, _, acc, .nil => by simp
  | p :: ps, d :: ds, acc, .cons h hs => by
    rw [List.foldl_cons, List.flatten_cons, List.zipWith_cons_cons]
    have h1 : (p.map Prod.fst).zip (d ++ ds.flatten) = (p.map Prod.fst).zip d := by
      have := List.zip_append (l₁ := p.map Prod.fst) (r₁ := []) (l₂ := d) (r₂ := ds.flatten) (by simp [h])
      simpa using this
    have h2 : (d ++ ds.flatten).drop p.length = ds.flatten := by rw [← h, List.drop_left]
    simp only [h1, h2]
    rw [sample_rows ps ds _ hs]
    simp

/-- **C93 (sampling).**  For every outcome of the draws, `sample_from_sparse_probabilities_csc` returns counts at exactly the positions of the
probabilities, and the counts of a row with probabilities sum up to the amount for that row. -/
theorem C93_sample (probabilities : List (CsrRow ℝ)) (amount : List ℕ) (draws : List (List ℕ))
    (hl : amount.length = probabilities.length) (hd : draws.length = probabilities.length)
    (h : ∀ (i : ℕ) row n d, probabilities[i]? = some row → amount[i]? = some n → draws[i]? = some d →
      MultinomialDraw n (row.map Prod.snd) d) :
    ∃ result, sampleFromSparse probabilities draws = .ok result ∧ result.length = probabilities.length ∧
      ∀ (i : ℕ) row n, probabilities[i]? = some row → amount[i]? = some n →
        ∃ counts, result[i]? = some counts ∧ counts.map Prod.fst = row.map Prod.fst ∧ (row ≠ [] → (counts.map Prod.snd).sum = n) := by
  have hall : List.Forall₂ (fun p d => d.length = List.length p) probabilities draws := by
    rw [List.forall₂_iff_get]
    refine ⟨hd.symm, fun i hi hi' => ?_⟩
    have := (h i _ _ _ (List.getElem?_eq_getElem hi) (List.getElem?_eq_getElem (hl ▸ hi)) (List.getElem?_eq_getElem hi')).1
    simpa using this
  have hsum : draws.flatten.length = (probabilities.map List.length).sum := by
    rw [List.length_flatten]
    congr 1
    refine List.ext_getElem (by simp [hd]) fun i hi hi' => ?_
    simp only [List.length_map] at hi hi'
    simpa using (List.forall₂_iff_get.1 hall).2 i hi' hi
  refine ⟨List.zipWith (fun p d => (p.map Prod.fst).zip d) probabilities draws, ?_, by simp [hd], fun i row n hr hn => ?_⟩
  · unfold sampleFromSparse
    simp only [hsum, if_true]
    rw [sample_rows _ _ _ hall, List.nil_append]
  · have hi := (List.getElem?_eq_some_iff.1 hr).1
    have hdi := List.getElem?_eq_getElem (hd ▸ hi : i < draws.length)
    obtain ⟨h1, h2⟩ := h i row n _ hr hn hdi
    refine ⟨(row.map Prod.fst).zip draws[i], by rw [List.getElem?_zipWith, hr, hdi], ?_, fun hne => ?_⟩
    · rw [List.map_fst_zip (by simpa using h1.ge)]
    · rw [List.map_snd_zip (by simpa using h1.le), h2 (by simpa using hne)]

/-- The hypotheses of the three theorems hold for the example in the documentation of `remove_rows_and_cols_where_all`, its sparse form,
and a draw. -/
example : Rectangular 3 [[1, 0, 3], [0, 0, 0], [7, 0, 9]] ∧ Differs [[1, 0, 3], [0, 0, 0], [7, 0, 9]] 0 2 0 ∧
    (([(0, 0, 1), (0, 2, 3), (2, 0, 7), (2, 2, 9)] : List (ℕ × ℕ × ℝ)).map fun e => (e.1, e.2.1)).Nodup ∧
    MultinomialDraw 5 [0.25, 0.75] [2, 3] := by
  refine ⟨by intro row hrow; simp at hrow; rcases hrow with rfl | rfl | rfl <;> rfl, ⟨[7, 0, 9], 7, rfl, rfl, by norm_num⟩, by decide,
    rfl, fun _ => rfl⟩

end PM.Props
