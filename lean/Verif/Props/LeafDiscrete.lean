import Verif.Dist.DictLemmas
import Mathlib.Data.List.TakeWhile

/-!
# C30, C32, C33: cumulative probabilities, fitting and reading of discrete distributions
-/

namespace PM.Props

open Classical Leaf

/-! ### C30 -/

/-- The property: on every non-empty array of rows, `cdf` returns for each row the total probability of the values up to
it. -/
def C30_full : Prop :=
  ∀ (probs : List (ℤ × ℝ)) (xs : List ℝ), (probs.map Prod.fst).Nodup → xs ≠ [] →
    integerCdfArray probs xs
      = .ok (xs.map fun x => ((probs.filter fun kp => (kp.1 : ℝ) ≤ x).map Prod.snd).sum)

theorem le_foldl_max (xs : List ℝ) (a : ℝ) : a ≤ xs.foldl max a ∧ ∀ x ∈ xs, x ≤ xs.foldl max a := by
  induction xs generalizing a with
  | nil => simp
  | cons b xs ih =>
    obtain ⟨h1, h2⟩ := ih (max a b)
    refine ⟨(le_max_left a b).trans h1, fun x hx => ?_⟩
    rcases List.mem_cons.1 hx with rfl | hx
    · exact (le_max_right a x).trans h1
    · exact h2 x hx

/-- What the code computes, for every dictionary order: the loop stops at the first key larger than all rows. -/
theorem cdfArray_eq (probs : List (ℤ × ℝ)) (x : ℝ) (xs : List ℝ) :
    integerCdfArray probs (x :: xs) = .ok ((x :: xs).map fun y =>
      massIn (probs.takeWhile fun kp => (kp.1 : ℝ) ≤ xs.foldl max x) (Set.Iic y)) := by
  have h := fold_cdfLoop (x :: xs) (xs.foldl max x) probs (fun _ => 0)
  have hr : (x :: xs).map (fun _ => (0 : ℝ)) = List.replicate (xs.length + 1) 0 := by
    rw [List.map_const']
    simp
  rw [hr] at h
  rw [integerCdfArray, h]
  simp

/-- The array version and the single-row version used for probabilities of cumulative events agree. -/
theorem cdfArray_single (probs : List (ℤ × ℝ)) (x : ℝ) :
    integerCdfArray probs [x] = .ok [integerCdf probs x] := by
  rw [cdfArray_eq]
  have hgoal : massIn (probs.takeWhile fun kp => (kp.1 : ℝ) ≤ x) (Set.Iic x) = integerCdf probs x := ?_
  · show Except.ok [massIn (probs.takeWhile fun kp => (kp.1 : ℝ) ≤ x) (Set.Iic x)] = _
    rw [hgoal]
  induction probs with
  | nil => simp [massIn, integerCdf]
  | cons a l ih =>
    obtain ⟨k, p⟩ := a
    unfold integerCdf
    by_cases hk : (k : ℝ) > x
    · rw [if_pos hk, List.takeWhile_cons_of_neg (by simpa using hk)]
      simp [massIn]
    · rw [if_neg hk, List.takeWhile_cons_of_pos (by simpa using hk), ← ih, massIn_eq_indicator, massIn_eq_indicator,
        List.map_cons, List.sum_cons, Set.indicator_of_mem (show (k : ℝ) ∈ Set.Iic x from not_lt.1 hk),
        if_pos (not_lt.1 hk)]

/-- **C30** for dictionaries in increasing order of their keys. Missing from the full property: other orders. -/
theorem C30_cdf_sorted_partial {probs : List (ℤ × ℝ)} (hs : (probs.map Prod.fst).Pairwise (· < ·)) {xs : List ℝ}
    (hx : xs ≠ []) :
    integerCdfArray probs xs
      = .ok (xs.map fun x => ((probs.filter fun kp => (kp.1 : ℝ) ≤ x).map Prod.snd).sum) := by
  obtain ⟨x, xs, rfl⟩ := List.exists_cons_of_ne_nil hx
  rw [cdfArray_eq]
  congr 1
  apply List.map_congr_left
  intro y hy
  have hy : y ≤ xs.foldl max x := by
    rcases List.mem_cons.1 hy with rfl | hy
    · exact (le_foldl_max xs y).1
    · exact (le_foldl_max xs x).2 y hy
  have key : (probs.takeWhile fun kp => (kp.1 : ℝ) ≤ xs.foldl max x).filter (fun kp => (kp.1 : ℝ) ≤ y)
      = probs.filter fun kp => (kp.1 : ℝ) ≤ y := by
    clear hx
    induction probs with
    | nil => simp
    | cons a l ih =>
      simp only [List.map_cons, List.pairwise_cons] at hs
      by_cases ha : (a.1 : ℝ) ≤ xs.foldl max x
      · rw [List.takeWhile_cons_of_pos (by simpa using ha)]
        simp only [List.filter_cons, ih hs.2]
      · rw [List.takeWhile_cons_of_neg (by simpa using ha)]
        rw [List.filter_nil, eq_comm, List.filter_eq_nil_iff]
        · intro b hb
          have hab : a.1 ≤ b.1 := by
            rcases List.mem_cons.1 hb with rfl | hb
            · exact le_rfl
            · exact (hs.1 b.1 (List.mem_map.2 ⟨b, hb, rfl⟩)).le
          have : (a.1 : ℝ) ≤ b.1 := by exact_mod_cast hab
          simp only [decide_eq_true_eq, not_le]
          linarith [not_le.1 ha]
  unfold massIn
  simp only [Set.mem_Iic]
  rw [← key]

/-- **C30** for any dictionary order, if some row is at least as large as every key. -/
theorem C30_cdf_covering_partial {probs : List (ℤ × ℝ)} {xs : List ℝ} {m : ℝ} (hm : m ∈ xs)
    (hk : ∀ kp ∈ probs, (kp.1 : ℝ) ≤ m) :
    integerCdfArray probs xs
      = .ok (xs.map fun x => ((probs.filter fun kp => (kp.1 : ℝ) ≤ x).map Prod.snd).sum) := by
  obtain ⟨x, xs, rfl⟩ := List.exists_cons_of_ne_nil (List.ne_nil_of_mem hm)
  have hle : m ≤ xs.foldl max x := by
    rcases List.mem_cons.1 hm with rfl | hm
    · exact (le_foldl_max xs m).1
    · exact (le_foldl_max xs x).2 m hm
  have htw : (probs.takeWhile fun kp => (kp.1 : ℝ) ≤ xs.foldl max x) = probs := by
    rw [List.takeWhile_eq_self_iff]
    exact fun kp h => decide_eq_true ((hk kp h).trans hle)
  rw [cdfArray_eq, htw]
  congr 1

/-- No rows: `max` raises `ValueError`. -/
theorem C30_empty (probs : List (ℤ × ℝ)) : integerCdfArray probs [] = .error .valueError := rfl

/-- The full property is false: with the keys `2, 1` in this order, `cdf(1)` is `0` instead of `1/2`. -/
theorem C30_full_false : ¬ C30_full := by
  intro h
  have h1 := h [(2, 1 / 2), (1, 1 / 2)] [1] (by simp) (by simp)
  rw [cdfArray_single] at h1
  simp only [Except.ok.injEq, List.map_cons, List.map_nil, List.cons.injEq, and_true] at h1
  rw [integerCdf, if_pos (by norm_num), List.filter_cons_of_neg (by simp), List.filter_cons_of_pos (by simp)] at h1
  norm_num at h1

/-- An increasing dictionary. -/
example : (([(1, 1 / 2), (2, 1 / 4), (5, 1 / 4)] : List (ℤ × ℝ)).map Prod.fst).Pairwise (· < ·) := by simp

/-! ### C32 -/

/-- The property for integer data: after `fit`, every value has its relative frequency; the probabilities are positive and
sum to one. -/
def C32_full : Prop :=
  ∀ data : List ℤ, data ≠ [] →
    (∀ k, lookup (fitDiscrete data) k = (data.count k : ℝ) / data.length) ∧
    (∀ kp ∈ fitDiscrete data, 0 < kp.2) ∧ ((fitDiscrete data).map Prod.snd).sum = 1

theorem fitDiscrete_eq {data : List ℤ} (h : ∀ v ∈ data, pyHash v = v) :
    fitDiscrete data = (npUnique data).map fun vc => (vc.1, (vc.2 : ℝ) / data.length) := by
  unfold fitDiscrete
  rw [Dict.foldl_set (fun vc : ℤ × ℕ => pyHash vc.1) (fun vc => (vc.2 : ℝ) / data.length)]
  · rw [List.nil_append]
    apply List.map_congr_left
    intro vc hvc
    rw [h vc.1 (mem_npUnique.1 hvc).1]
  · rw [List.map_nil, List.nil_append]
    have : (npUnique data).map (fun vc => pyHash vc.1) = (npUnique data).map Prod.fst :=
      List.map_congr_left fun vc hvc => h vc.1 (mem_npUnique.1 hvc).1
    rw [this]
    exact npUnique_nodup data

/-- **C32** for data without the value `-1` and with absolute values below `2^61 - 1`. Missing: the other values, whose
`hash` differs from the value. -/
theorem C32_fit_partial {data : List ℤ} (hne : data ≠ []) (h1 : (-1 : ℤ) ∉ data)
    (h2 : ∀ v ∈ data, v.natAbs < 2 ^ 61 - 1) :
    (∀ k, lookup (fitDiscrete data) k = (data.count k : ℝ) / data.length) ∧
    (∀ kp ∈ fitDiscrete data, 0 < kp.2) ∧ ((fitDiscrete data).map Prod.snd).sum = 1 ∧
    ((fitDiscrete data).map Prod.fst).Nodup ∧ ∀ k, k ∈ (fitDiscrete data).map Prod.fst ↔ k ∈ data := by
  have hlen : (0 : ℝ) < data.length := by exact_mod_cast List.length_pos_iff.2 hne
  have hnd : ((fitDiscrete data).map Prod.fst).Nodup := by
    rw [fitDiscrete_eq fun v hv => pyHash_eq (fun h => h1 (h ▸ hv)) (h2 v hv), List.map_map]
    exact npUnique_nodup data
  rw [fitDiscrete_eq fun v hv => pyHash_eq (fun h => h1 (h ▸ hv)) (h2 v hv)] at hnd ⊢
  have hkeys : ∀ k, k ∈ (((npUnique data).map fun vc => (vc.1, (vc.2 : ℝ) / data.length)).map Prod.fst) ↔ k ∈ data := by
    intro k
    simp only [List.map_map, List.mem_map, Function.comp]
    constructor
    · rintro ⟨vc, hvc, rfl⟩
      exact (mem_npUnique.1 hvc).1
    · exact fun hk => ⟨(k, data.count k), mem_npUnique.2 ⟨hk, rfl⟩, rfl⟩
  refine ⟨fun k => ?_, fun kp hkp => ?_, ?_, hnd, hkeys⟩
  · by_cases hk : k ∈ data
    · exact lookup_of_mem hnd (q := (k, (data.count k : ℝ) / data.length))
        (List.mem_map.2 ⟨(k, data.count k), mem_npUnique.2 ⟨hk, rfl⟩, rfl⟩)
    · rw [lookup_eq_zero (fun h => hk ((hkeys k).1 h)), List.count_eq_zero_of_not_mem hk]
      simp
  · obtain ⟨vc, hvc, rfl⟩ := List.mem_map.1 hkp
    obtain ⟨hm, hc⟩ := mem_npUnique.1 hvc
    have : 0 < vc.2 := by rw [hc]; exact List.count_pos_iff.2 hm
    exact div_pos (by exact_mod_cast this) hlen
  · rw [List.map_map]
    exact (npUnique_real_sum data _).trans (div_self hlen.ne')

theorem npUnique_single : npUnique [(-1 : ℤ)] = [(-1, 1)] := by decide

/-- The full property is false: `hash(-1) = -2`, so after `fit([-1])` the value `-1` has probability `0` (and `-2` has
probability `1`). -/
theorem C32_full_false : ¬ C32_full := by
  intro h
  have h1 := (h [-1] (by simp)).1 (-1)
  have hp : pyHash (-1) = -2 := by decide
  rw [fitDiscrete, npUnique_single, List.foldl_cons, List.foldl_nil, hp, Dict.set_new (by simp), List.nil_append,
    lookup_cons, if_neg (by norm_num), lookup_nil] at h1
  simp at h1

/-- Mass is lost: after `fit([-2, -1])` the probabilities sum to `1/2`. -/
theorem C32_mass_lost : ((fitDiscrete [-2, -1]).map Prod.snd).sum = 1 / 2 := by
  have hu : npUnique [(-2 : ℤ), -1] = [(-2, 1), (-1, 1)] := by decide
  have hp : pyHash (-1) = -2 := by decide
  have hp' : pyHash (-2) = -2 := by decide
  rw [fitDiscrete, hu, List.foldl_cons, List.foldl_cons, List.foldl_nil, hp, hp']
  have h1 : Dict.set ([] : Dict ℤ ℝ) (-2) ((1 : ℕ) / ([-2, -1] : List ℤ).length) = [(-2, 1 / 2)] := by
    rw [Dict.set_new (by simp)]; simp
  rw [h1, Dict.set, if_pos (by simp)]
  simp

theorem fitSymbolic_fold {α : Type} [LinearOrder α] {domain : List (α × ℤ)} (N : ℝ) (l : List (α × ℕ)) (d : List (ℤ × ℝ))
    (hl : ∀ vc ∈ l, vc.1 ∈ domain.map Prod.fst) (hn : (domain.map Prod.fst).Nodup) :
    ∃ h : α → ℤ, (∀ e ∈ domain, h e.1 = e.2) ∧
    l.foldlM (m := Except PyErr) (fun d vc => match domain.filter (fun e => decide (e.1 = vc.1)) with
      | [] => .error .indexError
      | e :: _ => .ok (Dict.set d e.2 ((vc.2 : ℝ) / N))) d
      = .ok (l.foldl (fun d vc => Dict.set d (h vc.1) ((vc.2 : ℝ) / N)) d) := by
  let h : α → ℤ := fun a => match domain.filter (fun e => decide (e.1 = a)) with | [] => 0 | e :: _ => e.2
  have hfil : ∀ e ∈ domain, domain.filter (fun e' => decide (e'.1 = e.1)) = [e] := by
    intro e he
    clear hl
    induction domain with
    | nil => simp at he
    | cons a dom ih =>
      simp only [List.map_cons, List.nodup_cons] at hn
      rcases List.mem_cons.1 he with rfl | he
      · rw [List.filter_cons_of_pos (by simp), List.filter_eq_nil_iff.2]
        intro b hb
        simp only [decide_eq_true_eq]
        intro hbe
        exact hn.1 (List.mem_map.2 ⟨b, hb, hbe⟩)
      · rw [List.filter_cons_of_neg, ih hn.2 he]
        simp only [decide_eq_true_eq]
        intro hbe
        exact hn.1 (List.mem_map.2 ⟨e, he, hbe.symm⟩)
  have hh : ∀ e ∈ domain, h e.1 = e.2 := by
    intro e he
    simp only [h, hfil e he]
  refine ⟨h, hh, ?_⟩
  induction l generalizing d with
  | nil => rfl
  | cons vc l ih =>
    obtain ⟨e, he, hev⟩ := List.mem_map.1 (hl vc (by simp))
    rw [List.foldlM_cons, ← hev, hfil e he, List.foldl_cons, ← hev, hh e he]
    exact ih _ fun vc hvc => hl vc (by simp [hvc])

/-- **C32** for symbolic data: if the elements of the domain have different hashes and all data lie in the domain, the
probability stored for an element is its relative frequency, all probabilities are positive and they sum to one. -/
theorem C32_fit_symbolic {α : Type} [LinearOrder α] {domain : List (α × ℤ)} {data : List α} (hne : data ≠ [])
    (hdom : (domain.map Prod.fst).Nodup) (hhash : (domain.map Prod.snd).Nodup) (hdata : ∀ v ∈ data, v ∈ domain.map Prod.fst) :
    ∃ probs, fitSymbolic domain data = .ok probs ∧
      (∀ e ∈ domain, lookup probs e.2 = (data.count e.1 : ℝ) / data.length) ∧ (∀ kp ∈ probs, 0 < kp.2) ∧
      (probs.map Prod.snd).sum = 1 ∧ (probs.map Prod.fst).Nodup ∧ ∀ kp ∈ probs, kp.1 ∈ domain.map Prod.snd := by
  have hlen : (0 : ℝ) < data.length := by exact_mod_cast List.length_pos_iff.2 hne
  obtain ⟨h, hh, hfold⟩ := fitSymbolic_fold (data.length : ℝ) (npUnique data) []
    (fun vc hvc => hdata vc.1 (mem_npUnique.1 hvc).1) hdom
  have hinj : ∀ a ∈ domain.map Prod.fst, ∀ b ∈ domain.map Prod.fst, h a = h b → a = b := by
    intro a ha b hb hab
    obtain ⟨e, he, rfl⟩ := List.mem_map.1 ha
    obtain ⟨e', he', rfl⟩ := List.mem_map.1 hb
    rw [hh e he, hh e' he'] at hab
    rw [List.inj_on_of_nodup_map hhash he he' hab]
  have hnd : ((npUnique data).map fun vc => h vc.1).Nodup := by
    have : ((npUnique data).map fun vc => h vc.1) = ((npUnique data).map Prod.fst).map h := by rw [List.map_map]; rfl
    rw [this]
    refine List.Nodup.map_on ?_ (npUnique_nodup data)
    intro a ha b hb hab
    obtain ⟨vc, hvc, rfl⟩ := List.mem_map.1 ha
    obtain ⟨vc', hvc', rfl⟩ := List.mem_map.1 hb
    exact hinj _ (hdata _ (mem_npUnique.1 hvc).1) _ (hdata _ (mem_npUnique.1 hvc').1) hab
  rw [Dict.foldl_set (fun vc : α × ℕ => h vc.1) (fun vc => (vc.2 : ℝ) / data.length) _ _ (by simpa using hnd),
    List.nil_append] at hfold
  have hnd' : (((npUnique data).map fun vc => (h vc.1, (vc.2 : ℝ) / data.length)).map Prod.fst).Nodup := by
    rw [List.map_map]; exact hnd
  refine ⟨_, hfold, ?_, ?_, ?_, hnd', ?_⟩
  · intro e he
    by_cases hk : e.1 ∈ data
    · exact lookup_of_mem hnd' (q := (e.2, (data.count e.1 : ℝ) / data.length))
        (List.mem_map.2 ⟨(e.1, data.count e.1), mem_npUnique.2 ⟨hk, rfl⟩, by simp [hh e he]⟩)
    · rw [lookup_eq_zero, List.count_eq_zero_of_not_mem hk]
      · simp
      · intro hmem
        simp only [List.map_map, List.mem_map, Function.comp] at hmem
        obtain ⟨vc, hvc, hvce⟩ := hmem
        rw [← hh e he] at hvce
        have := hinj _ (hdata _ (mem_npUnique.1 hvc).1) _ (List.mem_map.2 ⟨e, he, rfl⟩) hvce
        exact hk (this ▸ (mem_npUnique.1 hvc).1)
  · intro kp hkp
    obtain ⟨vc, hvc, rfl⟩ := List.mem_map.1 hkp
    obtain ⟨hm, hc⟩ := mem_npUnique.1 hvc
    have : 0 < vc.2 := by rw [hc]; exact List.count_pos_iff.2 hm
    exact div_pos (by exact_mod_cast this) hlen
  · rw [List.map_map]
    exact (npUnique_real_sum data _).trans (div_self hlen.ne')
  · intro kp hkp
    obtain ⟨vc, hvc, rfl⟩ := List.mem_map.1 hkp
    obtain ⟨e, he, hev⟩ := List.mem_map.1 (hdata vc.1 (mem_npUnique.1 hvc).1)
    exact List.mem_map.2 ⟨e, he, by simp [← hev, hh e he]⟩

/-- A datum outside of the domain is an `IndexError`. -/
theorem C32_fit_symbolic_unknown {α : Type} [LinearOrder α] (domain : List (α × ℤ)) {a : α}
    (ha : a ∉ domain.map Prod.fst) : fitSymbolic domain [a] = .error .indexError := by
  have hu : npUnique [a] = [(a, 1)] := by simp [npUnique]
  have hf : domain.filter (fun e => decide (e.1 = a)) = [] := by
    rw [List.filter_eq_nil_iff]
    intro e he
    simp only [decide_eq_true_eq]
    exact fun h => ha (List.mem_map.2 ⟨e, he, h⟩)
  rw [fitSymbolic, hu, List.foldlM_cons, hf]
  rfl

example : ([3, 3, 7] : List ℤ) ≠ [] ∧ (-1 : ℤ) ∉ ([3, 3, 7] : List ℤ) ∧ ∀ v ∈ ([3, 3, 7] : List ℤ), v.natAbs < 2 ^ 61 - 1 := by
  simp

example : (([(0, 17), (1, -5), (2, 3)] : List (ℕ × ℤ)).map Prod.fst).Nodup ∧
    (([(0, 17), (1, -5), (2, 3)] : List (ℕ × ℤ)).map Prod.snd).Nodup ∧
    ∀ v ∈ [1, 1, 2], v ∈ ([(0, 17), (1, -5), (2, 3)] : List (ℕ × ℤ)).map Prod.fst := by decide

/-! ### C33 -/

/-- **C33.** For every history of reads and writes, the dictionary afterwards is the one produced by the writes alone. -/
theorem C33_reads_leave_no_trace {κ ν : Type} (default : ν) (d : Dict κ ν) (ops : List (Dict.Op κ ν)) :
    (Dict.run (Dict.missingDict default) d ops).1
      = (ops.filterMap fun o => match o with | .read _ => none | .write k v => some (k, v)).foldl
          (fun d kv => d.set kv.1 kv.2) d := by
  induction ops generalizing d with
  | nil => rfl
  | cons o ops ih =>
    cases o with
    | read k => simp only [Dict.run, Dict.getitem_missingDict, ih]; rfl
    | write k v => simp only [Dict.run, ih]; rfl

/-- **C33.** A history of reads alone changes nothing, and returns for each key the stored value or the default. -/
theorem C33_reads {κ ν : Type} (default : ν) (d : Dict κ ν) (ks : List κ) :
    Dict.run (Dict.missingDict default) d (ks.map .read)
      = (d, ks.map fun k => ((d.find? fun p => decide (p.1 = k)).map Prod.snd).getD default) := by
  induction ks with
  | nil => rfl
  | cons k ks ih => simp only [List.map_cons, Dict.run, Dict.getitem_missingDict, ih]

/-- What the reads of a history must return if the value of key `k` is `φ k` before it: the value written last, or `φ k`. -/
noncomputable def expectedReads {κ ν : Type} : List (Dict.Op κ ν) → (κ → ν) → List ν
  | [], _ => []
  | .read k :: ops, φ => φ k :: expectedReads ops φ
  | .write k v :: ops, φ => expectedReads ops fun j => if j = k then v else φ j

theorem find?_dict_set {κ ν : Type} (d : Dict κ ν) (k j : κ) (v : ν) :
    ((d.set k v).find? fun p => decide (p.1 = j)).map Prod.snd
      = if j = k then some v else (d.find? fun p => decide (p.1 = j)).map Prod.snd := by
  by_cases hk : k ∈ d.map Prod.fst
  · rw [Dict.set, if_pos hk]
    induction d with
    | nil => simp at hk
    | cons p d ih =>
      by_cases hp : p.1 = k
      · subst hp
        by_cases hj : p.1 = j
        · simp [hj]
        · by_cases hd : p.1 ∈ d.map Prod.fst
          · simpa [hj, Ne.symm hj, List.find?_cons] using ih hd
          · have hmap : (d.map fun q => if q.1 = p.1 then (p.1, v) else q) = d := by
              conv_rhs => rw [← List.map_id d]
              apply List.map_congr_left
              intro q hq
              have : q.1 ≠ p.1 := fun h => hd (List.mem_map.2 ⟨q, hq, h⟩)
              simp [this]
            rw [List.map_cons, hmap]
            simp [hj, Ne.symm hj]
      · have hd : k ∈ d.map Prod.fst := by
          rcases List.mem_cons.1 hk with h | h
          · exact absurd h.symm hp
          · exact h
        by_cases hj : p.1 = j
        · have : j ≠ k := fun h => hp (hj.trans h)
          simp [hj, this]
        · simpa [hp, hj, List.find?_cons] using ih hd
  · rw [Dict.set, if_neg hk, List.find?_append]
    by_cases hj : j = k
    · subst hj
      have : d.find? (fun p => decide (p.1 = j)) = none := by
        rw [List.find?_eq_none]
        intro p hp
        simp only [decide_eq_true_eq]
        exact fun h => hk (List.mem_map.2 ⟨p, hp, h⟩)
      rw [this]
      simp
    · simp [hj, Ne.symm hj]

/-- **C33.** In every history of reads and writes every read returns the value written last under its key, the stored value if
nothing was written, and the default if there is none. -/
theorem C33_last_written {κ ν : Type} (default : ν) (d : Dict κ ν) (ops : List (Dict.Op κ ν)) :
    (Dict.run (Dict.missingDict default) d ops).2
      = expectedReads ops fun k => ((d.find? fun p => decide (p.1 = k)).map Prod.snd).getD default := by
  induction ops generalizing d with
  | nil => rfl
  | cons o ops ih =>
    cases o with
    | read k => simp only [Dict.run, Dict.getitem_missingDict, ih, expectedReads]
    | write k v =>
      simp only [Dict.run, ih, expectedReads]
      congr 1
      funext j
      rw [find?_dict_set]
      split <;> rfl

/-- A history on a dictionary with one entry: the stored value, the default, and the value written in between. -/
example : expectedReads [.read 1, .read 2, .write 1 (7 : ℕ), .read 1, .read 2]
    (fun k : ℕ => if k = 1 then 5 else 0) = [5, 0, 7, 0] := by
  simp [expectedReads]

/-- The override matters: with the inherited `defaultdict.__missing__` reading an unknown key stores it. -/
theorem C33_defaultdict_stores {κ ν : Type} (default : ν) (d : Dict κ ν) {k : κ} (hk : k ∉ d.map Prod.fst) :
    (Dict.run (Dict.defaultDict default) d [.read k]).1 = d ++ [(k, default)] := by
  have : d.find? (fun p => decide (p.1 = k)) = none := by
    rw [List.find?_eq_none]
    intro p hp
    simp only [decide_eq_true_eq]
    exact fun h => hk (List.mem_map.2 ⟨p, hp, h⟩)
  simp only [Dict.run, Dict.getitem, this, Dict.defaultDict]

end PM.Props
