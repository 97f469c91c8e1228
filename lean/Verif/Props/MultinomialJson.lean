import Verif.Dist.MultinomialJson

/-!
# C83: multinomial distributions: JSON, copies and `==`
-/

namespace PM.Props

open Spec NdArray Multinomial

theorem ofNestedList_map {α : Type} (F : α → Nested) (G : α → NdArray) : ∀ l : List α,
    (∀ i ∈ l, ofNested (F i) = .ok (G i)) → ofNestedList (l.map F) = .ok (l.map G)
  | [], _ => by simp [ofNestedList]
  | i :: l, h => by
    rw [List.map_cons, ofNestedList, h i (by simp), ofNestedList_map F G l fun j hj => h j (List.mem_cons_of_mem _ hj)]
    rfl

theorem ofNested_nest : ∀ (s : List ℕ), (∀ n ∈ s, 0 < n) → ∀ f : List ℕ → ℝ,
    ∃ a, ofNested (nest s f) = .ok a ∧ a.shape = s ∧ ∀ j, IsCell s j → a.get j = f j
  | [], _, f => ⟨⟨[], fun _ => f []⟩, by simp [nest, ofNested], rfl, by rintro j ⟨⟩; rfl⟩
  | n :: s, hs, f => by
    have ih : ∀ i, ∃ a, ofNested (nest s fun j => f (i :: j)) = .ok a ∧ a.shape = s ∧ ∀ j, IsCell s j → a.get j = f (i :: j) :=
      fun i => ofNested_nest s (fun m hm => hs m (List.mem_cons_of_mem _ hm)) _
    choose G hG hshape hget using ih
    have hn := hs n (by simp)
    obtain ⟨n, rfl⟩ := Nat.exists_eq_succ_of_ne_zero hn.ne'
    have hl : ofNestedList ((List.range (n + 1)).map fun i => nest s fun j => f (i :: j)) = .ok ((List.range (n + 1)).map G) :=
      ofNestedList_map _ _ _ fun i _ => hG i
    have hall : ((List.range n).map fun i => G (i + 1)).all fun b => b.shape == (G 0).shape := by
      simp [hshape]
    have hrange : (List.range (n + 1)).map G = G 0 :: (List.range n).map fun i => G (i + 1) := by
      rw [List.range_succ_eq_map, List.map_cons, List.map_map]
      rfl
    refine ⟨⟨(n + 1) :: s, stackGet ((List.range (n + 1)).map G)⟩, ?_, rfl, ?_⟩
    · simp only [nest, ofNested, Nat.succ_eq_add_one, hl, bind, Except.bind]
      rw [hrange]
      rw [hshape] at hall
      simp only [stack, hshape, List.length_map, List.length_range]
      rw [if_pos hall]
    · rintro j hj
      cases hj with
      | @cons i _ j _ hi hj =>
        have : ((List.range (n + 1)).map G)[i]? = some (G i) := by
          rw [List.getElem?_map, List.getElem?_range hi]
          rfl
        simp only [stackGet, this]
        exact hget i j hj

/-- C83.  A multinomial distribution whose variables all have values is read back from its JSON with the same variables,
the same shape, the same entries and the same likelihood for every row of indices. -/
theorem C83_json {T : Multinomial} (hs : T.probs.shape = T.vars.map fun v => v.domain.length)
    (hd : ∀ v ∈ T.vars, v.domain ≠ []) :
    ∃ T', fromJson T.toJson = .ok T' ∧ T'.vars = T.vars ∧ T'.probs.shape = T.probs.shape ∧
      (∀ i, IsCell T.probs.shape i → T'.probs.get i = T.probs.get i) ∧ (∀ row, T'.likelihood row = T.likelihood row) ∧
      T.eq T' = true := by
  obtain ⟨a, ha, hsh, hget⟩ := ofNested_nest T.probs.shape (by
    rw [hs]
    intro n hn
    obtain ⟨v, hv, rfl⟩ := List.mem_map.1 hn
    exact List.length_pos_iff.2 (hd v hv)) T.probs.get
  have hmk : make T.vars a = .ok ⟨T.vars, a⟩ := by
    rw [make, if_pos (by rw [hsh, hs]; rfl)]
  refine ⟨⟨T.vars, a⟩, ?_, rfl, hsh, hget, ?_, ?_⟩
  · simp only [fromJson, toJson, tolist, ha, bind, Except.bind, hmk]
  · intro row
    simp only [likelihood, at?, hsh]
    by_cases h : row ∈ cells T.probs.shape
    · simp only [h, if_true, hget row (mem_cells.1 h)]
    · simp only [h, if_false]
  · simp only [Multinomial.eq, allclose, Bool.and_eq_true, decide_eq_true_iff, hsh]
    refine ⟨⟨trivial, trivial⟩, fun i hi => ?_⟩
    rw [hget i (mem_cells.1 hi), sub_self, abs_zero]
    positivity

/-- C83.  Copying gives the same variables and entries. -/
theorem C83_copy {T : Multinomial} (hs : T.probs.shape = T.vars.map fun v => v.domain.length) : T.copy = .ok T := by
  rw [copy, make, if_pos (by rw [hs]; rfl)]

/-- The full property, as documented: distributions are equal only if the probability mass functions are. -/
def C83_full : Prop := ∀ T U : Multinomial, Table T → Table U → T.eq U = true →
  ∀ row, T.likelihood row = U.likelihood row

/-- C83 (partial): distributions that compare equal have the same variables and shape, and entries that differ by at most
`1e-8 + 1e-5 |q|`; and distributions with the same variables and entries compare equal.  What is missing: the entries need not be
equal, see `C83_full_false`. -/
theorem C83_equal_partial (T U : Multinomial) :
    T.eq U = true ↔ T.vars = U.vars ∧ T.probs.shape = U.probs.shape ∧
      ∀ i, IsCell T.probs.shape i → |T.probs.get i - U.probs.get i| ≤ 1 / 10 ^ 8 + 1 / 10 ^ 5 * |U.probs.get i| := by
  simp only [Multinomial.eq, allclose, Bool.and_eq_true, decide_eq_true_iff, and_assoc, mem_cells]

/-- Two values of one variable with the given probabilities. -/
noncomputable def coinTable (p : ℝ) : Multinomial :=
  ⟨[⟨0, [0, 1]⟩], ⟨[2], fun i => if i = [0] then p else 1 - p⟩⟩

theorem cells_coin (p : ℝ) : cells (coinTable p).probs.shape = [[0], [1]] := by
  simp [coinTable, cells, cartesian, List.range_succ]

theorem coinTable_table {p : ℝ} (h0 : 0 ≤ p) (h1 : p ≤ 1) : Table (coinTable p) where
  vars := by simp [coinTable]
  domains := by simp [coinTable]
  shape := by simp [coinTable]
  nonneg i _ := by
    simp only [coinTable]
    split_ifs <;> linarith
  pos := by
    rw [cellMass_eq]
    rw [cells_coin, List.filter_eq_self.2 (by simp)]
    simp [coinTable]

theorem coinTable_eq (p q : ℝ) : (coinTable p).eq (coinTable q) = true ↔
    |p - q| ≤ 1 / 10 ^ 8 + 1 / 10 ^ 5 * |q| ∧ |p - q| ≤ 1 / 10 ^ 8 + 1 / 10 ^ 5 * |1 - q| := by
  rw [C83_equal_partial]
  have h : ∀ i, IsCell (coinTable p).probs.shape i ↔ i = [0] ∨ i = [1] := by
    intro i
    rw [← mem_cells, cells_coin]
    simp
  simp only [h, forall_eq_or_imp, forall_eq]
  simp only [coinTable, true_and, if_true, List.cons.injEq, one_ne_zero, and_true, if_false]
  have : 1 - p - (1 - q) = -(p - q) := by ring
  rw [this, abs_neg]

/-- C83: distributions with different probabilities compare equal. -/
theorem C83_full_false : ¬ C83_full := by
  intro h
  have := h (coinTable (1 / 2)) (coinTable (1 / 2 + 1 / 10 ^ 8)) (coinTable_table (by norm_num) (by norm_num))
    (coinTable_table (by norm_num) (by norm_num)) ((coinTable_eq _ _).2 (by norm_num [abs_of_pos, abs_of_nonneg])) [0]
  simp only [likelihood, at?, cells_coin] at this
  simp only [coinTable, List.mem_cons, true_or, if_true, bind, Except.bind, pure, Except.pure, Except.ok.injEq] at this
  rw [LogP.exp_log (by norm_num), LogP.exp_log (by norm_num)] at this
  norm_num at this

/-- C83: equality is neither symmetric nor transitive. -/
theorem C83_not_equivalence :
    (∃ T U : Multinomial, Table T ∧ Table U ∧ T.eq U = true ∧ U.eq T = false) ∧
    ∃ T U W : Multinomial, Table T ∧ Table U ∧ Table W ∧ T.eq U = true ∧ U.eq W = true ∧ T.eq W = false := by
  refine ⟨⟨coinTable 0, coinTable (1 / 10 ^ 8 + 5 / 10 ^ 14), coinTable_table (by norm_num) (by norm_num),
    coinTable_table (by norm_num) (by norm_num), (coinTable_eq _ _).2 ?_, ?_⟩,
    ⟨coinTable 0, coinTable (1 / 10 ^ 8), coinTable (2 / 10 ^ 8), coinTable_table (by norm_num) (by norm_num),
    coinTable_table (by norm_num) (by norm_num), coinTable_table (by norm_num) (by norm_num), (coinTable_eq _ _).2 ?_,
    (coinTable_eq _ _).2 ?_, ?_⟩⟩
  · norm_num [abs_of_pos, abs_of_neg]
  · rw [Bool.eq_false_iff, Ne, coinTable_eq]
    norm_num [abs_of_pos, abs_of_neg]
  · norm_num [abs_of_pos, abs_of_neg]
  · norm_num [abs_of_pos, abs_of_neg]
  · rw [Bool.eq_false_iff, Ne, coinTable_eq]
    norm_num [abs_of_pos, abs_of_neg]

/-- The hypotheses of `C83_json` and `C83_copy` are met by a table over two variables. -/
example : ∃ T : Multinomial, T.probs.shape = T.vars.map (fun v => v.domain.length) ∧ (∀ v ∈ T.vars, v.domain ≠ []) ∧ T.vars.length = 2 :=
  ⟨⟨[⟨0, [0, 1]⟩, ⟨1, [0, 1, 2]⟩], ⟨[2, 3], fun _ => 1 / 6⟩⟩, rfl, by simp, rfl⟩

end PM.Props
