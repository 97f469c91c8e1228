import Verif.Circuit.MultinomialCircuit
import Verif.Props.Queries
import Mathlib.Tactic.IntervalCases
import Mathlib.Tactic.NormNum

/-!
# C34, C35, C36, C55, C56: multinomial tables
-/

namespace PM.Props

open Graph Spec NdArray Multinomial

/-! ### C34: marginal -/

/-- **C34**, as far as it holds: if the variables are requested in the order of the table, the marginal gives each
combination `j` of values of the requested variables the share of the cells of the table that extend it. -/
theorem C34_marginal_partial {T : Multinomial} (hT : Table T) {vs : List SymVar} (hvs : vs.Sublist T.vars) :
    ∃ M, T.marginal vs = .ok M ∧ M.vars = vs ∧ Table M ∧ cellMass M.probs Set.univ = 1 ∧
      ∀ j, IsCell (vs.map fun v => v.domain.length) j → M.probs.get j =
        cellMass T.probs {i | ∀ p ∈ vs.zip j, p ∈ T.vars.zip i} / cellMass T.probs Set.univ := by
  have hf := filter_sublist hvs hT.vars_nodup
  have hshape : (T.probs.sumAxes (T.vars.map fun v => decide (v ∈ vs))).shape = vs.map fun v => v.domain.length := by
    simp only [sumAxes, hT.shape, project_map, project_map_filter, hf]
  have htot : cellMass (T.probs.sumAxes (T.vars.map fun v => decide (v ∈ vs))) Set.univ = cellMass T.probs Set.univ := by
    rw [cellMass_sumAxes]
    rfl
  have hget : ∀ j, IsCell (vs.map fun v => v.domain.length) j →
      (T.probs.sumAxes (T.vars.map fun v => decide (v ∈ vs))).get j =
        cellMass T.probs {i | ∀ p ∈ vs.zip j, p ∈ T.vars.zip i} := by
    intro j hj
    rw [sumAxes_get hT vs (by rw [hf]; exact hj), hf]
  have hTab : Table ⟨vs, T.probs.sumAxes (T.vars.map fun v => decide (v ∈ vs))⟩ := by
    refine ⟨hT.vars.sublist (hvs.map _), fun v hv => hT.domains v (hvs.subset hv), hshape, ?_, ?_⟩
    · intro j hj
      rw [hshape] at hj
      simp only [hget j hj]
      exact cellMass_nonneg hT.nonneg
    · simp only [htot]
      exact hT.pos
  refine ⟨_, marginal_eq hT vs (by rw [hf]), rfl, hTab.normalize.1, hTab.normalize.2, fun j hj => ?_⟩
  rw [← hget j hj, ← htot, ← total_eq]
  rfl

/-- What happens for any request: the entries are those of the requested variables *in the order of the table*, but the
result is labelled in the order of the request; if the sizes do not fit that labelling, `ValueError`. -/
theorem C34_any_order {T : Multinomial} (hT : Table T) (vs : List SymVar) :
    ((vs.map fun v => v.domain.length) ≠ ((T.vars.filter fun v => decide (v ∈ vs)).map fun v => v.domain.length) →
      T.marginal vs = .error .valueError) ∧
    ((vs.map fun v => v.domain.length) = ((T.vars.filter fun v => decide (v ∈ vs)).map fun v => v.domain.length) →
      ∃ M, T.marginal vs = .ok M ∧ M.vars = vs ∧ ∀ j, IsCell (vs.map fun v => v.domain.length) j → M.probs.get j =
        cellMass T.probs {i | ∀ p ∈ (T.vars.filter fun v => decide (v ∈ vs)).zip j, p ∈ T.vars.zip i} /
          cellMass T.probs Set.univ) := by
  refine ⟨marginal_error hT vs, fun h => ⟨_, marginal_eq hT vs h, rfl, fun j hj => ?_⟩⟩
  rw [← sumAxes_get hT vs (by rw [← h]; exact hj)]
  have htot : cellMass (T.probs.sumAxes (T.vars.map fun v => decide (v ∈ vs))) Set.univ = cellMass T.probs Set.univ := by
    rw [cellMass_sumAxes]
    rfl
  rw [← htot, ← total_eq]
  rfl

/-- C34 as claimed, for requests in any order. -/
def C34_full : Prop := ∀ (T : Multinomial) (vs : List SymVar), Table T → vs.Nodup → (∀ v ∈ vs, v ∈ T.vars) →
  ∃ M, T.marginal vs = .ok M ∧ M.vars = vs ∧ ∀ j, IsCell (vs.map fun v => v.domain.length) j → M.probs.get j =
    cellMass T.probs {i | ∀ p ∈ vs.zip j, p ∈ T.vars.zip i} / cellMass T.probs Set.univ

/-- Two binary variables. -/
def exX : SymVar := ⟨0, [0, 1]⟩
/-- Two binary variables. -/
def exY : SymVar := ⟨1, [0, 1]⟩

/-- `P(X = 0, Y = 1) = 1`. -/
noncomputable def exTable : Multinomial := ⟨[exX, exY], ⟨[2, 2], fun i => if i = [0, 1] then 1 else 0⟩⟩

theorem exTable_table : Table exTable where
  vars := by simp [exTable, exX, exY]
  domains := by simp [exTable, exX, exY]
  shape := by simp [exTable, exX, exY]
  nonneg := by
    intro i _
    simp only [exTable]
    split <;> norm_num
  pos := by
    rw [← total_eq]
    have : cells exTable.probs.shape = [[0, 0], [0, 1], [1, 0], [1, 1]] := by rfl
    rw [total, this]
    simp [exTable]

open Classical in
theorem exTable_mass (A : Set (List ℕ)) : cellMass exTable.probs A = if [0, 1] ∈ A then 1 else 0 := by
  rw [cellMass_eq]
  have : cells exTable.probs.shape = [[0, 0], [0, 1], [1, 0], [1, 1]] := by rfl
  rw [this]
  have h : ∀ l : List (List ℕ), ((l.filter fun i => decide (i ∈ A)).map exTable.probs.get).sum =
      (l.map fun i => if i ∈ A ∧ i = [0, 1] then (1 : ℝ) else 0).sum := by
    intro l
    induction l with
    | nil => rfl
    | cons i l ih =>
      rw [List.filter_cons, List.map_cons, List.sum_cons, ← ih]
      by_cases hA : i ∈ A
      · simp [hA, exTable]
      · simp [hA]
  rw [h]
  by_cases hA : [0, 1] ∈ A <;> simp [hA]

/-- C34 does not hold: asking for `(Y, X)` returns the table of `(X, Y)` with the labels exchanged. -/
theorem C34_full_false : ¬ C34_full := by
  classical
  intro h
  obtain ⟨M, h1, -, h3⟩ := h exTable [exY, exX] exTable_table (by simp [exX, exY]) (by simp [exTable])
  obtain ⟨M', h1', -, h3'⟩ := (C34_any_order exTable_table [exY, exX]).2 (by simp [exTable, exX, exY])
  rw [h1] at h1'
  injection h1' with h1'
  subst h1'
  have hj : IsCell ([exY, exX].map fun v => v.domain.length) [0, 1] := by simp [IsCell, exX, exY]
  have hc := (h3 _ hj).symm.trans (h3' _ hj)
  rw [exTable_mass, exTable_mass, exTable_mass] at hc
  revert hc
  simp [exTable, exX, exY]

/-- The hypotheses of `C34_marginal_partial`: the second variable of the table. -/
example : Table exTable ∧ [exY].Sublist exTable.vars := ⟨exTable_table, by simp [exTable]⟩

/-! ### C35: mode, probability, conditional -/

theorem foldl_max_spec : ∀ (l : List ℝ) (p : ℝ), (l.foldl max p = p ∨ l.foldl max p ∈ l) ∧ p ≤ l.foldl max p ∧
    ∀ q ∈ l, q ≤ l.foldl max p := by
  intro l
  induction l with
  | nil => intro p; simp
  | cons a l ih =>
    intro p
    obtain ⟨h1, h2, h3⟩ := ih (max p a)
    simp only [List.foldl_cons]
    refine ⟨?_, (le_max_left _ _).trans h2, ?_⟩
    · rcases h1 with h1 | h1
      · rcases max_choice p a with h | h
        · exact .inl (h1.trans h)
        · exact .inr (by rw [h1, h]; simp)
      · exact .inr (by simp [h1])
    · intro q hq
      rcases List.mem_cons.1 hq with rfl | hq
      · exact (le_max_right _ _).trans h2
      · exact h3 q hq

/-- **C35**: `mode` returns the largest entry and an event that contains exactly the cells with that entry. -/
theorem C35_mode {T : Multinomial} (hT : Table T) : ∃ E m, T.logMode = .ok (E, LogP.log m) ∧ (LogP.log m).exp = m ∧
    IsGreatest (T.probs.get '' {i | IsCell T.probs.shape i}) m ∧
    ∀ i, IsCell T.probs.shape i → ((∃ e ∈ E, CellIn T e i) ↔ T.probs.get i = m) := by
  classical
  have hne := cells_ne_nil hT
  cases hc : (cells T.probs.shape).map T.probs.get with
  | nil => simp at hc; exact absurd hc hne
  | cons p ps =>
    obtain ⟨h1, h2, h3⟩ := foldl_max_spec ps p
    have hmem : ∀ q, q ∈ p :: ps ↔ ∃ i, IsCell T.probs.shape i ∧ T.probs.get i = q := by
      intro q
      rw [← hc, List.mem_map]
      exact exists_congr fun i => by rw [mem_cells]
    have hmax : ps.foldl max p ∈ p :: ps := by
      rcases h1 with h1 | h1
      · rw [h1]; simp
      · simp [h1]
    obtain ⟨i₀, hi₀, hg⟩ := (hmem _).1 hmax
    refine ⟨_, ps.foldl max p, by rw [logMode, hc], LogP.exp_log (by rw [← hg]; exact hT.nonneg i₀ hi₀),
      ⟨⟨i₀, hi₀, hg⟩, ?_⟩, ?_⟩
    · rintro _ ⟨i, hi, rfl⟩
      rcases List.mem_cons.1 ((hmem _).2 ⟨i, hi, rfl⟩) with h | h
      · rw [h]; exact h2
      · exact h3 _ h
    · intro i hi
      simp only [List.mem_map, List.mem_filter, mem_cells, decide_eq_true_eq]
      have hlen : ∀ i, IsCell T.probs.shape i → i.length = T.vars.length := fun i hi => by
        rw [hi.length_eq, hT.shape, List.length_map]
      constructor
      · rintro ⟨_, ⟨i', ⟨hi', hm⟩, rfl⟩, hin⟩
        rw [← hm]
        congr 1
        apply List.ext_getElem ((hlen i hi).trans (hlen i' hi').symm)
        intro k hk hk'
        have hkv : k < T.vars.length := by rw [← hlen i hi]; exact hk
        have hin' := hin (T.vars[k], i[k]) (List.mem_iff_getElem.2 ⟨k, by simp [hk, hkv], by simp⟩)
          (T.vars[k].var, .symbols [T.vars[k].domain.getD i'[k] 0]) ?_ rfl
        · obtain ⟨s, hs, he⟩ := hin'
          rw [List.mem_singleton] at hs
          subst hs
          have he' : T.vars[k].domain.getD i'[k] 0 = T.vars[k].domain.getD i[k] 0 := by exact_mod_cast he
          have hb : ∀ i (hi : IsCell T.probs.shape i) (h : k < i.length), i[k] < T.vars[k].domain.length := by
            intro i hi h
            rw [IsCell, hT.shape, List.forall₂_map_right_iff, List.forall₂_iff_get] at hi
            simpa using hi.2 k h hkv
          rw [List.getD_eq_getElem _ _ (hb i hi hk), List.getD_eq_getElem _ _ (hb i' hi' hk')] at he'
          exact ((hT.domains _ (List.getElem_mem hkv)).getElem_inj_iff.1 he').symm
        · rw [List.mem_map]
          exact ⟨(T.vars[k], i'[k]), List.mem_iff_getElem.2 ⟨k, by simp [hk', hkv], by simp⟩, rfl⟩
      · intro hm
        refine ⟨_, ⟨i, ⟨hi, hm⟩, rfl⟩, ?_⟩
        intro vk hvk p hp hpv
        obtain ⟨vk', hvk', rfl⟩ := List.mem_map.1 hp
        have hvv : vk = vk' := by
          obtain ⟨a, ha, rfl⟩ := List.mem_iff_getElem.1 hvk
          obtain ⟨b, hb, rfl⟩ := List.mem_iff_getElem.1 hvk'
          simp only [List.length_zip] at ha hb
          simp only [List.getElem_zip] at hpv
          have : b = a := by
            have h1 : (T.vars.map SymVar.var)[b]'(by simp; omega) = (T.vars.map SymVar.var)[a]'(by simp; omega) := by
              simpa using hpv
            exact hT.vars.getElem_inj_iff.1 h1
          subst this
          rfl
        subst hvv
        exact ⟨_, List.mem_singleton.2 rfl, rfl⟩

/-- **C35**: `probability` is the sum of the cells in the event. -/
theorem C35_probability {T : Multinomial} (hT : Table T) {E : List SimpleEvent} (hE : ∀ e ∈ E, TableEvent T e)
    (hd : DisjointEvents T E) : T.probability E = .ok (cellMass T.probs {i | ∃ e ∈ E, CellIn T e i}) :=
  Multinomial.probability_eq hT hE hd

open Classical in
/-- **C35**: `conditional` returns the mass of the event; without mass there is no conditional, otherwise it has the same
variables, is normalized, and each cell of the event has its share of the mass, every other cell `0`. -/
theorem C35_conditional {T : Multinomial} (hT : Table T) {E : List SimpleEvent} (hE : ∀ e ∈ E, TableEvent T e)
    (hd : DisjointEvents T E) :
    (cellMass T.probs {i | ∃ e ∈ E, CellIn T e i} = 0 → T.conditional E = .ok (none, 0)) ∧
    (cellMass T.probs {i | ∃ e ∈ E, CellIn T e i} ≠ 0 → ∃ M, T.conditional E =
        .ok (some M, cellMass T.probs {i | ∃ e ∈ E, CellIn T e i}) ∧ M.vars = T.vars ∧ Table M ∧
        cellMass M.probs Set.univ = 1 ∧ ∀ i, IsCell T.probs.shape i → M.probs.get i =
          if ∃ e ∈ E, CellIn T e i then T.probs.get i / cellMass T.probs {i | ∃ e ∈ E, CellIn T e i} else 0) := by
  obtain ⟨b, h1, h2, h3⟩ := foldlM_eq hT hE hd T.probs.zerosLike rfl
  have hb : ∀ i, IsCell T.probs.shape i → b.get i = if ∃ e ∈ E, CellIn T e i then T.probs.get i else 0 := by
    intro i hi
    rw [h3 i hi]
    simp [zerosLike]
  have htot : b.total = cellMass T.probs {i | ∃ e ∈ E, CellIn T e i} := by
    rw [total, cellMass_eq, h2]
    have hb' : ∀ i ∈ cells T.probs.shape, b.get i = if ∃ e ∈ E, CellIn T e i then T.probs.get i else 0 :=
      fun i hi => hb i (mem_cells.1 hi)
    generalize cells T.probs.shape = l at hb'
    induction l with
    | nil => rfl
    | cons i l ih =>
      have := ih fun i hi => hb' i (by simp [hi])
      simp only [Set.mem_ofPred_eq, List.map_cons, List.sum_cons, List.filter_cons, decide_eq_true_eq] at this ⊢
      rw [hb' i (by simp), this]
      by_cases h : ∃ e ∈ E, CellIn T e i
      · rw [if_pos h, if_pos h]; rfl
      · rw [if_neg h, if_neg h, zero_add]
  have hnn : 0 ≤ cellMass T.probs {i | ∃ e ∈ E, CellIn T e i} := cellMass_nonneg hT.nonneg
  constructor
  · intro h0
    rw [Multinomial.conditional, Multinomial.logConditional, h1]
    simp only [bind, Except.bind, pure, Except.pure, htot, h0, if_true]
    simp
  · intro h0
    have hTab : Table ⟨T.vars, b⟩ := by
      refine ⟨hT.vars, hT.domains, h2.trans hT.shape, ?_, ?_⟩
      · intro i hi
        simp only [h2] at hi
        simp only [hb i hi]
        split
        · exact hT.nonneg i hi
        · exact le_rfl
      · simp only [← total_eq, htot]
        exact lt_of_le_of_ne hnn (Ne.symm h0)
    refine ⟨Multinomial.normalize ⟨T.vars, b⟩, ?_, rfl, hTab.normalize.1, hTab.normalize.2, ?_⟩
    · have hm : make T.vars b = .ok ⟨T.vars, b⟩ := by
        rw [make, if_pos (by rw [h2]; exact hT.shape.symm)]
      rw [Multinomial.conditional, Multinomial.logConditional, h1]
      simp only [bind, Except.bind, pure, Except.pure, htot, h0, if_false, hm, LogP.exp_log hnn]
    · intro i hi
      simp only [Multinomial.normalize, divBy, htot, hb i hi]
      split
      · rfl
      · rw [zero_div]

/-- The hypotheses of C35: the event `X = 0` of the table, with mass `1`. -/
example : Table exTable ∧ (∀ e ∈ [[((0 : Var), VSet.symbols [0])]], TableEvent exTable e) ∧
    DisjointEvents exTable [[((0 : Var), VSet.symbols [0])]] ∧
    cellMass exTable.probs {i | ∃ e ∈ [[((0 : Var), VSet.symbols [0])]], CellIn exTable e i} ≠ 0 := by
  classical
  refine ⟨exTable_table, ?_, List.pairwise_singleton _ _, ?_⟩
  · intro e he
    rw [List.mem_singleton] at he
    subst he
    refine ⟨by simp, ?_⟩
    intro v hv A hA
    simp only [List.mem_singleton, Prod.mk.injEq] at hA
    obtain ⟨h0, rfl⟩ := hA
    refine ⟨[0], rfl, by simp, ?_⟩
    simp only [exTable, List.mem_cons, List.not_mem_nil, or_false] at hv
    rcases hv with rfl | rfl
    · simp [exX]
    · simp [exY] at h0
  · rw [exTable_mass, if_pos]
    · norm_num
    · refine ⟨_, List.mem_singleton.2 rfl, ?_⟩
      intro vk hvk p hp hpv
      rw [List.mem_singleton] at hp
      subst hp
      simp only [exTable, List.zip_cons_cons, List.zip_nil_left, List.mem_cons, List.not_mem_nil, or_false] at hvk
      rcases hvk with rfl | rfl
      · exact ⟨0, by simp, by simp [exX]⟩
      · simp [exY] at hpv

/-! ### C36: as a circuit -/

/-- **C36**: `as_probabilistic_circuit` returns a smooth and decomposable circuit over the variables of the table whose
likelihood at every cell (given by the indices of the values) is the entry of the table, and `0` everywhere else. -/
theorem C36_likelihood {T : Multinomial} (hT : Table T) (hne : T.vars ≠ []) : ∃ g sc, T.asCircuit = .ok g ∧
    Layered g 0 ∧ Scoped g sc ∧ Decomposable g sc ∧ sc 0 = (T.vars.map SymVar.var).toFinset ∧
    (∀ (m : Mem LogP) (x : Var → ℝ) i, IsCell T.probs.shape i → (∀ vk ∈ T.vars.zip i, x vk.1.var = vk.2) →
      g.likelihood m x = .ok (T.probs.get i) ∧ T.likelihood i = .ok (T.probs.get i)) ∧
    (∀ (m : Mem LogP) (x : Var → ℝ), (∀ i, IsCell T.probs.shape i → ∃ vk ∈ T.vars.zip i, x vk.1.var ≠ vk.2) →
      g.likelihood m x = .ok 0) := by
  have hD := denotes_asCircuit hT
  obtain ⟨sc, hs, hdec, hsc⟩ := hD.scope
  have hval : ∀ (m : Mem LogP) (x : Var → ℝ), T.theCircuit.likelihood m x =
      .ok (cellMass T.probs {i | ∀ p ∈ T.vars.zip i, x p.1.var = (p.2 : ℝ)}) := by
    intro m x
    obtain ⟨f, hf, hfr⟩ := hD.exists_value fun d => leafDensity d (x d.var)
    obtain ⟨L, -, -, -, h⟩ := C01_loglikelihood hD.layered hs hD.valid x hf m
    rw [h, hfr]
    refine congrArg Except.ok (circuit_indicator T (ℓ := fun d => leafDensity d (x d.var))
      (P := fun v a => x v.var = (a : ℝ)) ?_)
    intro i _ p _
    exact density_oneHot p.1 p.2 _
  refine ⟨T.theCircuit, sc, asCircuit_eq hT hne, hD.layered, hs, hdec, hsc, ?_, ?_⟩
  · intro m x i hi hx
    refine ⟨?_, likelihood_eq hT hi⟩
    rw [hval m x, ← cellMass_singleton _ hi]
    congr 1
    refine cellMass_congr rfl ?_ fun _ _ _ => rfl
    intro j hj
    simp only [Set.mem_ofPred_eq, Set.mem_singleton_iff]
    constructor
    · intro h
      have hlen : ∀ i, IsCell T.probs.shape i → i.length = T.vars.length := fun i hi => by
        rw [hi.length_eq, hT.shape, List.length_map]
      apply List.ext_getElem ((hlen j hj).trans (hlen i hi).symm)
      intro k hk hk'
      have hkv : k < T.vars.length := by rw [← hlen j hj]; exact hk
      have h1 := h (T.vars[k], j[k]) (List.mem_iff_getElem.2 ⟨k, by simp [hk, hkv], by simp⟩)
      have h2 := hx (T.vars[k], i[k]) (List.mem_iff_getElem.2 ⟨k, by simp [hk', hkv], by simp⟩)
      have h3 := h1.symm.trans h2
      exact_mod_cast h3
    · rintro rfl
      exact hx
  · intro m x hx
    rw [hval m x]
    congr 1
    rw [← cellMass_empty T.probs (A := ∅) (by simp)]
    refine cellMass_congr rfl ?_ fun _ _ _ => rfl
    intro i hi
    simp only [Set.mem_ofPred_eq, Set.mem_empty_iff_false, iff_false]
    intro h
    obtain ⟨vk, hvk, hne⟩ := hx i hi
    exact hne (h vk hvk)

/-- The hypotheses of C36, and a row with likelihood `1`. -/
example : Table exTable ∧ exTable.vars ≠ [] ∧ IsCell exTable.probs.shape [0, 1] ∧
    (∀ vk ∈ exTable.vars.zip [0, 1], (fun v : Var => (v : ℝ)) vk.1.var = vk.2) ∧ exTable.probs.get [0, 1] = 1 :=
  ⟨exTable_table, by simp [exTable], by simp [IsCell, exTable], by simp [exTable, exX, exY], by simp [exTable]⟩

/-! ### C55: fit -/

theorem sum_indicator_nodup {r : List ℕ} : ∀ {l : List (List ℕ)}, l.Nodup → r ∈ l →
    (l.map fun i => if r = i then (1 : ℝ) else 0).sum = 1 := by
  intro l
  induction l with
  | nil => intro _ h; simp at h
  | cons a l ih =>
    intro hn hm
    rw [List.nodup_cons] at hn
    rw [List.map_cons, List.sum_cons]
    by_cases ha : r = a
    · subst ha
      have : (l.map fun i => if r = i then (1 : ℝ) else 0).sum = 0 := by
        apply List.sum_eq_zero
        intro x hx
        obtain ⟨i, hi, rfl⟩ := List.mem_map.1 hx
        rw [if_neg]
        rintro rfl
        exact hn.1 hi
      rw [this, if_pos rfl, add_zero]
    · rw [if_neg ha, zero_add]
      exact ih hn.2 ((List.mem_cons.1 hm).resolve_left ha)

/-- **C55**: `fit` gives every cell its relative frequency in the data; a row outside the table raises `IndexError`. -/
theorem C55_fit {T : Multinomial} (hT : Table T) (data : List (List ℕ)) :
    ((∀ row ∈ data, IsCell T.probs.shape row) → data ≠ [] → ∃ M, T.fit data = .ok M ∧ M.vars = T.vars ∧ Table M ∧
      cellMass M.probs Set.univ = 1 ∧
      ∀ i, IsCell T.probs.shape i → M.probs.get i = (data.count i : ℝ) / data.length) ∧
    ((∃ row ∈ data, ¬ IsCell T.probs.shape row) → T.fit data = .error .indexError) := by
  have hfold : ∀ (us : List (List ℕ × ℕ)) (f : List ℕ → ℝ) (i : List ℕ), (us.map Prod.fst).Nodup →
      us.foldl (fun f u => Function.update f u.1 (u.2 : ℝ)) f i =
        match us.find? (fun u => u.1 == i) with | some u => (u.2 : ℝ) | none => f i := by
    intro us
    induction us with
    | nil => intro f i _; rfl
    | cons u us ih =>
      intro f i hn
      rw [List.map_cons, List.nodup_cons] at hn
      rw [List.foldl_cons, ih _ i hn.2, List.find?_cons]
      by_cases hi : u.1 = i
      · have hnone : us.find? (fun u => u.1 == i) = none := by
          rw [List.find?_eq_none]
          intro x hx hxi
          have hxi : x.1 = i := by simpa using hxi
          exact hn.1 (List.mem_map.2 ⟨x, hx, by rw [hxi, hi]⟩)
        have hb : (u.1 == i) = true := by simpa using hi
        simp only [hnone, hb]
        rw [← hi, Function.update_self]
      · have hb : (u.1 == i) = false := by simpa using hi
        simp only [hb]
        cases us.find? (fun u => u.1 == i) with
        | none => exact Function.update_of_ne (fun h => hi h.symm) _ _
        | some x => rfl
  have hcount : ∀ i, (uniqueRows data).foldl (fun f u => Function.update f u.1 (u.2 : ℝ)) T.probs.zerosLike.get i =
      (data.count i : ℝ) := by
    intro i
    rw [hfold _ _ _ (by rw [uniqueRows, List.map_map]; simpa [Function.comp_def] using List.nodup_dedup data)]
    have : (uniqueRows data).find? (fun u => u.1 == i) = if i ∈ data then some (i, data.count i) else none := by
      rw [uniqueRows]
      have hd : ∀ l : List (List ℕ), (l.map fun row => (row, data.count row)).find? (fun u => u.1 == i) =
          if i ∈ l then some (i, data.count i) else none := by
        intro l
        induction l with
        | nil => rfl
        | cons a l ih =>
          rw [List.map_cons, List.find?_cons]
          by_cases ha : a = i
          · subst ha; simp
          · have hb : (a == i) = false := by simpa using ha
            have ha' : ¬ i = a := fun h => ha h.symm
            simp only [hb, ih, List.mem_cons, ha', false_or]
      rw [hd]
      simp only [List.mem_dedup]
    rw [this]
    by_cases hi : i ∈ data
    · simp [hi]
    · simp [hi, zerosLike, List.count_eq_zero_of_not_mem hi]
  constructor
  · intro hrows hne
    have hall : ((uniqueRows data).all fun u => decide (u.1 ∈ cells T.probs.shape)) = true := by
      rw [List.all_eq_true]
      intro u hu
      obtain ⟨row, hr, rfl⟩ := List.mem_map.1 hu
      simpa [mem_cells] using hrows row (List.mem_dedup.1 hr)
    set a : NdArray := ⟨T.probs.shape, (uniqueRows data).foldl (fun f u => Function.update f u.1 (u.2 : ℝ))
      T.probs.zerosLike.get⟩ with ha
    have htot : a.total = data.length := by
      rw [total, ha]
      simp only
      rw [List.map_congr_left fun i _ => hcount i]
      have h1 : ∀ l : List (List ℕ), (∀ row ∈ l, row ∈ cells T.probs.shape) →
          ((cells T.probs.shape).map fun i => (l.count i : ℝ)).sum = l.length := by
        intro l
        induction l with
        | nil => simp
        | cons r l ih =>
          intro h
          have h2 : ∀ i, ((r :: l).count i : ℝ) = (if r = i then 1 else 0) + (l.count i : ℝ) := by
            intro i
            rw [List.count_cons]
            by_cases hri : r = i <;> simp [hri, add_comm]
          simp only [h2]
          rw [List.sum_map_add, ih fun row hr => h row (by simp [hr])]
          have h3 : ((cells T.probs.shape).map fun i => if r = i then (1 : ℝ) else 0).sum = 1 := by
            exact sum_indicator_nodup (nodup_cells _) (h r (by simp))
          rw [h3, List.length_cons]
          push_cast
          ring
      exact h1 data fun row hr => mem_cells.2 (hrows row hr)
    have hpos : (0 : ℝ) < data.length := by exact_mod_cast List.length_pos_iff.2 hne
    have hTab : Table ⟨T.vars, a⟩ := by
      refine ⟨hT.vars, hT.domains, hT.shape, ?_, ?_⟩
      · intro i _
        simp only [ha, hcount i]
        exact Nat.cast_nonneg _
      · simp only [← total_eq, htot]
        exact hpos
    refine ⟨Multinomial.normalize ⟨T.vars, a⟩, ?_, rfl, hTab.normalize.1, hTab.normalize.2, ?_⟩
    · rw [fit]
      simp only [hall, if_true, ha]
      rfl
    · intro i _
      change (_ : ℝ) / a.total = _
      rw [htot, ha]
      simp only [hcount i]
  · rintro ⟨row, hr, hnc⟩
    have hall : ¬ ((uniqueRows data).all fun u => decide (u.1 ∈ cells T.probs.shape)) = true := by
      rw [List.all_eq_true]
      intro h
      have := h (row, data.count row) (List.mem_map.2 ⟨row, List.mem_dedup.2 hr, rfl⟩)
      exact hnc (mem_cells.1 (by simpa using this))
    rw [fit]
    simp only [hall]
    rfl

/-- The hypotheses of C55: three rows. -/
example : Table exTable ∧ (∀ row ∈ [[0, 1], [1, 1], [0, 1]], IsCell exTable.probs.shape row) :=
  ⟨exTable_table, by simp [IsCell, exTable]⟩

/-! ### C56: event probabilities of the circuit -/

/-- The domain of each variable of the table. -/
def domainsOf (T : Multinomial) : Var → VSet := fun v =>
  match T.vars.find? (fun s => s.var == v) with
  | some s => .symbols s.domain
  | none => .symbols []

theorem circuit_pass {T : Multinomial} (hT : Table T) {e : SimpleEvent} (he : TableEvent T e) {vs : List Var}
    (hvs : ∀ v ∈ T.vars, v.var ∈ vs) (m : Mem ℝ) :
    (T.theCircuit.probabilityOfSimpleEvent m (e.fillMissing (domainsOf T) vs)).2 = .ok (cellMass T.probs
      {i | ∀ p ∈ T.vars.zip i, (p.2 : ℤ) ∈ p.1.domain ∧ ∀ q ∈ e, q.1 = p.1.var → q.2.Mem (p.2 : ℝ)}) := by
  classical
  have hD := denotes_asCircuit hT
  -- the symbols the pass reads for each variable
  have hget : ∀ v ∈ T.vars, ∃ S : List ℤ, (e.fillMissing (domainsOf T) vs).get v.var = .ok (.symbols S) ∧ S.Nodup ∧
      ∀ k, k ∈ S ↔ k ∈ v.domain ∧ ∀ q ∈ e, q.1 = v.var → q.2.Mem (k : ℝ) := by
    intro v hv
    rcases fill_get (dom := domainsOf T) he.keys (hvs v hv) with ⟨q, hq, hqv, hg⟩ | ⟨hnk, hg⟩
    · obtain ⟨S, hS, hSn, hSd⟩ := he.symbols v hv q.2 (by rw [← hqv]; exact hq)
      refine ⟨S, by rw [hg, hS], hSn, fun k => ⟨fun hk => ⟨hSd k hk, fun q' hq' hqv' => ?_⟩, fun hk => ?_⟩⟩
      · have h1 := Multinomial.get_of_mem he.keys hq
        have h2 := Multinomial.get_of_mem he.keys hq'
        rw [hqv', ← hqv, h1] at h2
        injection h2 with h2
        rw [← h2, hS]
        exact ⟨k, hk, rfl⟩
      · have := hk.2 q hq hqv
        rw [hS] at this
        obtain ⟨k', hk', hkk⟩ := this
        have : k' = k := by exact_mod_cast hkk
        exact this ▸ hk'
    · have hdom : domainsOf T v.var = .symbols v.domain := by
        have hf : T.vars.find? (fun s => s.var == v.var) = some v := by
          have hn := hT.vars
          revert hv hn
          generalize T.vars = l
          intro hv hn
          induction l with
          | nil => simp at hv
          | cons a l ih =>
            rw [List.map_cons, List.nodup_cons] at hn
            rw [List.find?_cons]
            rcases List.mem_cons.1 hv with rfl | hv
            · simp
            · have : a.var ≠ v.var := fun h => hn.1 (h ▸ List.mem_map_of_mem hv)
              have hb : (a.var == v.var) = false := by simpa using this
              rw [hb]
              exact ih hv hn.2
        rw [domainsOf, hf]
      refine ⟨v.domain, by rw [hg, hdom], hT.domains v hv, fun k => ⟨fun hk => ⟨hk, fun q hq hqv => ?_⟩, fun hk => hk.1⟩⟩
      exact absurd (List.mem_map.2 ⟨q, hq, hqv⟩) hnk
  set ℓ : Leaf → ℝ := fun d => match d.probEvent (e.fillMissing (domainsOf T) vs) with
    | .ok p => p
    | .error _ => 0 with hℓ
  obtain ⟨f, hf, hfr⟩ := hD.exists_value ℓ
  have hone : ∀ i, IsCell T.probs.shape i → ∀ p ∈ T.vars.zip i,
      (oneHot p.1 p.2).probEvent (e.fillMissing (domainsOf T) vs) =
        .ok (if (p.2 : ℤ) ∈ p.1.domain ∧ ∀ q ∈ e, q.1 = p.1.var → q.2.Mem (p.2 : ℝ) then 1 else 0) := by
    intro i hi p hp
    obtain ⟨S, hg, hSn, hSm⟩ := hget p.1 (List.of_mem_zip hp).1
    simp only [Leaf.probEvent, oneHot, Leaf.var, hg, bind, Except.bind, Leaf.prob, lookup_oneHot hSn, hSm]
    simp only [Int.cast_natCast]
  have hpass : (T.theCircuit.probabilityOfSimpleEvent m (e.fillMissing (domainsOf T) vs)).2 = .ok (f 0) := by
    unfold probabilityOfSimpleEvent
    refine (query_eq_meaning hD.layered.wf hD.layered.graded hD.layered.root (forward_meaning hD.layered ?_ hf) m).1
    intro n d hk
    obtain ⟨i, hi, p, hp, rfl⟩ := leaves_asCircuit hT n d hk
    simp only [hℓ, hone i hi p hp]
  rw [hpass, hfr]
  refine congrArg Except.ok (circuit_indicator T (ℓ := ℓ) (P := fun v a => (a : ℤ) ∈ v.domain ∧
    ∀ q ∈ e, q.1 = v.var → q.2.Mem (a : ℝ)) ?_)
  intro i hi p hp
  simp only [hℓ, hone i hi p hp]
  congr

/-- **C56**, as far as it holds: if the symbols of every domain hash to their positions `0, 1, …`, the circuit of the table
gives every event the probability the table gives it. -/
theorem C56_event_probability_partial {T : Multinomial} (hT : Table T) (hne : T.vars ≠ [])
    (hdom : ∀ v ∈ T.vars, ∀ k < v.domain.length, v.domain[k]? = some (k : ℤ))
    {E : List SimpleEvent} (hE : ∀ e ∈ E, TableEvent T e) (hd : DisjointEvents T E) :
    ∃ g, T.asCircuit = .ok g ∧ ∀ m : Mem ℝ, (g.probability m (domainsOf T) E).2 = T.probability E := by
  refine ⟨T.theCircuit, asCircuit_eq hT hne, fun m => ?_⟩
  have hD := denotes_asCircuit hT
  obtain ⟨sc, hs, hdec, hsc⟩ := hD.scope
  have hmass : ∀ e : SimpleEvent, cellMass T.probs
      {i | ∀ p ∈ T.vars.zip i, (p.2 : ℤ) ∈ p.1.domain ∧ ∀ q ∈ e, q.1 = p.1.var → q.2.Mem (p.2 : ℝ)} =
      cellMass T.probs {i | CellIn T e i} := by
    intro e
    refine cellMass_congr rfl ?_ fun _ _ _ => rfl
    intro i hi
    simp only [Set.mem_ofPred_eq, CellIn]
    refine forall_congr' fun p => forall_congr' fun hp => ?_
    have hlt : p.2 < p.1.domain.length := by
      rw [IsCell, hT.shape, List.forall₂_map_right_iff, List.forall₂_iff_get] at hi
      obtain ⟨k, hk, rfl⟩ := List.mem_iff_getElem.1 hp
      simp only [List.length_zip] at hk
      simpa using hi.2 k (by omega) (by omega)
    have h1 := hdom p.1 (List.of_mem_zip hp).1 p.2 hlt
    have h2 : p.1.domain.getD p.2 0 = p.2 := by rw [List.getD_eq_getElem?_getD, h1]; rfl
    have h3 : (p.2 : ℤ) ∈ p.1.domain := List.mem_of_getElem? h1
    rw [h2]
    simp only [h3, true_and, Int.cast_natCast]
  rw [Multinomial.probability_eq hT hE hd]
  simp only [Graph.probability, circuitVars_eq hD.layered.wf hD.layered.graded.acyclic hs hD.layered.root]
  have hvs : ∀ v ∈ T.vars, v.var ∈ (sc 0).sort (· ≤ ·) := by
    intro v hv
    rw [Finset.mem_sort, hsc]
    simpa using ⟨v, hv, rfl⟩
  suffices H : ∀ (acc : ℝ) (m : Mem ℝ), (T.theCircuit.probabilityLoop
      (E.map (SimpleEvent.fillMissing (domainsOf T) ((sc 0).sort (· ≤ ·)))) acc m).2 =
      .ok (acc + cellMass T.probs {i | ∃ e ∈ E, CellIn T e i}) by
    rw [H]; simp
  induction E with
  | nil =>
    intro acc m
    simp only [List.map_nil, probabilityLoop]
    rw [cellMass_empty _ (by simp), add_zero]
  | cons e E ih =>
    intro acc m
    rw [DisjointEvents, List.pairwise_cons] at hd
    simp only [List.map_cons, probabilityLoop]
    have h1 := circuit_pass hT (hE e (by simp)) hvs m
    rw [hmass] at h1
    cases hq : T.theCircuit.probabilityOfSimpleEvent m (e.fillMissing (domainsOf T) ((sc 0).sort (· ≤ ·))) with
    | mk m' res =>
      rw [hq] at h1
      simp only at h1
      subst h1
      simp only
      rw [ih (fun e h => hE e (by simp [h])) hd.2]
      congr 1
      rw [add_assoc, ← cellMass_union]
      · congr 1
        refine cellMass_congr rfl ?_ fun _ _ _ => rfl
        intro i _
        simp
      · rintro i hi ⟨hi1, e', he', hi2⟩
        exact hd.1 e' he' i hi ⟨hi1, hi2⟩

/-- C56 as claimed, for all symbols. -/
def C56_full : Prop := ∀ (T : Multinomial) (E : List SimpleEvent), Table T → T.vars ≠ [] → (∀ e ∈ E, TableEvent T e) →
  DisjointEvents T E → ∃ g, T.asCircuit = .ok g ∧ ∀ m : Mem ℝ, (g.probability m (domainsOf T) E).2 = T.probability E

/-- One variable with one symbol, whose hash is `5`. -/
noncomputable def exFive : Multinomial := ⟨[⟨0, [5]⟩], ⟨[1], fun _ => 1⟩⟩

theorem exFive_table : Table exFive where
  vars := by simp [exFive]
  domains := by simp [exFive]
  shape := by simp [exFive]
  nonneg := by intro i _; simp [exFive]
  pos := by
    rw [← total_eq]
    have : cells exFive.probs.shape = [[0]] := by rfl
    rw [total, this]
    simp [exFive]

/-- C56 does not hold: the leaves are keyed by position, events by hash.  The certain event gets probability `0`. -/
theorem C56_full_false : ¬ C56_full := by
  classical
  intro h
  have hE : ∀ e ∈ [([] : SimpleEvent)], TableEvent exFive e := by
    intro e he
    rw [List.mem_singleton] at he
    subst he
    exact ⟨by simp, by simp⟩
  obtain ⟨g, hg, hp⟩ := h exFive [[]] exFive_table (by simp [exFive]) hE (List.pairwise_singleton _ _)
  rw [asCircuit_eq exFive_table (by simp [exFive])] at hg
  injection hg with hg
  subst hg
  have hp := hp (fun _ => none)
  have hD := denotes_asCircuit exFive_table
  obtain ⟨sc, hs, hdec, hsc⟩ := hD.scope
  rw [Multinomial.probability_eq exFive_table hE (List.pairwise_singleton _ _)] at hp
  simp only [Graph.probability, circuitVars_eq hD.layered.wf hD.layered.graded.acyclic hs hD.layered.root,
    List.map_cons, List.map_nil, probabilityLoop] at hp
  have h1 := circuit_pass exFive_table (hE [] (by simp)) (vs := (sc 0).sort (· ≤ ·)) (by
    intro v hv
    rw [Finset.mem_sort, hsc]
    simpa using ⟨v, hv, rfl⟩) (fun _ => none)
  cases hq : exFive.theCircuit.probabilityOfSimpleEvent (fun _ => none)
      (SimpleEvent.fillMissing (domainsOf exFive) ((sc 0).sort (· ≤ ·)) []) with
  | mk m' res =>
    rw [hq] at h1 hp
    simp only at h1
    subst h1
    simp only [zero_add] at hp
    injection hp with hp
    rw [cellMass_eq, cellMass_eq] at hp
    have hc : cells exFive.probs.shape = [[0]] := by rfl
    rw [hc] at hp
    revert hp
    have h0 : ([0] : List ℕ) ∉ {i : List ℕ | ∀ p ∈ exFive.vars.zip i, (p.2 : ℤ) ∈ p.1.domain ∧
        ∀ q ∈ ([] : SimpleEvent), q.1 = p.1.var → q.2.Mem (p.2 : ℝ)} := by
      simp [exFive]
    have h1 : ([0] : List ℕ) ∈ {i | ∃ e ∈ [([] : SimpleEvent)], CellIn exFive e i} := by
      simp [CellIn]
    rw [List.filter_cons_of_neg (by simpa using h0), List.filter_cons_of_pos (by simpa using h1)]
    simp [exFive]

/-- The hypotheses of `C56_event_probability_partial`. -/
example : Table exTable ∧ exTable.vars ≠ [] ∧
    (∀ v ∈ exTable.vars, ∀ k < v.domain.length, v.domain[k]? = some (k : ℤ)) := by
  refine ⟨exTable_table, by simp [exTable], ?_⟩
  intro v hv k hk
  simp only [exTable, List.mem_cons, List.not_mem_nil, or_false] at hv
  rcases hv with rfl | rfl <;> simp only [exX, exY, List.length_cons, List.length_nil] at hk ⊢ <;>
    interval_cases k <;> rfl

theorem length_cartesian : ∀ ls : List (List ℕ), (cartesian ls).length = (ls.map List.length).prod
  | [] => rfl
  | l :: ls => by
    simp only [cartesian, List.length_flatMap, List.length_map, length_cartesian ls, List.map_cons, List.prod_cons]
    simp

theorem total_eq_cellMass (a : NdArray) : a.total = cellMass a Set.univ := by
  rw [NdArray.cellMass_eq]
  simp [NdArray.total]

/-- C58.  A multinomial distribution created from variables alone is uniform: every cell has the probability one over the number of
combinations of symbols, and the table is normalized. -/
theorem C58_uniform {vs : List SymVar} (hv : (vs.map SymVar.var).Nodup) (hd : ∀ v ∈ vs, v.domain.Nodup ∧ v.domain ≠ []) :
    ∃ T, Multinomial.makeUniform vs = .ok T ∧ Table T ∧ T.vars = vs ∧ cellMass T.probs Set.univ = 1 ∧
      ∀ i, IsCell T.probs.shape i → T.probs.get i = 1 / (vs.map fun v => (v.domain.length : ℝ)).prod := by
  have hprod : 0 < (vs.map fun v => (v.domain.length : ℝ)).prod := by
    apply List.prod_pos
    intro x hx
    obtain ⟨v, hv', rfl⟩ := List.mem_map.1 hx
    exact_mod_cast List.length_pos_iff.2 (hd v hv').2
  have htot : (⟨Multinomial.shapeOf vs, fun _ => 1⟩ : NdArray).total = (vs.map fun v => (v.domain.length : ℝ)).prod := by
    simp only [NdArray.total, NdArray.cells, Multinomial.shapeOf]
    rw [List.map_const', List.sum_replicate, length_cartesian, List.map_map, List.map_map, nsmul_eq_mul, mul_one, Nat.cast_list_prod,
      List.map_map]
    congr 1
    apply List.map_congr_left
    intro v _
    simp
  have hm : cellMass (NdArray.divBy ⟨Multinomial.shapeOf vs, fun _ => 1⟩ (vs.map fun v => (v.domain.length : ℝ)).prod) Set.univ = 1 := by
    rw [NdArray.cellMass_divBy, ← total_eq_cellMass, htot, div_self hprod.ne']
  refine ⟨⟨vs, NdArray.divBy ⟨Multinomial.shapeOf vs, fun _ => 1⟩ (vs.map fun v => (v.domain.length : ℝ)).prod⟩, ?_, ?_, rfl, ?_, ?_⟩
  · unfold Multinomial.makeUniform
    simp only [htot]
    exact if_pos rfl
  · exact ⟨hv, fun v h => (hd v h).1, rfl, fun i _ => div_nonneg zero_le_one hprod.le, by rw [hm]; exact one_pos⟩
  · exact hm
  · intro i _
    rfl

/-- C58: `normalize` divides every entry by the sum of all. -/
theorem C58_normalize {T : Multinomial} (hT : Table T) : Table T.normalize ∧ T.normalize.vars = T.vars ∧
    cellMass T.normalize.probs Set.univ = 1 ∧
    ∀ A, cellMass T.normalize.probs A = cellMass T.probs A / cellMass T.probs Set.univ := by
  have h : ∀ A, cellMass T.normalize.probs A = cellMass T.probs A / cellMass T.probs Set.univ := by
    intro A
    rw [Multinomial.normalize, NdArray.cellMass_divBy, total_eq_cellMass]
  have h1 : cellMass T.normalize.probs Set.univ = 1 := by rw [h, div_self hT.pos.ne']
  refine ⟨⟨hT.vars, hT.domains, hT.shape, ?_, by rw [h1]; exact one_pos⟩, rfl, h1, h⟩
  intro i hi
  have : T.normalize.probs.get i = T.probs.get i / cellMass T.probs Set.univ := by
    rw [← total_eq_cellMass]
    rfl
  rw [this]
  exact div_nonneg (hT.nonneg i hi) hT.pos.le

/-- Two binary variables. -/
example : ∃ T, Multinomial.makeUniform [exX, exY] = .ok T ∧ cellMass T.probs Set.univ = 1 := by
  obtain ⟨T, h, _, _, h1, _⟩ := C58_uniform (vs := [exX, exY]) (by decide) (by decide)
  exact ⟨T, h, h1⟩

end PM.Props
