import Verif.Learn.JptMarginal

/-! # C86: the variables of a learned tree have the frequencies of the data -/

namespace PM.Props
open Spec Learn.Jpt Graph Classical MeasureTheory

variable {S : Settings} {I : Impurity} {data : List Row}

/-- C86, full: the probability that a discrete variable of a learned tree is in a set is the share of the training rows with an entry in
the set. -/
def C86_full : Prop :=
  ∀ (S : Settings) (I : Impurity) (data : List Row), TreeInput S data →
    SplitContract I S.minImprovement (requiredSamples S.minSamplesLeaf data.length) → ∀ q st, fit S I data [] = (q, .ok st) →
    ∀ dom, ColumnDomains S.columns dom → ∀ ci ∈ S.columns.zipIdx, IsDiscrete ci.1 → ∀ A, SetOf ci.1 A → ∀ m,
      (st.circuit.probability m dom [[(columnVar ci.1, A)]]).2 = .ok (relativeFrequency data ci A)

theorem relativeFrequency_flatten {E : List Emitted} {st : State} (h : TreeInput S data) (hE : Inv S I data st [] E) (ci : Column × ℕ) (A : VSet) :
    (E.map fun e => (e.idx.length : ℝ) / data.length * relativeFrequency (rowsOf data e.idx) ci A).sum = relativeFrequency data ci A := by
  have h1 : ∀ e ∈ E, (e.idx.length : ℝ) / data.length * relativeFrequency (rowsOf data e.idx) ci A
      = ((rowsOf data e.idx).countP fun x => EntryIn ci A x : ℕ) * (data.length : ℝ)⁻¹ := by
    intro e he
    obtain ⟨hne, _, _⟩ := emitted_rows h hE he
    have hlen : ((rowsOf data e.idx).length : ℝ) ≠ 0 := by exact_mod_cast (List.length_pos_iff.2 hne).ne'
    have hl : (rowsOf data e.idx).length = e.idx.length := by simp [rowsOf]
    rw [hl] at hlen
    rw [relativeFrequency, hl]
    field_simp
  rw [List.map_congr_left h1, List.sum_map_mul_right, relativeFrequency, div_eq_mul_inv]
  congr 1
  have hp := (partition_of hE).map fun i => data.getD i default
  rw [leafSamples_eq hE] at hp
  have hdata : (List.range data.length).map (fun i => data.getD i default) = data := by
    refine List.ext_getElem (by simp) fun i h1 h2 => ?_
    simp only [List.getElem_map, List.getElem_range]
    exact List.getD_eq_getElem _ _ h2
  rw [hdata, List.map_flatten, List.map_map] at hp
  rw [← hp.countP_eq, List.countP_flatten, Nat.cast_list_sum, List.map_map, List.map_map]
  rfl

/-- C86 for data whose integer entries are their own `hash` (not `-1`, absolute value less than `2^61 - 1`): the probability that a
discrete variable of the learned tree is in a set is the share of the training rows with an entry in the set. -/
theorem C86_frequencies_partial (h : TreeInput S data)
    (hI : SplitContract I S.minImprovement (requiredSamples S.minSamplesLeaf data.length)) {q : List Task} {st : State}
    (hfit : fit S I data [] = (q, .ok st)) (hh : ∀ x ∈ data, ∀ ci ∈ S.columns.zipIdx, HashesToItself x ci) {dom : Var → VSet}
    (hdom : ColumnDomains S.columns dom) {ci : Column × ℕ} (hci : ci ∈ S.columns.zipIdx) (hd : IsDiscrete ci.1) {A : VSet}
    (hA : SetOf ci.1 A) (m : Mem ℝ) :
    (st.circuit.probability m dom [[(columnVar ci.1, A)]]).2 = .ok (relativeFrequency data ci A) := by
  obtain ⟨st', E, hfit', hE⟩ := fit_ok h (minSamples_eq S data.length ▸ hI)
  rw [hfit] at hfit'
  simp only [Prod.mk.injEq, Except.ok.injEq] at hfit'
  obtain ⟨rfl, rfl⟩ := hfit'
  rw [tree_probability h hE hci (fun x hx cj hcj _ => hh x hx cj hcj) hdom hA m, ← relativeFrequency_flatten h hE ci A]
  congr 2
  refine List.map_congr_left fun e he => ?_
  obtain ⟨hne, hsub, hfits⟩ := emitted_rows h hE he
  obtain ⟨g, r, hr⟩ := (hE.leaf e he).2.parts ci hci
  rw [column_frequency hne (hfits ci hci) hd (fun x hx => hh x (hsub x hx) ci hci) hr A]

/-- C86, continuous variables: all of the probability is between the smallest and the largest entry of the column. -/
theorem C86_range_partial (h : TreeInput S data)
    (hI : SplitContract I S.minImprovement (requiredSamples S.minSamplesLeaf data.length)) {q : List Task} {st : State}
    (hfit : fit S I data [] = (q, .ok st)) (hh : ∀ x ∈ data, ∀ ci ∈ S.columns.zipIdx, HashesToItself x ci) {dom : Var → VSet}
    (hdom : ColumnDomains S.columns dom) {P : Learn.Nyga.Params} {i : ℕ} (hci : (Column.continuous P, i) ∈ S.columns.zipIdx) {A : VSet}
    (hA : SetOf (.continuous P) A) (m : Mem ℝ) :
    ((∀ x ∈ data, ∀ y ∈ data, ∀ t, x.real i ≤ t → t ≤ y.real i → A.Mem t) →
      (st.circuit.probability m dom [[(P.var, A)]]).2 = .ok 1) ∧
    ((∀ x ∈ data, ∀ y ∈ data, ∀ t, x.real i ≤ t → t ≤ y.real i → ¬ A.Mem t) →
      (st.circuit.probability m dom [[(P.var, A)]]).2 = .ok 0) := by
  obtain ⟨st', E, hfit', hE⟩ := fit_ok h (minSamples_eq S data.length ▸ hI)
  rw [hfit] at hfit'
  simp only [Prod.mk.injEq, Except.ok.injEq] at hfit'
  obtain ⟨rfl, rfl⟩ := hfit'
  have hP := tree_probability h hE hci (fun x hx cj hcj _ => hh x hx cj hcj) hdom hA m
  have hcol : columnVar (Column.continuous P) = P.var := rfl
  simp only [hcol] at hP
  have hAm := VSet.measurableSet_toSet A
  constructor
  · intro hr
    rw [hP]
    have h1 : ∀ e ∈ E, (e.idx.length : ℝ) / data.length * (e.Fs (.continuous P, i) fun d => (leafLaw d).real A.toSet)
        = (e.idx.length : ℝ) * (data.length : ℝ)⁻¹ := by
      intro e he
      obtain ⟨hne, hsub, hfits⟩ := emitted_rows h hE he
      obtain ⟨g, r, hr'⟩ := (hE.leaf e he).2.parts _ hci
      have : (e.Fs (.continuous P, i) fun d => (leafLaw d).real A.toSet) = 1 := by
        rw [← hr'.unit]
        refine Denotes_congr_leaves hr'.denotes fun n d hk => ?_
        have h0 := column_range hne (hfits _ hci) hr'.eq hAm (fun x hx y hy t h1 h2 => hr x (hsub x hx) y (hsub y hy) t h1 h2) n d hk
        have h2 := leafLaw_univ (hr'.denotes.valid n d hk)
          ((column_leaves hne (hfits _ hci) hr'.eq n d hk).2 fun x hx => hh x (hsub x hx) _ hci)
        rw [← measure_add_measure_compl hAm, h0, add_zero] at h2
        simp [measureReal_def, h2]
      rw [this, mul_one, div_eq_mul_inv]
    have hlen : (0 : ℝ) < data.length := by exact_mod_cast List.length_pos_iff.2 h.nonempty
    rw [List.map_congr_left h1, List.sum_map_mul_right, ← div_eq_mul_inv]
    congr 1
    rw [div_eq_one_iff_eq hlen.ne']
    have h2 := (partition_of hE).length_eq
    rw [leafSamples_eq hE, List.length_flatten, List.length_range, List.map_map] at h2
    rw [← h2, Nat.cast_list_sum, List.map_map]
    rfl
  · intro hr
    rw [hP]
    congr 1
    refine List.sum_eq_zero fun x hx => ?_
    obtain ⟨e, he, rfl⟩ := List.mem_map.1 hx
    obtain ⟨hne, hsub, hfits⟩ := emitted_rows h hE he
    obtain ⟨g, r, hr'⟩ := (hE.leaf e he).2.parts _ hci
    have hz : (e.Fs (.continuous P, i) fun d => (leafLaw d).real A.toSet) = e.Fs (.continuous P, i) fun _ => 0 := by
      refine Denotes_congr_leaves hr'.denotes fun n d hk => ?_
      have h0 := column_range hne (hfits _ hci) hr'.eq hAm.compl
        (fun x hx y hy t h1 h2 => hr x (hsub x hx) y (hsub y hy) t h1 h2) n d hk
      rw [compl_compl] at h0
      simp [measureReal_def, h0]
    rw [hz, ← hr'.denotes.value (fun _ => 0) (fun _ => 0) ?_, mul_zero]
    refine ⟨fun _ _ _ => rfl, fun n hk => by simp, fun n hk => ?_⟩
    exact absurd hk (column_no_prod hne (hfits _ hci) hr'.eq n)

/-! ### A concrete tree -/

/-- Symbols `0` and `1` for the elements `0` and `1`, an integer. -/
noncomputable def twoColumns : Settings := ⟨[.symbolic 0 [(0, 0), (1, 1)], .integer 1], 1, 0, ⊤, ⊤, 1⟩

/-- Three rows, each with the same entry in both columns. -/
theorem twoColumns_input : TreeInput twoColumns [row 0, row 1, row 1] where
  nonempty := by simp
  distinct := by simp [twoColumns, columnVar]
  columns := by
    intro ci hci
    simp only [twoColumns, List.zipIdx_cons, List.zipIdx_nil, List.mem_cons, List.not_mem_nil, or_false] at hci
    rcases hci with rfl | rfl
    · simp [ColumnFits, row]
    · trivial
  cap := one_pos

/-- All numbers. -/
noncomputable def numbers : VSet := .interval [⟨⊥, ⊤, .opn, .opn⟩]

theorem twoColumns_domains : ColumnDomains twoColumns.columns (fun v => if v = 0 then .symbols [0, 1] else numbers) where
  disjoint := by
    intro v
    split
    · simp [VSet.Disjoint]
    · simp [VSet.Disjoint, numbers, SimpleInterval.IsEmpty]
  domain := by
    intro c hc
    simp only [twoColumns, List.mem_cons, List.not_mem_nil, or_false] at hc
    rcases hc with rfl | rfl
    · exact ⟨[0, 1], rfl, by simp⟩
    · refine ⟨_, rfl, fun x => ⟨_, List.mem_singleton_self _, ?_⟩⟩
      simp [SimpleInterval.Mem, SimpleInterval.leftOK, SimpleInterval.rightOK]

/-- Two of three rows have the element `1`; whatever the splits are, the learned tree gives it the probability `2/3`. -/
example : ∃ q st, fit twoColumns firstSample [row 0, row 1, row 1] [] = (q, .ok st) ∧
    ∀ m, (st.circuit.probability m (fun v => if v = 0 then .symbols [0, 1] else numbers) [[(0, .symbols [1])]]).2 = .ok (2 / 3) := by
  have hI : SplitContract firstSample twoColumns.minImprovement (requiredSamples twoColumns.minSamplesLeaf [row 0, row 1, row 1].length) :=
    oneInteger_contract ⊤ 3
  obtain ⟨st, r, hfit, _⟩ := C41_fit twoColumns_input hI
  refine ⟨_, st, hfit, fun m => ?_⟩
  have := C86_frequencies_partial twoColumns_input hI hfit (by
    intro x hx ci hci
    simp only [twoColumns, List.zipIdx_cons, List.zipIdx_nil, List.mem_cons, List.not_mem_nil, or_false] at hx hci
    rcases hci with rfl | rfl
    · trivial
    · rcases hx with rfl | rfl | rfl <;> simp [HashesToItself, row]) twoColumns_domains (ci := (.symbolic 0 [(0, 0), (1, 1)], 0)) (by simp [twoColumns]) trivial (A := .symbols [1])
    ⟨by simp [VSet.Disjoint], trivial⟩ m
  rw [show columnVar (Column.symbolic 0 [(0, 0), (1, 1)]) = 0 from rfl] at this
  rw [this]
  have e : ∀ k : ℤ, EntryIn (.symbolic 0 [(0, 0), (1, 1)], 0) (.symbols [1]) (row k) ↔ k = 1 := by
    intro k
    simp only [EntryIn, Agrees, columnVar, row, VSet.Mem]
    constructor
    · rintro ⟨p, ⟨e, he, h1, h2⟩, ⟨j, hj, h3⟩⟩
      simp only [List.mem_cons, List.not_mem_nil, or_false] at he hj
      subst hj
      rcases he with rfl | rfl
      · rw [h2] at h3; norm_num at h3
      · exact h1.symm
    · rintro rfl
      exact ⟨fun _ => 1, ⟨(1, 1), by simp, rfl, by simp⟩, 1, by simp, by simp⟩
  simp [relativeFrequency, e]

/-- One row with the integer `-1`: `hash(-1)` is `-2`, and the probability of `-1` is `0` instead of `1`. -/
theorem C86_full_false : ¬ C86_full := by
  intro hfull
  have hin := oneInteger_input 0 (data := [row (-1)]) (by simp)
  obtain ⟨st, E, hfit, hE⟩ := fit_ok hin (minSamples_eq (oneInteger 0) 1 ▸ oneInteger_contract 0 1)
  have hdom : ColumnDomains (oneInteger 0).columns (fun _ => numbers) := by
    refine ⟨fun v => by simp [VSet.Disjoint, numbers, SimpleInterval.IsEmpty], fun c hc => ?_⟩
    simp only [oneInteger, List.mem_singleton] at hc
    subst hc
    refine ⟨_, rfl, fun x => ⟨_, List.mem_singleton_self _, ?_⟩⟩
    simp [SimpleInterval.Mem, SimpleInterval.leftOK, SimpleInterval.rightOK]
  have hA : SetOf (.integer 0) (.interval [⟨((-1 : ℝ) : EReal), ((-1 : ℝ) : EReal), .closed, .closed⟩]) := by
    refine ⟨?_, trivial⟩
    simp [VSet.Disjoint, SimpleInterval.IsEmpty]
  have hci : (Column.integer 0, 0) ∈ (oneInteger 0).columns.zipIdx := by simp [oneInteger]
  have h1 := hfull _ _ _ hin (oneInteger_contract 0 1) _ st hfit _ hdom (.integer 0, 0) hci trivial _ hA freshMem
  rw [tree_probability hin hE hci (by
    intro x hx cj hcj hne
    simp only [oneInteger, List.zipIdx_cons, List.zipIdx_nil, List.mem_singleton] at hcj
    exact absurd hcj hne) hdom hA freshMem] at h1
  injection h1 with h1
  have hfreq : relativeFrequency [row (-1)] (.integer 0, 0) (.interval [⟨((-1 : ℝ) : EReal), ((-1 : ℝ) : EReal), .closed, .closed⟩]) = 1 := by
    have : EntryIn (.integer 0, 0) (.interval [⟨((-1 : ℝ) : EReal), ((-1 : ℝ) : EReal), .closed, .closed⟩]) (row (-1)) :=
      ⟨fun _ => -1, by simp [Agrees, row], _, List.mem_singleton_self _, by
        simp [SimpleInterval.Mem, SimpleInterval.leftOK, SimpleInterval.rightOK]⟩
    have hc : ([row (-1)].countP fun x => decide (EntryIn (.integer 0, 0)
        (.interval [⟨((-1 : ℝ) : EReal), ((-1 : ℝ) : EReal), .closed, .closed⟩]) x)) = 1 := by
      rw [List.countP_eq_length.2 (by
        intro x hx
        rw [List.mem_singleton.1 hx]
        exact decide_eq_true this)]
      rfl
    rw [relativeFrequency, hc]
    simp
  rw [hfreq, List.sum_eq_zero] at h1
  · exact zero_ne_one h1
  · intro y hy
    obtain ⟨e, he, rfl⟩ := List.mem_map.1 hy
    obtain ⟨hne, hsub, hfits⟩ := emitted_rows hin hE he
    obtain ⟨g, r, hr⟩ := (hE.leaf e he).2.parts _ hci
    have heq := hr.eq
    simp only [columnCircuit, Except.ok.injEq, Prod.mk.injEq] at heq
    obtain ⟨rfl, rfl⟩ := heq
    obtain ⟨f, hf⟩ := exists_circuitValue hr.denotes.layered.graded.acyclic (fun d => (leafLaw d).real
      (VSet.interval [⟨((-1 : ℝ) : EReal), ((-1 : ℝ) : EReal), .closed, .closed⟩]).toSet)
    rw [← hr.denotes.value _ f hf, hf.leaf 0 _ (kind?_newUnit ..)]
    simp only [leafLaw]
    rw [Learn.Jpt.discrete_real (fun kp hkp => ((fitDiscrete_facts (List.map_eq_nil_iff.not.2 hne)).1 kp hkp).le) (VSet.measurableSet_toSet _), List.sum_eq_zero, mul_zero]
    intro z hz
    obtain ⟨kp, hkp, rfl⟩ := List.mem_map.1 hz
    refine if_neg ?_
    obtain ⟨v, hv, hk⟩ := keys_fitDiscrete (List.mem_map.2 ⟨kp, hkp, rfl⟩)
    obtain ⟨x, hx, rfl⟩ := List.mem_map.1 hv
    have hx1 := hsub x hx
    simp only [List.mem_singleton] at hx1
    subst hx1
    have hp : pyHash (-1) = -2 := by decide
    rw [show (row (-1)).int 0 = -1 from rfl, hp] at hk
    rw [← hk]
    rintro ⟨J, hJ, hm⟩
    simp only [List.mem_singleton] at hJ
    subst hJ
    simp only [SimpleInterval.Mem, SimpleInterval.leftOK, SimpleInterval.rightOK] at hm
    norm_num at hm
    have := hm.1
    norm_cast at this

end PM.Props
