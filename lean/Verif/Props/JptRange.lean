import Verif.Spec.JptRange
import Verif.Circuit.MomentRange
import Verif.Props.JptPredict

/-! # C120: no sequence of operations leads a learned tree out of the range of its training data -/

namespace PM.Props
open Spec Learn.Jpt Graph Classical MeasureTheory

variable {S : Settings} {I : Impurity} {data : List Row}

theorem column_evidence_for {st : State} {E : List Emitted} (h : TreeInput S data) (hE : Inv S I data st [] E) {V : Finset Var} {A : SimpleEvent}
    (hA : ColumnEvidence S.columns V A) : EvidenceFor st.circuit V A := by
  have hk : ∀ p ∈ A, EventFor st.circuit V [(p.1, p.2)] := by
    intro p hp
    obtain ⟨hV, ci, hci, hv, hset, _⟩ := hA.column p hp
    rw [← hv] at hV ⊢
    exact tree_event h hE hci hset hV
  refine ⟨⟨hA.nodup, ?_, fun p hp => (hk p hp).disjoint _ (by simp), fun p hp => (hk p hp).fits _ (by simp)⟩, fun p hp n d hkd hv hden => ?_⟩
  · intro v hv
    obtain ⟨p, hp, rfl⟩ := List.mem_map.1 hv
    exact (hk p hp).keys _ (by simp [SimpleEvent.keys])
  · obtain ⟨_, ci, hci, hvi, _, hor⟩ := hA.column p hp
    refine hor.resolve_left fun hdis => ?_
    obtain ⟨cj, hcj, hl⟩ := tree_leaves h hE n d hkd
    have := column_inj h hci cj hcj (by rw [← hl.var, hv, hvi])
    subst this
    obtain ⟨c, i⟩ := cj
    cases c with
    | other v => exact hl.elim
    | continuous P => exact hdis.elim
    | integer v => obtain ⟨l, rfl⟩ := hl; exact hden.elim
    | symbolic v _ => obtain ⟨l, rfl, _⟩ := hl; exact hden.elim

theorem column_sensible {st : State} {E : List Emitted} (h : TreeInput S data) (hE : Inv S I data st [] E) : ∀ {ops : List Op} {V : Finset Var},
    ColumnSensible S.columns V ops → Sensible st.circuit V ops
  | [], _, _ => trivial
  | .given _ :: _, _, hs => ⟨column_evidence_for h hE hs.1, column_sensible h hE hs.2⟩
  | .onto _ :: ops, _, hs => column_sensible (ops := ops) h hE hs
  | .simplify :: ops, _, hs => column_sensible (ops := ops) h hE hs
  | .normalize :: ops, _, hs => column_sensible (ops := ops) h hE hs
  | .copy :: ops, _, hs => column_sensible (ops := ops) h hE hs
  | .reload _ :: ops, _, hs => column_sensible (ops := ops) h hE hs

theorem allowed_one (v : Var) (A : VSet) : allowed [(v, A)] v = A.toSet := by
  ext t
  simp [allowed, VSet.toSet]

theorem allowed_other {v w : Var} (h : w ≠ v) (A : VSet) : allowed [(v, A)] w = Set.univ := by
  ext t
  simp only [allowed, List.mem_singleton, forall_eq, Set.mem_ofPred_eq, Set.mem_univ, iff_true]
  exact fun h' => absurd h'.symm h

/-- No leaf of the tree leaves the range of the data. -/
theorem tree_encloses {st : State} {E : List Emitted} (h : TreeInput S data) (hE : Inv S I data st [] E)
    (hh : ∀ x ∈ data, ∀ ci ∈ S.columns.zipIdx, HashesToItself x ci) {ci : Column × ℕ} (hci : ci ∈ S.columns.zipIdx) {A : VSet}
    (hA : Encloses data ci A) : LeavesIn st.circuit [(columnVar ci.1, A)] := by
  refine tree_leaves_of h hE ?_
  intro e he ck hck g r heq n d hk
  obtain ⟨hne, hsub, hfits⟩ := emitted_rows h hE he
  have hmeas := measurableSet_allowed [(columnVar ci.1, A)] d.var
  by_cases hd : d.var = columnVar ci.1
  · have hvar := (column_leaves hne (hfits ck hck) heq n d hk).1.var
    have := column_inj h hci ck hck (hvar.symm.trans hd)
    subst this
    rw [hd, allowed_one] at hmeas ⊢
    obtain ⟨c, i⟩ := ck
    have hf := hfits _ hck
    cases c with
    | other v => exact hf.elim
    | continuous P => exact column_range hne hf heq hmeas (fun x hx y hy t h1 h2 => hA x (hsub x hx) y (hsub y hy) t h1 h2) n d hk
    | integer v =>
      simp only [columnCircuit, Except.ok.injEq, Prod.mk.injEq] at heq
      obtain ⟨rfl, rfl⟩ := heq
      obtain rfl := kind_newUnit_leaf hk
      refine discrete_law_null hmeas.compl fun kp hkp => ?_
      obtain ⟨w, hw, hwk⟩ := keys_fitDiscrete (List.mem_map_of_mem (f := Prod.fst) hkp)
      obtain ⟨x, hx, rfl⟩ := List.mem_map.1 hw
      have hx' := hh x (hsub x hx) _ hck
      rw [pyHash_eq hx'.1 hx'.2] at hwk
      obtain ⟨p, hp1, hp2⟩ := hA x (hsub x hx)
      change p v = x.int i at hp1
      rw [Set.mem_compl_iff, not_not, ← hwk]
      simp only [columnVar] at hp2
      rw [hp1] at hp2
      exact hp2
    | symbolic v domain =>
      obtain ⟨h1, h2, h3⟩ := hf
      obtain ⟨probs, e1, e2, e3, e4, e5, e6⟩ := C32_fit_symbolic (data := (rowsOf data e.idx).map fun x => x.int i) (by simpa using hne) h1 h2 (by
        intro w hw
        obtain ⟨x, hx, rfl⟩ := List.mem_map.1 hw
        exact h3 x hx)
      simp only [columnCircuit, e1, bind, Except.bind, Except.ok.injEq, Prod.mk.injEq] at heq
      obtain ⟨rfl, rfl⟩ := heq
      obtain rfl := kind_newUnit_leaf hk
      refine discrete_law_null hmeas.compl fun kp hkp => ?_
      obtain ⟨el, hel, hek⟩ := List.mem_map.1 (e6 kp hkp)
      have hlk := PM.lookup_of_mem e5 hkp
      have hpos := e3 kp hkp
      rw [← hlk, ← hek, e2 el hel] at hpos
      have hcnt : 0 < ((rowsOf data e.idx).map fun x => x.int i).count el.1 := by
        by_contra hz
        rw [Nat.eq_zero_of_not_pos hz] at hpos
        simp at hpos
      obtain ⟨x, hx, hxe⟩ := List.mem_map.1 (List.count_pos_iff.1 hcnt)
      obtain ⟨p, ⟨e', he', h4, h5⟩, hp2⟩ := hA x (hsub x hx)
      have : e' = el := List.inj_on_of_nodup_map h1 he' hel (h4.trans hxe)
      subst this
      rw [Set.mem_compl_iff, not_not, ← hek]
      simp only [columnVar] at hp2
      rw [h5] at hp2
      exact hp2
  · rw [allowed_other hd, Set.compl_univ, measure_empty]

/-- What every history leaves of a learned tree. -/
theorem tree_history (h : TreeInput S data)
    (hI : SplitContract I S.minImprovement (requiredSamples S.minSamplesLeaf data.length)) {q : List Task} {st : State}
    (hfit : fit S I data [] = (q, .ok st)) (hh : ∀ x ∈ data, ∀ ci ∈ S.columns.zipIdx, HashesToItself x ci) {dom : Var → VSet}
    (hdom : ColumnDomains S.columns dom) (hline : ∀ P, Column.continuous P ∈ S.columns → OneOpen (dom P.var))
    (hdirac : ∀ P, Column.continuous P ∈ S.columns → ∀ n x c, st.circuit.kind? n ≠ some (.leaf (.dirac P.var x c))) (hcols : S.columns ≠ [])
    {ops : List Op} (hops : ColumnSensible S.columns (S.columns.map columnVar).toFinset ops) {g' : Circuit}
    (hres : history dom st.circuit ops = .ok (some g')) :
    ∃ r' sc', EvidenceModel g' r' sc' dom ∧ sc' r' = variablesAfter (S.columns.map columnVar).toFinset ops ∧
      (∀ ci ∈ S.columns.zipIdx, columnVar ci.1 ∈ sc' r' → ∀ A, SetOf ci.1 A → EventFor g' (sc' r') [(columnVar ci.1, A)]) ∧
      ∀ ci ∈ S.columns.zipIdx, ∀ A, Encloses data ci A → LeavesIn g' [(columnVar ci.1, A)] := by
  obtain ⟨st', E, hfit', hE⟩ := fit_ok h (minSamples_eq S data.length ▸ hI)
  rw [hfit] at hfit'
  simp only [Prod.mk.injEq, Except.ok.injEq] at hfit'
  obtain ⟨rfl, rfl⟩ := hfit'
  obtain ⟨sc, hM, hsc⟩ := tree_evidenceModel h hE hh hdom hline hdirac
  rw [← hsc] at hops ⊢
  have hne : (sc 0).Nonempty := by
    obtain ⟨c, hc⟩ := List.exists_mem_of_ne_nil _ hcols
    exact ⟨columnVar c, by rw [hsc, List.mem_toFinset]; exact List.mem_map_of_mem hc⟩
  obtain ⟨res, h1, _, h3⟩ := history_spec ops hM hne (column_sensible h hE hops)
  rw [hres] at h1
  obtain ⟨r', sc', j1, j2, j3, j4, _, _⟩ := h3 g' (Except.ok.inj h1).symm
  refine ⟨r', sc', j1, j2, fun ci hci hv A hA => ?_, fun ci hci A hA => j4 _ (tree_encloses h hE hh hci hA)⟩
  rw [j2] at hv ⊢
  exact j3 _ (tree_event h hE hci hA hv)

/-- **C120**, values: whatever program of conditioning, marginalisation, simplification, normalisation, copying and reloading is run on a
learned tree, the result is certain that a column that is left stays in every set that encloses its training data. -/
theorem C120_values_partial (h : TreeInput S data)
    (hI : SplitContract I S.minImprovement (requiredSamples S.minSamplesLeaf data.length)) {q : List Task} {st : State}
    (hfit : fit S I data [] = (q, .ok st)) (hh : ∀ x ∈ data, ∀ ci ∈ S.columns.zipIdx, HashesToItself x ci) {dom : Var → VSet}
    (hdom : ColumnDomains S.columns dom) (hline : ∀ P, Column.continuous P ∈ S.columns → OneOpen (dom P.var))
    (hdirac : ∀ P, Column.continuous P ∈ S.columns → ∀ n x c, st.circuit.kind? n ≠ some (.leaf (.dirac P.var x c)))
    {ops : List Op} (hops : ColumnSensible S.columns (S.columns.map columnVar).toFinset ops) {g' : Circuit}
    (hres : history dom st.circuit ops = .ok (some g')) {ci : Column × ℕ} (hci : ci ∈ S.columns.zipIdx)
    (hleft : columnVar ci.1 ∈ variablesAfter (S.columns.map columnVar).toFinset ops) {A : VSet} (hA : SetOf ci.1 A) (henc : Encloses data ci A)
    (m : Mem ℝ) : (g'.probability m dom [[(columnVar ci.1, A)]]).2 = .ok 1 := by
  obtain ⟨r', sc', j1, j2, j3, j4⟩ := tree_history h hI hfit hh hdom hline hdirac
    (List.ne_nil_of_mem (List.fst_mem_of_mem_zipIdx hci)) hops hres
  exact probability_one j1 (j3 ci hci (j2 ▸ hleft) A hA) (j4 ci hci A henc) m

/-- **C120**, samples: with probability one every row that is drawn afterwards has an entry for the column, and it is in the enclosing set. -/
theorem C120_samples_partial (h : TreeInput S data)
    (hI : SplitContract I S.minImprovement (requiredSamples S.minSamplesLeaf data.length)) {q : List Task} {st : State}
    (hfit : fit S I data [] = (q, .ok st)) (hh : ∀ x ∈ data, ∀ ci ∈ S.columns.zipIdx, HashesToItself x ci) {dom : Var → VSet}
    (hdom : ColumnDomains S.columns dom) (hline : ∀ P, Column.continuous P ∈ S.columns → OneOpen (dom P.var))
    (hdirac : ∀ P, Column.continuous P ∈ S.columns → ∀ n x c, st.circuit.kind? n ≠ some (.leaf (.dirac P.var x c)))
    {ops : List Op} (hops : ColumnSensible S.columns (S.columns.map columnVar).toFinset ops) {g' : Circuit}
    (hres : history dom st.circuit ops = .ok (some g')) {ci : Column × ℕ} (hci : ci ∈ S.columns.zipIdx)
    (hleft : columnVar ci.1 ∈ variablesAfter (S.columns.map columnVar).toFinset ops) {A : VSet} (hA : SetOf ci.1 A) (henc : Encloses data ci A)
    (amount : ℕ) : chance (g'.sampleR amount) (fun log => ∀ ρ < amount, ∃ x : Var → ℝ,
      (∀ v ∈ variablesAfter (S.columns.map columnVar).toFinset ops, cell log ρ v = some (x v)) ∧ A.Mem (x (columnVar ci.1))) = 1 := by
  obtain ⟨r', sc', j1, j2, j3, j4⟩ := tree_history h hI hfit hh hdom hline hdirac
    (List.ne_nil_of_mem (List.fst_mem_of_mem_zipIdx hci)) hops hres
  rw [← j2] at hleft ⊢
  have hT := j3 ci hci hleft A hA
  have hvs := circuitVars_eq j1.layered.wf j1.layered.graded.acyclic j1.smooth j1.layered.root
  obtain ⟨p, hp, hc⟩ := C63_all_rows_partial j1.layered j1.smooth j1.decomposable j1.normalized j1.valid j1.leaves j1.domain hvs hT amount freshMem
  rw [probability_one j1 hT (j4 ci hci A henc)] at hp
  obtain rfl := Except.ok.inj hp
  rw [one_pow] at hc
  rw [← hc]
  congr 1
  funext log
  simp [RowIn, SimpleEvent.Mem]

/-- **C120**, predictions: if every column that is left holds numbers, expectation and variance can be computed; the expectation of a column
lies between every lower and upper bound of its training data, and the variance is at most
the product of its distances to the two (so at most a quarter of the square of their distance). -/
theorem C120_predictions_partial (h : TreeInput S data)
    (hI : SplitContract I S.minImprovement (requiredSamples S.minSamplesLeaf data.length)) {q : List Task} {st : State}
    (hfit : fit S I data [] = (q, .ok st)) (hh : ∀ x ∈ data, ∀ ci ∈ S.columns.zipIdx, HashesToItself x ci) {dom : Var → VSet}
    (hdom : ColumnDomains S.columns dom) (hline : ∀ P, Column.continuous P ∈ S.columns → OneOpen (dom P.var))
    (hdirac : ∀ P, Column.continuous P ∈ S.columns → ∀ n x c, st.circuit.kind? n ≠ some (.leaf (.dirac P.var x c))) (hcols : S.columns ≠ [])
    {ops : List Op} (hops : ColumnSensible S.columns (S.columns.map columnVar).toFinset ops) {g' : Circuit}
    (hres : history dom st.circuit ops = .ok (some g'))
    (hnum : ∀ c ∈ S.columns, columnVar c ∈ variablesAfter (S.columns.map columnVar).toFinset ops → IsNumeric c) {vars : List Var}
    (hvars : ∀ v, v ∈ vars ↔ v ∈ variablesAfter (S.columns.map columnVar).toFinset ops) (m : Mem (Var → ℝ)) :
    ∃ e var, (g'.expectation m vars).2 = .ok e ∧ (g'.variance m vars).2 = .ok var ∧
      ∀ ci ∈ S.columns.zipIdx, columnVar ci.1 ∈ vars → ∃ x w, e (columnVar ci.1) = some x ∧ var (columnVar ci.1) = some w ∧
        ∀ a b, (∀ y ∈ data, a ≤ numberIn ci y ∧ numberIn ci y ≤ b) → a ≤ x ∧ x ≤ b ∧ 0 ≤ w ∧ w ≤ (b - x) * (x - a) := by
  obtain ⟨r', sc', hM, j2, j3, j4⟩ := tree_history h hI hfit hh hdom hline hdirac hcols hops hres
  rw [← j2] at hnum hvars
  have hV : sc' r' ⊆ (S.columns.map columnVar).toFinset := by
    rw [j2]
    exact variablesAfter_subset _ _
  have hsym : ∀ n d, g'.kind? n = some (.leaf d) → ∀ w l, d ≠ .symbolic w l := by
    rintro n d hk w l rfl
    have hw := leaf_var_mem hM.layered hM.smooth hk
    obtain ⟨col, hc, hcw⟩ := List.mem_map.1 (List.mem_toFinset.1 (hV hw))
    have hf := hM.domain.fits n _ hk
    have hd := hdom.domain col hc
    have hn := hnum col hc (hcw ▸ hw)
    rw [← hcw] at hf
    cases col with
    | symbolic v dm => exact hn.elim
    | other u => exact hn.elim
    | integer u => obtain ⟨J, hJ, _⟩ := hd; rw [hJ] at hf; exact hf
    | continuous P => obtain ⟨J, hJ, _⟩ := hd; rw [hJ] at hf; exact hf
  have hin : ∀ ci ∈ S.columns.zipIdx, columnVar ci.1 ∈ vars → ∀ a b : ℝ, (∀ y ∈ data, a ≤ numberIn ci y ∧ numberIn ci y ≤ b) →
      ∀ n d, g'.kind? n = some (.leaf d) → d.var = columnVar ci.1 → leafLaw d (Set.Icc a b)ᶜ = 0 := by
    intro ci hci hv a b hab n d hk hd
    have hset : (VSet.interval [⟨a, b, .closed, .closed⟩]).toSet = Set.Icc a b := by
      ext t
      simp [VSet.toSet, VSet.Mem, SimpleInterval.Mem, SimpleInterval.leftOK, SimpleInterval.rightOK]
    have henc : Encloses data ci (.interval [⟨a, b, .closed, .closed⟩]) := by
      have hn := hnum _ (List.fst_mem_of_mem_zipIdx hci) ((hvars _).1 hv)
      have hmem : ∀ t, t ∈ Set.Icc a b → VSet.Mem (.interval [⟨a, b, .closed, .closed⟩]) t := fun t ht => by
        rw [← hset] at ht
        exact ht
      obtain ⟨c, i⟩ := ci
      cases c with
      | symbolic v dm => exact hn.elim
      | other u => exact hn.elim
      | integer u => exact fun x hx => ⟨fun _ => x.int i, rfl, hmem _ (hab x hx)⟩
      | continuous P => exact fun x hx y hy t h1 h2 => hmem t ⟨(hab x hx).1.trans h1, h2.trans (hab y hy).2⟩
    have := j4 ci hci _ henc n d hk
    rwa [hd, allowed_one, hset] at this
  obtain ⟨e, var, he, hvar, hb⟩ := mean_variance_between hM hsym hvars m
  refine ⟨e, var, he, hvar, fun ci hci hv => ?_⟩
  obtain ⟨x, w, hx, hw, hxw⟩ := hb _ ((hvars _).1 hv)
  exact ⟨x, w, hx, hw, fun a b hab => hxw a b (hin ci hci hv a b hab)⟩

/-! ### A concrete program -/

theorem zeroOrOne_program :
    ColumnSensible symbolAndNumber.columns (symbolAndNumber.columns.map columnVar).toFinset [.given zeroOrOne, .onto {1}] := by
  refine ⟨⟨zeroOrOne_evidence.nodup, fun p hp => ?_⟩, trivial⟩
  obtain ⟨ci, hci, h1, h2, h3⟩ := zeroOrOne_evidence.column p hp
  refine ⟨?_, ci, hci, h1, h3, .inl h2⟩
  rw [← h1, List.mem_toFinset]
  exact List.mem_map_of_mem (List.fst_mem_of_mem_zipIdx hci)

/-- A tree over a symbol and an integer, conditioned on the symbol and then reduced to the integer: its expectation is between 0 and 2, the
extreme integers of the training data, its variance is at most 1, and it is certain that the integer is in the data. -/
theorem C120_example : ∃ q st g' e var x w, fit symbolAndNumber firstSample [row 0, row 1, row 2] [] = (q, .ok st) ∧
    history symbolAndNumberDomain st.circuit [.given zeroOrOne, .onto {1}] = .ok (some g') ∧
    (g'.expectation freshMem [1]).2 = .ok e ∧ (g'.variance freshMem [1]).2 = .ok var ∧ e 1 = some x ∧ var 1 = some w ∧
    0 ≤ x ∧ x ≤ 2 ∧ 0 ≤ w ∧ w ≤ 1 ∧
    (g'.probability freshMem symbolAndNumberDomain
      [[(1, .interval [⟨(0 : ℝ), (0 : ℝ), .closed, .closed⟩, ⟨(1 : ℝ), (1 : ℝ), .closed, .closed⟩, ⟨(2 : ℝ), (2 : ℝ), .closed, .closed⟩])]]).2 = .ok 1 := by
  obtain ⟨q, st, g, p, g', _, _, hfit, h1, h2, _⟩ := C119_example
  have hres : history symbolAndNumberDomain st.circuit [.given zeroOrOne, .onto {1}] = .ok (some g') := by
    simp [Spec.history, Op.apply, h1, h2, Except.map]
  have hafter : variablesAfter (symbolAndNumber.columns.map columnVar).toFinset [.given zeroOrOne, .onto {1}] = {1} := by
    simp only [variablesAfter, symbolAndNumber, columnVar, List.map]
    decide
  obtain ⟨e, var, j1, j2, j3⟩ := C120_predictions_partial symbolAndNumber_input (symbolAndNumber_contract _) hfit symbolAndNumber_hash
    symbolAndNumber_domains (by simp [symbolAndNumber]) (by simp [symbolAndNumber]) (by simp [symbolAndNumber]) zeroOrOne_program hres
    (by
      rw [hafter]
      intro c hc hv
      simp only [symbolAndNumber, List.mem_cons, List.not_mem_nil, or_false] at hc
      rcases hc with rfl | rfl
      · simp [columnVar] at hv
      · trivial) (vars := [1]) (by rw [hafter]; simp) freshMem
  obtain ⟨x, w, h3, h4, h5⟩ := j3 (.integer 1, 1) (by simp [symbolAndNumber]) (by simp [columnVar])
  obtain ⟨h6, h7, h8, h9⟩ := h5 0 2 (by simp [numberIn, row])
  refine ⟨q, st, g', e, var, x, w, hfit, hres, j1, j2, h3, h4, h6, h7, h8, by nlinarith [sq_nonneg (x - 1)], ?_⟩
  refine C120_values_partial symbolAndNumber_input (symbolAndNumber_contract _) hfit symbolAndNumber_hash symbolAndNumber_domains
    (by simp [symbolAndNumber]) (by simp [symbolAndNumber]) zeroOrOne_program hres (ci := (.integer 1, 1)) (by simp [symbolAndNumber])
    (by rw [hafter]; simp [columnVar]) ?_ ?_ freshMem
  · refine ⟨?_, trivial⟩
    have hp : ∀ a t : ℝ, SimpleInterval.Mem ⟨a, a, .closed, .closed⟩ t → t = a := fun a t ht => by
      obtain ⟨h1, h2⟩ := ht
      simp only [SimpleInterval.leftOK, SimpleInterval.rightOK, EReal.coe_le_coe_iff] at h1 h2
      exact le_antisymm h2 h1
    refine ⟨?_, by simp [SimpleInterval.IsEmpty]⟩
    simp only [List.pairwise_cons, List.mem_cons, List.not_mem_nil, or_false, forall_eq_or_imp, forall_eq, List.Pairwise.nil, and_true,
      IsEmpty.forall_iff, implies_true]
    refine ⟨⟨?_, ?_⟩, ?_⟩ <;>
    · rintro t ⟨h1, h2⟩
      have h1 := hp _ _ h1
      have h2 := hp _ _ h2
      rw [h1] at h2
      norm_num at h2
  · intro y hy
    refine ⟨fun _ => y.int 1, rfl, ?_⟩
    simp only [List.mem_cons, List.not_mem_nil, or_false] at hy
    rcases hy with rfl | rfl | rfl <;>
      simp [row, VSet.Mem, SimpleInterval.Mem, SimpleInterval.leftOK, SimpleInterval.rightOK]

end PM.Props
