import Verif.Circuit.FiniteMoment
import Verif.Props.JptMoments
import Verif.Props.JptUni
import Verif.Props.Histories

/-! # C119: what a learned tree predicts for an integer column, given evidence about discrete columns -/

namespace PM.Props
open Spec Learn.Jpt Graph Classical MeasureTheory

variable {S : Settings} {I : Impurity} {data : List Row}

/-- C119, full: the expectation of an integer column after conditioning on evidence about other, discrete columns is the conditional
expectation: times the probability of the evidence it is the sum of all values, each times the probability of the value together with the
evidence. -/
def C119_full : Prop :=
  ∀ (S : Settings) (I : Impurity) (data : List Row), TreeInput S data →
    SplitContract I S.minImprovement (requiredSamples S.minSamplesLeaf data.length) →
    (∀ x ∈ data, ∀ ci ∈ S.columns.zipIdx, HashesToItself x ci) → ∀ q st, fit S I data [] = (q, .ok st) →
    ∀ dom, ColumnDomains S.columns dom → ∀ A, DiscreteEvidence S.columns A → ∀ v i, (Column.integer v, i) ∈ S.columns.zipIdx → v ∉ A.keys →
      ∀ pA, (st.circuit.probability freshMem dom [A]).2 = .ok pA → 0 < pA → ∀ p : ℤ → ℝ,
        (∀ t : ℤ, (st.circuit.probability freshMem dom [A ++ [(v, .interval [⟨(t : ℝ), (t : ℝ), .closed, .closed⟩])]]).2 = .ok (p t)) →
        ∃ g' g'' e x, st.circuit.conditional dom [A] = .ok (some g', pA) ∧ g'.copy.marginalInPlace {v} = .ok (some g'') ∧
          (g''.expectation freshMem [v]).2 = .ok e ∧ e v = some x ∧ x * pA = ∑ t ∈ (data.map fun x => x.int i).toFinset, ((t : ℤ) : ℝ) * p t

/-- A learned tree without constant continuous columns in its leaves is a model of the kind that C102-C109 are about. -/
theorem tree_evidenceModel {st : State} {E : List Emitted} (h : TreeInput S data) (hE : Inv S I data st [] E)
    (hh : ∀ x ∈ data, ∀ ci ∈ S.columns.zipIdx, HashesToItself x ci) {dom : Var → VSet} (hdom : ColumnDomains S.columns dom)
    (hline : ∀ P, Column.continuous P ∈ S.columns → OneOpen (dom P.var))
    (hdirac : ∀ P, Column.continuous P ∈ S.columns → ∀ n x c, st.circuit.kind? n ≠ some (.leaf (.dirac P.var x c))) :
    ∃ sc, EvidenceModel st.circuit 0 sc dom ∧ sc 0 = (S.columns.map columnVar).toFinset := by
  obtain ⟨hD, _, _⟩ := denotes_tree (emitted_ne_nil hE) (fun e he => ⟨_, (hE.leaf e he).2⟩) data.length
  rw [← hE.circuit] at hD
  obtain ⟨sc, hs, hdec, hsc⟩ := hD.scope
  have hn := tree_neat h hE
  have hnorm := tree_leaves_of h hE (P := fun d => d.Normalized) (by
    intro e he ck hck g r heq n d hk
    obtain ⟨hne, hsub, hfits⟩ := emitted_rows h hE he
    exact (column_leaves hne (hfits ck hck) heq n d hk).2 fun x hx => hh x (hsub x hx) ck hck)
  refine ⟨sc, ⟨hD.layered, hs, hdec, hD.valid, hn.pos, hn.norm, hnorm, hn.tree, tree_domain h hE hdom, ?_, ?_⟩, hsc⟩
  · rintro n d hk v l c rfl
    obtain ⟨cj, hcj, hl⟩ := tree_leaves h hE n _ hk
    have hm := List.fst_mem_of_mem_zipIdx hcj
    have hvar := hl.var
    obtain ⟨d, i⟩ := cj
    cases d with
    | other v => exact hl.elim
    | continuous P => obtain rfl : v = P.var := hvar; exact hdirac P hm n l c hk
    | integer v => obtain ⟨_, hl⟩ := hl; cases hl
    | symbolic v _ => obtain ⟨_, hl, _⟩ := hl; cases hl
  · intro n d hk hden
    obtain ⟨cj, hcj, hl⟩ := tree_leaves h hE n d hk
    have hm := List.fst_mem_of_mem_zipIdx hcj
    have hvar := hl.var
    obtain ⟨c, i⟩ := cj
    cases c with
    | other v => exact hl.elim
    | continuous P => rw [hvar]; exact hline P hm
    | integer v => obtain ⟨l, rfl⟩ := hl; exact hden.elim
    | symbolic v _ => obtain ⟨l, rfl, _⟩ := hl; exact hden.elim

theorem evidence_for {st : State} {E : List Emitted} (h : TreeInput S data) (hE : Inv S I data st [] E) {A : SimpleEvent}
    (hA : DiscreteEvidence S.columns A) {V : Finset Var} (hV : V = (S.columns.map columnVar).toFinset) : EvidenceFor st.circuit V A :=
  ⟨evidence_event h hE hA hV, fun p hp n d hk hv hden => by
    rcases evidence_discrete_leaf h hE hA hp hk hv with ⟨_, _, rfl⟩ | ⟨_, _, rfl⟩ <;> exact hden.elim⟩

/-- The entries of column `i`. -/
noncomputable def entries (data : List Row) (i : ℕ) : Finset ℝ := (data.map fun x => (x.int i : ℝ)).toFinset

/-- The event that `v` is one of the numbers. -/
noncomputable def oneOf (v : Var) (K : Finset ℝ) : SimpleEvent :=
  [(v, .interval (K.toList.map fun k : ℝ => (⟨k, k, .closed, .closed⟩ : SimpleInterval)))]

theorem allowed_oneOf (v : Var) (K : Finset ℝ) : allowed (oneOf v K) v = ↑K := by
  ext t
  simp only [allowed, oneOf, List.mem_singleton, forall_eq, true_implies, VSet.Mem, List.mem_map, Finset.mem_toList, SimpleInterval.Mem,
    SimpleInterval.leftOK, SimpleInterval.rightOK, Set.mem_ofPred_eq, Finset.mem_coe]
  constructor
  · rintro ⟨_, ⟨k, hk, rfl⟩, h1, h2⟩
    rw [EReal.coe_le_coe_iff] at h1 h2
    rwa [le_antisymm h2 h1]
  · intro ht
    exact ⟨_, ⟨t, ht, rfl⟩, le_rfl, le_rfl⟩

theorem allowed_oneOf_ne {v w : Var} (h : w ≠ v) (K : Finset ℝ) : allowed (oneOf v K) w = Set.univ := by
  ext t
  simp only [allowed, oneOf, List.mem_singleton, forall_eq, Set.mem_ofPred_eq, Set.mem_univ, iff_true]
  exact fun h' => absurd h'.symm h

theorem discrete_law_null {probs : List (ℤ × ℝ)} {A : Set ℝ} (hA : MeasurableSet A) (h : ∀ kp ∈ probs, (kp.1 : ℝ) ∉ A) :
    ((probs.map fun kp => ENNReal.ofReal kp.2 • Measure.dirac (kp.1 : ℝ)).sum : Measure ℝ) A = 0 := by
  induction probs with
  | nil => simp
  | cons a l ih =>
    rw [List.map_cons, List.sum_cons, Measure.add_apply, ih fun kp hkp => h kp (List.mem_cons_of_mem _ hkp), Measure.smul_apply,
      Measure.dirac_apply' _ hA, Set.indicator_of_notMem (h a (List.mem_cons_self ..))]
    simp

/-- No leaf of the tree gives an integer column numbers that are not in the data. -/
theorem tree_entries {st : State} {E : List Emitted} (h : TreeInput S data) (hE : Inv S I data st [] E)
    (hh : ∀ x ∈ data, ∀ ci ∈ S.columns.zipIdx, HashesToItself x ci) {v : Var} {i : ℕ} (hci : (Column.integer v, i) ∈ S.columns.zipIdx) :
    LeavesIn st.circuit (oneOf v (entries data i)) := by
  refine tree_leaves_of h hE ?_
  intro e he ck hck g r heq n d hk
  obtain ⟨hne, hsub, hfits⟩ := emitted_rows h hE he
  by_cases hd : d.var = v
  · have hvar := (column_leaves hne (hfits ck hck) heq n d hk).1.var
    have := column_inj h hci ck hck (hvar.symm.trans hd)
    subst this
    simp only [columnCircuit, Except.ok.injEq, Prod.mk.injEq] at heq
    obtain ⟨rfl, rfl⟩ := heq
    obtain rfl := kind_newUnit_leaf hk
    show leafLaw _ (allowed _ v)ᶜ = 0
    rw [allowed_oneOf]
    refine discrete_law_null (Finset.measurableSet _).compl fun kp hkp => ?_
    obtain ⟨w, hw, hwk⟩ := keys_fitDiscrete (List.mem_map_of_mem (f := Prod.fst) hkp)
    obtain ⟨x, hx, rfl⟩ := List.mem_map.1 hw
    have hx' := hh x (hsub x hx) _ hck
    rw [pyHash_eq hx'.1 hx'.2] at hwk
    rw [Set.mem_compl_iff, not_not, Finset.mem_coe, ← hwk]
    exact List.mem_toFinset.2 (List.mem_map.2 ⟨x, hsub x hx, rfl⟩)
  · rw [allowed_oneOf_ne hd, Set.compl_univ, measure_empty]

theorem sum_frequencies {rows all : List Row} (hsub : ∀ x ∈ rows, x ∈ all) (v : Var) (i k : ℕ) (c : ℝ) :
    ∑ t ∈ entries all i, (t - c) ^ k * relativeFrequency rows (.integer v, i) (.interval [⟨t, t, .closed, .closed⟩]) = sampleMoment rows i k c := by
  have hin : ∀ (t : ℝ) x, EntryIn (.integer v, i) (.interval [⟨(t : EReal), t, .closed, .closed⟩]) x ↔ (x.int i : ℝ) = t := by
    intro t x
    simp only [EntryIn, Agrees, columnVar, VSet.Mem, List.mem_singleton, exists_eq_left, SimpleInterval.Mem, SimpleInterval.leftOK,
      SimpleInterval.rightOK, EReal.coe_le_coe_iff]
    constructor
    · rintro ⟨p, h1, h2, h3⟩
      rw [← h1]
      exact le_antisymm h3 h2
    · rintro rfl
      exact ⟨fun _ => _, rfl, le_rfl, le_rfl⟩
  simp only [relativeFrequency, hin, sampleMoment, mul_div_assoc']
  rw [← Finset.sum_div]
  congr 1
  clear hin
  induction rows with
  | nil => simp
  | cons x l ih =>
    have hx : (x.int i : ℝ) ∈ entries all i := List.mem_toFinset.2 (List.mem_map.2 ⟨x, hsub x (List.mem_cons_self ..), rfl⟩)
    rw [List.map_cons, List.sum_cons, ← ih fun y hy => hsub y (List.mem_cons_of_mem _ hy)]
    have : ∀ t : ℝ, ((x :: l).countP fun x => decide ((x.int i : ℝ) = t) : ℝ)
        = (l.countP fun x => decide ((x.int i : ℝ) = t) : ℝ) + if (x.int i : ℝ) = t then 1 else 0 := by
      intro t
      rw [List.countP_cons]
      push_cast
      simp
    simp only [this, mul_add, Finset.sum_add_distrib]
    rw [add_comm]
    congr 1
    simp [hx]

theorem setOf_point (v : Var) (t : ℝ) : SetOf (.integer v) (.interval [⟨t, t, .closed, .closed⟩]) :=
  ⟨by simp [VSet.Disjoint, SimpleInterval.IsEmpty], trivial⟩

/-- What `conditional` makes of the tree. -/
theorem tree_given (h : TreeInput S data)
    (hI : SplitContract I S.minImprovement (requiredSamples S.minSamplesLeaf data.length)) {q : List Task} {st : State}
    (hfit : fit S I data [] = (q, .ok st)) (hh : ∀ x ∈ data, ∀ ci ∈ S.columns.zipIdx, HashesToItself x ci) {dom : Var → VSet}
    (hdom : ColumnDomains S.columns dom) (hline : ∀ P, Column.continuous P ∈ S.columns → OneOpen (dom P.var))
    (hdirac : ∀ P, Column.continuous P ∈ S.columns → ∀ n x c, st.circuit.kind? n ≠ some (.leaf (.dirac P.var x c))) {A : SimpleEvent}
    (hA : DiscreteEvidence S.columns A) (hne : agreeingLeaves S.columns data A st ≠ []) {v : Var} {i : ℕ}
    (hci : (Column.integer v, i) ∈ S.columns.zipIdx) (hvA : v ∉ A.keys) :
    ∃ g' p r' sc, st.circuit.conditional dom [A] = .ok (some g', p) ∧ EvidenceModel g' r' sc dom ∧
      sc r' = (S.columns.map columnVar).toFinset ∧ LeavesIn g' (oneOf v (entries data i)) ∧
      (∀ t, EventFor g' (sc r') (atPoint v t)) ∧ ∀ t m, (g'.probability m dom [atPoint v t]).2 =
        .ok (relativeFrequency (trainingRows data (agreeingLeaves S.columns data A st).flatten) (.integer v, i)
          (.interval [⟨t, t, .closed, .closed⟩])) := by
  obtain ⟨g₁, p, hcond, hpos, hp, _, _⟩ := C116_law_partial h hI hfit hh hdom hline hdirac hA hne
  obtain ⟨g₂, p₂, hcond₂, htarget⟩ := C116_target_partial h hI hfit hh hdom hline hdirac hA hne
  obtain ⟨st', E, hfit', hE⟩ := fit_ok h (minSamples_eq S data.length ▸ hI)
  rw [hfit] at hfit'
  simp only [Prod.mk.injEq, Except.ok.injEq] at hfit'
  obtain ⟨rfl, rfl⟩ := hfit'
  obtain ⟨sc, hM, hsc⟩ := tree_evidenceModel h hE hh hdom hline hdirac
  obtain ⟨g', r', h1, h2, h3, _, h5, _, h7, _⟩ := evidence_step hM (evidence_for h hE hA hsc) (hp freshMem) hpos
  rw [h1] at hcond₂
  simp only [Except.ok.injEq, Prod.mk.injEq, Option.some.injEq] at hcond₂
  obtain ⟨rfl, rfl⟩ := hcond₂
  refine ⟨g', p, r', sc, h1, h2, h3.trans hsc, h7 _ (tree_entries h hE hh hci), fun t => h5 _ ?_, fun t m => ?_⟩
  · refine tree_event h hE hci (setOf_point v t) ?_
    rw [hsc]
    exact List.mem_toFinset.2 (List.mem_map_of_mem (List.fst_mem_of_mem_zipIdx hci))
  · exact htarget _ hci trivial hvA _ (setOf_point v t) m

theorem agreeing_rows (data : List Row) {st : State} {E : List Emitted} (h : TreeInput S data) (hE : Inv S I data st [] E) (A : SimpleEvent) :
    ∀ x ∈ trainingRows data (agreeingLeaves S.columns data A st).flatten, x ∈ data := by
  intro x hx
  obtain ⟨j, hj, rfl⟩ := List.mem_map.1 hx
  obtain ⟨idx, hidx, hj⟩ := List.mem_flatten.1 hj
  have := (List.mem_filter.1 hidx).1
  rw [leafSamples_eq hE] at this
  obtain ⟨e, he, rfl⟩ := List.mem_map.1 this
  exact (emitted_rows h hE he).2.1 _ (List.mem_map.2 ⟨j, hj, rfl⟩)

/-- **C119**, predictions: condition a learned tree on evidence `A` about discrete columns, take the marginal of an integer column without
evidence, and ask for its moments, its expectation and its variance.  The answers are those of the training rows of the leaves that agree
with `A`: the tree predicts the average of the column over all these rows.  Partial: by Bayes' rule each leaf would count with its share of
agreeing rows (`C119_full_false`); integers that are not their own hash are excluded, and
trees with Dirac leaves. -/
theorem C119_prediction_partial (h : TreeInput S data)
    (hI : SplitContract I S.minImprovement (requiredSamples S.minSamplesLeaf data.length)) {q : List Task} {st : State}
    (hfit : fit S I data [] = (q, .ok st)) (hh : ∀ x ∈ data, ∀ ci ∈ S.columns.zipIdx, HashesToItself x ci) {dom : Var → VSet}
    (hdom : ColumnDomains S.columns dom) (hline : ∀ P, Column.continuous P ∈ S.columns → OneOpen (dom P.var))
    (hdirac : ∀ P, Column.continuous P ∈ S.columns → ∀ n x c, st.circuit.kind? n ≠ some (.leaf (.dirac P.var x c))) {A : SimpleEvent}
    (hA : DiscreteEvidence S.columns A) (hne : agreeingLeaves S.columns data A st ≠ []) {v : Var} {i : ℕ}
    (hci : (Column.integer v, i) ∈ S.columns.zipIdx) (hvA : v ∉ A.keys) :
    ∃ g' p g'', st.circuit.conditional dom [A] = .ok (some g', p) ∧ g'.copy.marginalInPlace {v} = .ok (some g'') ∧
      (∀ order center k c, order v = some k → center v = some c → ∀ m, ∃ res, (g''.moment m order center).2 = .ok res ∧
        res v = some (sampleMoment (trainingRows data (agreeingLeaves S.columns data A st).flatten) i k c)) ∧
      ∀ m, ∃ e var, (g''.expectation m [v]).2 = .ok e ∧ (g''.variance m [v]).2 = .ok var ∧
        e v = some (sampleMean (trainingRows data (agreeingLeaves S.columns data A st).flatten) i) ∧
        var v = some (sampleVariance (trainingRows data (agreeingLeaves S.columns data A st).flatten) i) := by
  obtain ⟨g', p, r', sc, h1, hM, hsc, hin, hev, hprob⟩ := tree_given h hI hfit hh hdom hline hdirac hA hne hci hvA
  obtain ⟨st', E, hfit', hE⟩ := fit_ok h (minSamples_eq S data.length ▸ hI)
  rw [hfit] at hfit'
  simp only [Prod.mk.injEq, Except.ok.injEq] at hfit'
  obtain ⟨rfl, rfl⟩ := hfit'
  have hsub := agreeing_rows data h hE A
  generalize trainingRows data (agreeingLeaves S.columns data A st).flatten = rows at hprob hsub ⊢
  have hv : v ∈ sc r' := by
    rw [hsc]
    exact List.mem_toFinset.2 (List.mem_map_of_mem (f := columnVar) (List.fst_mem_of_mem_zipIdx hci))
  have hvars : variablesAfter (sc r') [.onto {v}] = {v} := Finset.inter_eq_right.2 (by simpa using hv)
  rcases plain_step hM ⟨v, hv⟩ (.onto {v}) rfl with ⟨_, h2⟩ | ⟨g'', r'', sc'', h2, h3, _, h5, h6⟩
  · rw [hvars] at h2
    simp at h2
  rw [hvars] at h3
  have hM'' := h6.model
  have hnum : ∀ n d, g''.kind? n = some (.leaf d) → ∀ w l, d ≠ .symbolic w l := by
    rintro n d hk w l rfl
    have hvar := leaf_var_mem hM''.layered hM''.smooth hk
    rw [h3, Finset.mem_singleton] at hvar
    have := hM''.domain.fits n _ hk
    obtain ⟨J, hJ, _⟩ := hdom.domain _ (List.fst_mem_of_mem_zipIdx hci)
    rw [hvar] at this
    change dom v = _ at hJ
    rw [hJ] at this
    exact this
  have hev' : ∀ t, EventFor g' (sc'' r'') (atPoint v t) := fun t =>
    EventFor.narrow (hev t) fun w hw => by
      rw [h3]
      simpa [atPoint, SimpleEvent.keys] using hw
  have hmom : ∀ order center k c, order v = some k → center v = some c → ∀ m, ∃ res, (g''.moment m order center).2 = .ok res ∧
      res v = some (sampleMoment rows i k c) := by
    intro order center k c ho hc m
    obtain ⟨res, j1, _, j2⟩ := finite_moment hM'' hnum (v := v) (by rw [h3]; simp) (K := entries data i) (fun n d hk hd => by
        obtain ⟨n', hn'⟩ := h6.from' n d hk
        have := hin n' d hn'
        rwa [hd, allowed_oneOf] at this) (order := order) (center := center) (k := fun _ => k) (c := fun _ => c)
      (fun w hw => by rw [h3, Finset.mem_singleton] at hw; rw [hw, ho]) (fun w hw => by rw [h3, Finset.mem_singleton] at hw; rw [hw, hc])
      (fun t => h6.from'.event (hev' t)) (fun t => ⟨freshMem, (h6.prob [atPoint v t] (by simpa using hev' t) freshMem freshMem).trans (hprob t freshMem)⟩) m
    exact ⟨res, j1, j2.trans (congrArg some (sum_frequencies hsub v i k c))⟩
  refine ⟨g', p, g'', h1, h2, hmom, fun m => ?_⟩
  obtain ⟨e, he, hev⟩ := hmom (fun w => if w ∈ [v] then some 1 else none) (fun w => if w ∈ [v] then some 0 else none) 1 0 (by simp) (by simp) m
  have hmean : e v = some (sampleMean rows i) := by
    rw [hev]
    simp [sampleMoment, sampleMean]
  have hvareq : (g''.variance m [v]).2 =
      (g''.moment (g''.expectation m [v]).1 (fun w => if w ∈ [v] then some 2 else none) e).2 := by
    unfold Graph.variance
    change (g''.expectation m [v]).2 = .ok e at he
    generalize g''.expectation m [v] = y at he ⊢
    obtain ⟨m', y⟩ := y
    simp only at he
    subst he
    rfl
  obtain ⟨var, hv1, hv2⟩ := hmom (fun w => if w ∈ [v] then some 2 else none) e 2 _ (by simp) hmean (g''.expectation m [v]).1
  exact ⟨e, var, he, hvareq.trans hv1, hmean, hv2⟩

/-- **C119**, predictions without a marginal: if the tree has no symbolic column, the conditioned tree itself has these moments. -/
theorem C119_joint_partial (h : TreeInput S data)
    (hI : SplitContract I S.minImprovement (requiredSamples S.minSamplesLeaf data.length)) {q : List Task} {st : State}
    (hfit : fit S I data [] = (q, .ok st)) (hh : ∀ x ∈ data, ∀ ci ∈ S.columns.zipIdx, HashesToItself x ci) {dom : Var → VSet}
    (hdom : ColumnDomains S.columns dom) (hline : ∀ P, Column.continuous P ∈ S.columns → OneOpen (dom P.var))
    (hdirac : ∀ P, Column.continuous P ∈ S.columns → ∀ n x c, st.circuit.kind? n ≠ some (.leaf (.dirac P.var x c))) {A : SimpleEvent}
    (hA : DiscreteEvidence S.columns A) (hne : agreeingLeaves S.columns data A st ≠ [])
    (hnum : ∀ v dm, Column.symbolic v dm ∉ S.columns) {v : Var} {i : ℕ} (hci : (Column.integer v, i) ∈ S.columns.zipIdx) (hvA : v ∉ A.keys) :
    ∃ g' p, st.circuit.conditional dom [A] = .ok (some g', p) ∧ ∀ (order : Var → Option ℕ) (center : Var → Option ℝ) (k : Var → ℕ) (c : Var → ℝ),
      (∀ col ∈ S.columns, order (columnVar col) = some (k (columnVar col))) →
      (∀ col ∈ S.columns, center (columnVar col) = some (c (columnVar col))) → ∀ m, ∃ res, (g'.moment m order center).2 = .ok res ∧
        res v = some (sampleMoment (trainingRows data (agreeingLeaves S.columns data A st).flatten) i (k v) (c v)) := by
  obtain ⟨g', p, r', sc, h1, hM, hsc, hin, hev, hprob⟩ := tree_given h hI hfit hh hdom hline hdirac hA hne hci hvA
  refine ⟨g', p, h1, fun order center k c hord hcen m => ?_⟩
  obtain ⟨st', E, hfit', hE⟩ := fit_ok h (minSamples_eq S data.length ▸ hI)
  rw [hfit] at hfit'
  simp only [Prod.mk.injEq, Except.ok.injEq] at hfit'
  obtain ⟨rfl, rfl⟩ := hfit'
  have hcol : ∀ w ∈ sc r', ∃ col ∈ S.columns, columnVar col = w := fun w hw => by
    rw [hsc, List.mem_toFinset] at hw
    exact List.mem_map.1 hw
  have hsym : ∀ n d, g'.kind? n = some (.leaf d) → ∀ w l, d ≠ .symbolic w l := by
    rintro n d hk w l rfl
    obtain ⟨col, hc, hcw⟩ := hcol _ (leaf_var_mem hM.layered hM.smooth hk)
    have hf := hM.domain.fits n _ hk
    have hd := hdom.domain col hc
    rw [← hcw] at hf
    cases col with
    | symbolic v dm => exact hnum v dm hc
    | other u =>
      obtain ⟨j, hj, hc⟩ := List.mem_iff_getElem.1 hc
      exact h.columns (Column.other u, j) (by simp [List.mem_zipIdx_iff_getElem?, hj, hc])
    | integer u => obtain ⟨J, hJ, _⟩ := hd; rw [hJ] at hf; exact hf
    | continuous P => obtain ⟨J, hJ, _⟩ := hd; rw [hJ] at hf; exact hf
  have hv : v ∈ sc r' := by
    rw [hsc]
    exact List.mem_toFinset.2 (List.mem_map_of_mem (f := columnVar) (List.fst_mem_of_mem_zipIdx hci))
  obtain ⟨res, j1, _, j2⟩ := finite_moment hM hsym hv (K := entries data i) (fun n d hk hd => by
      have := hin n d hk
      rwa [hd, allowed_oneOf] at this) (order := order) (center := center) (k := k) (c := c)
    (fun w hw => by obtain ⟨col, hc, rfl⟩ := hcol w hw; exact hord col hc) (fun w hw => by obtain ⟨col, hc, rfl⟩ := hcol w hw; exact hcen col hc)
    hev (fun t => ⟨freshMem, hprob t freshMem⟩) m
  exact ⟨res, j1, j2.trans (congrArg some (sum_frequencies (agreeing_rows data h hE A) v i _ _))⟩

/-! ### A concrete tree -/

/-- Three symbols and an integer, at most one split. -/
noncomputable def symbolAndNumber : Settings := ⟨[.symbolic 0 [(0, 0), (1, 1), (2, 2)], .integer 1], 1, 0, 1, ⊤, 1⟩

theorem symbolAndNumber_input : TreeInput symbolAndNumber [row 0, row 1, row 2] where
  nonempty := by simp
  distinct := by simp [symbolAndNumber, columnVar]
  columns := by
    intro ci hci
    simp only [symbolAndNumber, List.zipIdx_cons, List.zipIdx_nil, List.mem_cons, List.not_mem_nil, or_false] at hci
    rcases hci with rfl | rfl
    · simp [ColumnFits, row]
    · trivial
  cap := one_pos

theorem symbolAndNumber_contract (n : ℕ) :
    SplitContract firstSample symbolAndNumber.minImprovement (requiredSamples symbolAndNumber.minSamplesLeaf n) :=
  (requiredSamples_one n).symm ▸ firstSample_contract

/-- Three symbols, all numbers. -/
noncomputable def symbolAndNumberDomain (v : Var) : VSet := if v = 0 then .symbols [0, 1, 2] else numbers

theorem symbolAndNumber_domains : ColumnDomains symbolAndNumber.columns symbolAndNumberDomain where
  disjoint := by
    intro v
    unfold symbolAndNumberDomain
    split
    · simp [VSet.Disjoint]
    · simp [VSet.Disjoint, numbers, SimpleInterval.IsEmpty]
  domain := by
    intro c hc
    simp only [symbolAndNumber, List.mem_cons, List.not_mem_nil, or_false] at hc
    rcases hc with rfl | rfl
    · exact ⟨[0, 1, 2], rfl, by simp⟩
    · refine ⟨_, rfl, fun x => ⟨_, List.mem_singleton_self _, ?_⟩⟩
      simp [SimpleInterval.Mem, SimpleInterval.leftOK, SimpleInterval.rightOK]

theorem symbolAndNumber_hash : ∀ x ∈ [row 0, row 1, row 2], ∀ ci ∈ symbolAndNumber.columns.zipIdx, HashesToItself x ci := by
  intro x hx ci hci
  simp only [symbolAndNumber, List.zipIdx_cons, List.zipIdx_nil, List.mem_cons, List.not_mem_nil, or_false] at hx hci
  rcases hci with rfl | rfl
  · trivial
  · rcases hx with rfl | rfl | rfl <;> simp [HashesToItself, row]

/-- The first row is in a leaf of its own. -/
theorem symbolAndNumber_leaves {q : List Task} {st : State} (hfit : fit symbolAndNumber firstSample [row 0, row 1, row 2] [] = (q, .ok st)) :
    leafSamples st = [[0], [1, 2]] := by
  have hms : symbolAndNumber.minSamples 3 = 1 := by rw [← minSamples_eq]; exact requiredSamples_one 3
  have step : ∀ {fuel : ℕ} {st₀ : State} {t : Task} {q₀ : List Task},
      loop symbolAndNumber firstSample 3 (fuel + 1) st₀ (t :: q₀) = (q, .ok st) →
      ∃ st₁ new, c45 symbolAndNumber firstSample 3 st₀ t = .ok (st₁, new) ∧
        loop symbolAndNumber firstSample 3 fuel st₁ (q₀ ++ new) = (q, .ok st) := by
    intro fuel st₀ t q₀ h
    rw [loop] at h
    cases hc : c45 symbolAndNumber firstSample 3 st₀ t with
    | error e => rw [hc] at h; simp at h
    | ok x => rw [hc] at h; exact ⟨x.1, x.2, rfl, h⟩
  change loop symbolAndNumber firstSample 3 (4 + 1) ⟨List.range 3, 0, newUnit 0 .sum, []⟩ [⟨[row 0, row 1, row 2], 0, 3, 0⟩] = (q, .ok st) at hfit
  obtain ⟨st₁, new₁, hc₁, hfit⟩ := step hfit
  obtain ⟨i1, s1, rfl⟩ := c45_split (by
    rw [hms]
    simp only [symbolAndNumber, not_or]
    exact ⟨by norm_num, by norm_num⟩) (by simp [firstSample, symbolAndNumber]) hc₁
  obtain ⟨st₂, new₂, hc₂, hfit⟩ := step (fuel := 3) hfit
  obtain ⟨i2, s2, rfl⟩ := c45_deep (by simp [symbolAndNumber]) hc₂
  obtain ⟨st₃, new₃, hc₃, hfit⟩ := step (fuel := 2) hfit
  obtain ⟨i3, s3, rfl⟩ := c45_deep (by simp [symbolAndNumber]) hc₃
  simp only [List.append_nil] at hfit
  obtain ⟨_, rfl⟩ := hfit
  unfold leafSamples
  rw [s3, s2, s1, i3, i2, i1]
  simp [firstSample, List.range, List.range.loop]

/-- The symbol is 0 or 1. -/
def zeroOrOne : SimpleEvent := [(0, .symbols [0, 1])]

theorem zeroOrOne_evidence : DiscreteEvidence symbolAndNumber.columns zeroOrOne where
  nodup := by simp [zeroOrOne, SimpleEvent.keys]
  column := by
    intro p hp
    rw [List.mem_singleton.1 hp]
    exact ⟨(.symbolic 0 [(0, 0), (1, 1), (2, 2)], 0), by simp [symbolAndNumber], rfl, trivial, by simp [VSet.Disjoint], trivial⟩

theorem zeroOrOne_and_evidence (t : ℝ) :
    DiscreteEvidence symbolAndNumber.columns (zeroOrOne ++ [(1, .interval [⟨t, t, .closed, .closed⟩])]) where
  nodup := by simp [zeroOrOne, SimpleEvent.keys]
  column := by
    intro p hp
    rcases List.mem_append.1 hp with hp | hp
    · exact zeroOrOne_evidence.column p hp
    · rw [List.mem_singleton.1 hp]
      exact ⟨(.integer 1, 1), by simp [symbolAndNumber], rfl, trivial, setOf_point 1 t⟩

theorem zeroOrOne_admits {B : SimpleEvent} (hB : ∀ p ∈ B, p.1 = 1) {k : ℤ} (hk : k = 0 ∨ k = 1 ∨ k = 2) :
    Admits (zeroOrOne ++ B) (.symbolic 0 [(0, 0), (1, 1), (2, 2)], 0) (row k) ↔ k ≠ 2 := by
  simp only [Admits, Agrees, columnVar, row]
  constructor
  · rintro ⟨p, ⟨e, he, h1, h2⟩, h3⟩ rfl
    obtain ⟨j, hj, h4⟩ := h3 (0, .symbols [0, 1]) (by simp [zeroOrOne]) rfl
    have he2 : e.2 = e.1 := by
      simp only [List.mem_cons, List.not_mem_nil, or_false] at he
      rcases he with rfl | rfl | rfl <;> rfl
    rw [h2, he2, h1] at h4
    simp only [List.mem_cons, List.not_mem_nil, or_false] at hj
    rcases hj with rfl | rfl <;> norm_num at h4
  · intro hl
    refine ⟨fun _ => k, ⟨(k, k), by rcases hk with rfl | rfl | rfl <;> simp, rfl, rfl⟩, fun q hq hq0 => ?_⟩
    rcases List.mem_append.1 hq with hq | hq
    · rw [List.mem_singleton.1 hq]
      exact ⟨k, by rcases hk with rfl | rfl | rfl <;> simp at hl ⊢, rfl⟩
    · rw [hB q hq] at hq0
      cases hq0

theorem number_admits (t : ℝ) (k : ℤ) :
    Admits (zeroOrOne ++ [(1, .interval [⟨t, t, .closed, .closed⟩])]) (.integer 1, 1) (row k) ↔ (k : ℝ) = t := by
  simp only [Admits, Agrees, columnVar, row]
  constructor
  · rintro ⟨p, h1, h2⟩
    obtain ⟨_, hj, h3, h4⟩ := h2 (1, .interval [⟨t, t, .closed, .closed⟩]) (by simp) rfl
    rw [List.mem_singleton.1 hj] at h3 h4
    simp only [SimpleInterval.leftOK, SimpleInterval.rightOK, EReal.coe_le_coe_iff] at h3 h4
    rw [← h1]
    exact le_antisymm h4 h3
  · rintro rfl
    refine ⟨fun _ => k, rfl, fun q hq hq1 => ?_⟩
    rcases List.mem_append.1 hq with hq | hq
    · rw [List.mem_singleton.1 hq] at hq1
      cases hq1
    · rw [List.mem_singleton.1 hq]
      exact ⟨_, List.mem_singleton_self _, le_rfl, le_rfl⟩

theorem number_admits_free (k : ℤ) : Admits zeroOrOne (.integer 1, 1) (row k) := by
  refine ⟨fun _ => k, rfl, fun q hq hq1 => ?_⟩
  rw [List.mem_singleton.1 hq] at hq1
  cases hq1

theorem symbolAndNumber_rows : trainingRows [row 0, row 1, row 2] [0] = [row 0] ∧
    trainingRows [row 0, row 1, row 2] [1, 2] = [row 1, row 2] := ⟨rfl, rfl⟩

/-- Both leaves have a row with symbol 0 or 1. -/
theorem symbolAndNumber_agreeing {st : State} (hst : leafSamples st = [[0], [1, 2]]) :
    agreeingLeaves symbolAndNumber.columns [row 0, row 1, row 2] zeroOrOne st = [[0], [1, 2]] := by
  have h := fun k hk => zeroOrOne_admits (B := []) (by simp) (k := k) hk
  simp only [List.append_nil] at h
  unfold agreeingLeaves
  rw [hst, List.filter_eq_self]
  intro idx hidx
  simp only [List.mem_cons, List.not_mem_nil, or_false] at hidx
  simp only [symbolAndNumber, List.zipIdx_cons, List.zipIdx_nil, List.mem_cons, List.not_mem_nil, or_false, decide_eq_true_eq]
  rintro ci (rfl | rfl)
  · rcases hidx with rfl | rfl
    · exact ⟨row 0, by simp [symbolAndNumber_rows], (h 0 (by simp)).2 (by simp)⟩
    · exact ⟨row 1, by simp [symbolAndNumber_rows], (h 1 (by simp)).2 (by simp)⟩
  · rcases hidx with rfl | rfl
    · exact ⟨row 0, by simp [symbolAndNumber_rows], number_admits_free 0⟩
    · exact ⟨row 1, by simp [symbolAndNumber_rows], number_admits_free 1⟩

/-- The tree with the leaves `{0}` and `{1, 2}` (symbol and integer are the same in every row), given that the symbol is 0 or 1, predicts the
mean of all three integers, 1, and the variance 2/3. -/
theorem C119_example : ∃ q st g p g' e var, fit symbolAndNumber firstSample [row 0, row 1, row 2] [] = (q, .ok st) ∧
    st.circuit.conditional symbolAndNumberDomain [zeroOrOne] = .ok (some g, p) ∧ g.copy.marginalInPlace {1} = .ok (some g') ∧
    (g'.expectation freshMem [1]).2 = .ok e ∧ (g'.variance freshMem [1]).2 = .ok var ∧ e 1 = some 1 ∧ var 1 = some (2 / 3) := by
  obtain ⟨st, r, hfit, _⟩ := C41_fit symbolAndNumber_input (symbolAndNumber_contract _)
  have hag := symbolAndNumber_agreeing (symbolAndNumber_leaves hfit)
  obtain ⟨g, p, g', h1, h2, _, h3⟩ := C119_prediction_partial symbolAndNumber_input (symbolAndNumber_contract _) hfit symbolAndNumber_hash
    symbolAndNumber_domains (by simp [symbolAndNumber]) (by simp [symbolAndNumber]) zeroOrOne_evidence (by rw [hag]; simp) (v := 1) (i := 1)
    (by simp [symbolAndNumber]) (by simp [zeroOrOne, SimpleEvent.keys])
  obtain ⟨e, var, h4, h5, h6, h7⟩ := h3 freshMem
  refine ⟨_, st, g, p, g', e, var, hfit, h1, h2, h4, h5, ?_, ?_⟩
  · rw [h6, hag]
    norm_num [sampleMean, trainingRows, row]
  · rw [h7, hag]
    norm_num [sampleVariance, sampleMean, trainingRows, row]

theorem point_possible {st : State} (hst : leafSamples st = [[0], [1, 2]]) {t : ℤ} (ht : t = 0 ∨ t = 1 ∨ t = 2) :
    agreeingLeaves symbolAndNumber.columns [row 0, row 1, row 2]
      (zeroOrOne ++ [(1, .interval [⟨(t : ℝ), (t : ℝ), .closed, .closed⟩])]) st ≠ [] := by
  have h := fun k hk => zeroOrOne_admits (B := [(1, .interval [⟨(t : ℝ), (t : ℝ), .closed, .closed⟩])]) (by simp) (k := k) hk
  suffices H : ∃ idx ∈ leafSamples st, ∃ x ∈ trainingRows [row 0, row 1, row 2] idx, ∃ y ∈ trainingRows [row 0, row 1, row 2] idx,
      Admits (zeroOrOne ++ [(1, .interval [⟨(t : ℝ), (t : ℝ), .closed, .closed⟩])]) (.symbolic 0 [(0, 0), (1, 1), (2, 2)], 0) x ∧
      Admits (zeroOrOne ++ [(1, .interval [⟨(t : ℝ), (t : ℝ), .closed, .closed⟩])]) (.integer 1, 1) y by
    obtain ⟨idx, hidx, x, hx, y, hy, h1, h2⟩ := H
    refine List.ne_nil_of_mem (a := idx) (List.mem_filter.2 ⟨hidx, ?_⟩)
    simp only [symbolAndNumber, List.zipIdx_cons, List.zipIdx_nil, List.mem_cons, List.not_mem_nil, or_false, decide_eq_true_eq]
    rintro ci (rfl | rfl)
    · exact ⟨x, hx, h1⟩
    · exact ⟨y, hy, h2⟩
  rw [hst]
  rcases ht with rfl | rfl | rfl
  · exact ⟨[0], by simp, row 0, by simp [symbolAndNumber_rows], row 0, by simp [symbolAndNumber_rows], (h 0 (by simp)).2 (by simp),
      (number_admits _ _).2 rfl⟩
  · exact ⟨[1, 2], by simp, row 1, by simp [symbolAndNumber_rows], row 1, by simp [symbolAndNumber_rows], (h 1 (by simp)).2 (by simp),
      (number_admits _ _).2 rfl⟩
  · exact ⟨[1, 2], by simp, row 1, by simp [symbolAndNumber_rows], row 2, by simp [symbolAndNumber_rows], (h 1 (by simp)).2 (by simp),
      (number_admits _ _).2 rfl⟩

/-- Predictions are not conditional expectations: in the tree with the leaves `{0}` and `{1, 2}`, given that the symbol is 0 or 1, the
conditional expectation of the integer is 3/4, because only half of the rows of the second leaf agree with the evidence; the answer is 1. -/
theorem C119_full_false : ¬ C119_full := by
  intro hall
  obtain ⟨q, st, g, p, g', e, var, hfit, h1, h2, h3, -, h5, -⟩ := C119_example
  have hst := symbolAndNumber_leaves hfit
  have law := fun A (hA : DiscreteEvidence symbolAndNumber.columns A) => C116_law_partial symbolAndNumber_input (symbolAndNumber_contract _) hfit
    symbolAndNumber_hash symbolAndNumber_domains (by simp [symbolAndNumber]) (by simp [symbolAndNumber]) hA
  obtain ⟨g₁, pA, hg₁, hpos, hpA, hpv, -⟩ := law _ zeroOrOne_evidence (by rw [symbolAndNumber_agreeing hst]; simp)
  have htot : ∀ t : ℤ, ∃ x, (st.circuit.probability freshMem symbolAndNumberDomain
      [zeroOrOne ++ [(1, .interval [⟨(t : ℝ), (t : ℝ), .closed, .closed⟩])]]).2 = .ok x := by
    intro t
    by_cases hag : agreeingLeaves symbolAndNumber.columns [row 0, row 1, row 2]
      (zeroOrOne ++ [(1, .interval [⟨(t : ℝ), (t : ℝ), .closed, .closed⟩])]) st = []
    · exact ⟨0, (C116_none symbolAndNumber_input (symbolAndNumber_contract _) hfit symbolAndNumber_hash symbolAndNumber_domains
        (by simp [symbolAndNumber]) (by simp [symbolAndNumber]) (zeroOrOne_and_evidence t) hag).2 freshMem⟩
    · obtain ⟨_, x, -, -, hx, -⟩ := law _ (zeroOrOne_and_evidence t) hag
      exact ⟨x, hx freshMem⟩
  choose P hP using htot
  have hval : ∀ t : ℤ, (t = 0 ∨ t = 1 ∨ t = 2) → P t = ((leafSamples st).map fun idx => (idx.length : ℝ) / 3 *
      leafShare symbolAndNumber.columns (zeroOrOne ++ [(1, .interval [⟨(t : ℝ), (t : ℝ), .closed, .closed⟩])])
        (trainingRows [row 0, row 1, row 2] idx)).sum := by
    intro t ht
    obtain ⟨_, x, -, -, hx, hxv, -⟩ := law _ (zeroOrOne_and_evidence t) (point_possible hst ht)
    have : x = P t := Except.ok.inj ((hx freshMem).symm.trans (hP t))
    rw [← this, hxv]
    norm_num
  obtain ⟨g₂, g₃, e', x, k1, k2, k3, k4, k5⟩ := hall symbolAndNumber firstSample _ symbolAndNumber_input (symbolAndNumber_contract _)
    symbolAndNumber_hash q st hfit _ symbolAndNumber_domains _ zeroOrOne_evidence 1 1 (by simp [symbolAndNumber])
    (by simp [zeroOrOne, SimpleEvent.keys]) pA (hpA freshMem) hpos P hP
  rw [h1] at k1
  simp only [Except.ok.injEq, Prod.mk.injEq, Option.some.injEq] at k1
  obtain ⟨rfl, rfl⟩ := k1
  rw [h2] at k2
  obtain rfl : g' = g₃ := by simpa using k2
  rw [h3] at k3
  obtain rfl := Except.ok.inj k3
  rw [h5] at k4
  obtain rfl := Option.some.inj k4
  have z := fun k hk => zeroOrOne_admits (B := []) (by simp) (k := k) hk
  simp only [List.append_nil] at z
  have hs : ∀ t : ℤ, _ := fun t k hk => zeroOrOne_admits (B := [(1, .interval [⟨(t : ℝ), (t : ℝ), .closed, .closed⟩])]) (by simp) (k := k) hk
  have hk : ∀ t k : ℤ, _ := fun t k => number_admits (t : ℝ) k
  have hpA' : p = 2 / 3 := by
    rw [hpv, hst]
    simp only [List.map_cons, List.map_nil, symbolAndNumber_rows, leafShare, symbolAndNumber, List.zipIdx_cons, List.zipIdx_nil, admitted,
      List.countP_cons, List.countP_nil, z 0 (by simp), z 1 (by simp), z 2 (by simp)]
    have nf : ∀ k, Admits zeroOrOne (.integer 1, 0 + 1) (row k) := number_admits_free
    simp only [nf]
    norm_num
  have hP1 : P 1 = 1 / 6 := by
    rw [hval 1 (by simp), hst]
    simp only [List.map_cons, List.map_nil, symbolAndNumber_rows, leafShare, symbolAndNumber, List.zipIdx_cons, List.zipIdx_nil, admitted,
      List.countP_cons, List.countP_nil, hs 1 0 (by simp), hs 1 1 (by simp), hs 1 2 (by simp), hk]
    norm_num
  have hP2 : P 2 = 1 / 6 := by
    rw [hval 2 (by simp), hst]
    simp only [List.map_cons, List.map_nil, symbolAndNumber_rows, leafShare, symbolAndNumber, List.zipIdx_cons, List.zipIdx_nil, admitted,
      List.countP_cons, List.countP_nil, hs 2 0 (by simp), hs 2 1 (by simp), hs 2 2 (by simp), hk]
    norm_num
  have hset : (([row 0, row 1, row 2].map fun x => x.int 1).toFinset : Finset ℤ) = {0, 1, 2} := rfl
  rw [hpA', hset, Finset.sum_insert (by simp), Finset.sum_insert (by simp), Finset.sum_singleton, hP1, hP2] at k5
  norm_num at k5

end PM.Props
