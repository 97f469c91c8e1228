import Verif.Learn.JptConditionLemmas
import Verif.Props.Pruned
import Verif.Props.JptMarginal
import Verif.Circuit.CondUnion

/-! # C116: conditioning a learned tree on its discrete columns -/

namespace PM.Props
open Spec Learn.Jpt Graph Classical MeasureTheory

variable {S : Settings} {I : Impurity} {data : List Row}

/-- C116, full: conditioning a learned tree on evidence about discrete columns follows Bayes' rule. -/
def C116_full : Prop :=
  ∀ (S : Settings) (I : Impurity) (data : List Row), TreeInput S data →
    SplitContract I S.minImprovement (requiredSamples S.minSamplesLeaf data.length) →
    (∀ x ∈ data, ∀ ci ∈ S.columns.zipIdx, HashesToItself x ci) → ∀ q st, fit S I data [] = (q, .ok st) →
    ∀ dom, ColumnDomains S.columns dom → ∀ A B, DiscreteEvidence S.columns A → DiscreteEvidence S.columns B →
      ∀ pA, (st.circuit.probability freshMem dom [A]).2 = .ok pA → 0 < pA →
        ∃ g' q, st.circuit.conditional dom [A] = .ok (some g', pA) ∧ (g'.probability freshMem dom [B]).2 = .ok q ∧
          (st.circuit.probability freshMem dom [SimpleEvent.inter A B]).2 = .ok (q * pA)

theorem evidence_no_continuous (h : TreeInput S data) {A : SimpleEvent} (hA : DiscreteEvidence S.columns A) {ci : Column × ℕ}
    (hci : ci ∈ S.columns.zipIdx) (hd : ¬ IsDiscrete ci.1) : columnVar ci.1 ∉ A.keys := by
  intro hm
  obtain ⟨p, hp, hv⟩ := List.mem_map.1 hm
  obtain ⟨cj, hcj, hj, hdj, _⟩ := hA.column p hp
  have := column_inj h hci cj hcj (hj.trans hv)
  exact hd (this ▸ hdj)

theorem evidence_event {st : State} {E : List Emitted} (h : TreeInput S data) (hE : Inv S I data st [] E) {A : SimpleEvent}
    (hA : DiscreteEvidence S.columns A) {V : Finset Var} (hV : V = (S.columns.map columnVar).toFinset) : EventFor st.circuit V A := by
  have hk : ∀ p ∈ A, EventFor st.circuit V [(p.1, p.2)] := by
    intro p hp
    obtain ⟨ci, hci, hv, _, hset⟩ := hA.column p hp
    rw [← hv]
    refine tree_event h hE hci hset ?_
    rw [hV, List.mem_toFinset]
    exact List.mem_map.2 ⟨ci.1, List.fst_mem_of_mem_zipIdx hci, rfl⟩
  refine ⟨hA.nodup, ?_, fun p hp => (hk p hp).disjoint _ (by simp), fun p hp => (hk p hp).fits _ (by simp)⟩
  intro v hv
  obtain ⟨p, hp, rfl⟩ := List.mem_map.1 hv
  exact (hk p hp).keys _ (by simp [SimpleEvent.keys])

theorem evidence_discrete_leaf {st : State} {E : List Emitted} (h : TreeInput S data) (hE : Inv S I data st [] E) {A : SimpleEvent}
    (hA : DiscreteEvidence S.columns A) {p : Var × VSet} (hp : p ∈ A) {n : Node} {d : Leaf} (hk : st.circuit.kind? n = some (.leaf d))
    (hv : d.var = p.1) : (∃ v l, d = .integer v l) ∨ ∃ v l, d = .symbolic v l := by
  obtain ⟨ci, hci, hvi, hdi, _⟩ := hA.column p hp
  obtain ⟨cj, hcj, hl⟩ := tree_leaves h hE n d hk
  have := column_inj h hci cj hcj (by rw [← hl.var, hv, hvi])
  subst this
  obtain ⟨c, i⟩ := cj
  cases c with
  | other v => exact hl.elim
  | continuous P => exact hdi.elim
  | integer v => obtain ⟨l, rfl⟩ := hl; exact .inl ⟨_, _, rfl⟩
  | symbolic v _ => obtain ⟨l, rfl, _⟩ := hl; exact .inr ⟨_, _, rfl⟩

theorem evidence_proper {st : State} {E : List Emitted} (h : TreeInput S data) (hE : Inv S I data st [] E) {A : SimpleEvent}
    (hA : DiscreteEvidence S.columns A) {dom : Var → VSet} (hline : ∀ P, Column.continuous P ∈ S.columns → OneOpen (dom P.var))
    (hv : ∀ n d, st.circuit.kind? n = some (.leaf d) → d.Valid)
    (hdirac : ∀ P, Column.continuous P ∈ S.columns → ∀ n x c, st.circuit.kind? n ≠ some (.leaf (.dirac P.var x c))) :
    ProperEvent st.circuit dom A ∧ OneInterval st.circuit dom A := by
  have hnd : ∀ n d, st.circuit.kind? n = some (.leaf d) → ∀ v l c, d ≠ .dirac v l c := by
    rintro n d hk v l c rfl
    obtain ⟨cj, hcj, hl⟩ := tree_leaves h hE n _ hk
    have hm := List.fst_mem_of_mem_zipIdx hcj
    have hvar := hl.var
    obtain ⟨d, i⟩ := cj
    cases d with
    | other v => exact hl.elim
    | continuous P => obtain rfl : v = P.var := hvar; exact hdirac P hm n l c hk
    | integer v => obtain ⟨_, hl⟩ := hl; cases hl
    | symbolic v _ => obtain ⟨_, hl, _⟩ := hl; cases hl
  have hopen : ∀ n d, st.circuit.kind? n = some (.leaf d) → HasDensity d → OneOpen (dom d.var) := by
    intro n d hk hden
    obtain ⟨cj, hcj, hl⟩ := tree_leaves h hE n d hk
    have hm := List.fst_mem_of_mem_zipIdx hcj
    have hvar := hl.var
    obtain ⟨c, i⟩ := cj
    cases c with
    | other v => exact hl.elim
    | continuous P => rw [hvar]; exact hline P hm
    | integer v => obtain ⟨l, rfl⟩ := hl; exact hden.elim
    | symbolic v _ => obtain ⟨l, rfl, _⟩ := hl; exact hden.elim
  refine ⟨⟨fun p hp n d hk hv => ?_, fun n d hk => proper_of_open (hv n d hk) (hnd n d hk) (hopen n d hk)⟩,
    ⟨fun p hp n d hk hv => ?_, fun n d hk => oneInterval_of_open (hnd n d hk) (hopen n d hk)⟩⟩
  all_goals rcases evidence_discrete_leaf h hE hA hp hk hv with ⟨_, _, rfl⟩ | ⟨_, _, rfl⟩ <;> trivial

theorem sum_filter_forall₂ {α β : Type} {R : α → β → Prop} {l : List α} {l' : List β} (h : List.Forall₂ R l l') {p : α → Prop} {q : β → Prop}
    [DecidablePred p] [DecidablePred q]
    {f : α → ℝ} {g : β → ℝ} (hpq : ∀ a b, R a b → (p a ↔ q b)) (hfg : ∀ a b, R a b → p a → f a = g b) :
    ((l.filter fun a => p a).map f).sum = ((l'.filter fun b => q b).map g).sum := by
  induction h with
  | nil => rfl
  | @cons a b l l' hab _ ih =>
    by_cases ha : p a
    · rw [List.filter_cons_of_pos (by simpa using ha), List.filter_cons_of_pos (by simpa using (hpq a b hab).1 ha)]
      simp only [List.map_cons, List.sum_cons]
      rw [ih, hfg a b hab ha]
    · rw [List.filter_cons_of_neg (by simpa using ha), List.filter_cons_of_neg (by simpa using fun hb => ha ((hpq a b hab).2 hb)), ih]

/-- The probability of evidence below a leaf of the tree is zero exactly if a column has no admitted row. -/
theorem leafShare_ne_zero {rows : List Row} (hne : rows ≠ []) (columns : List Column) (A : SimpleEvent) :
    leafShare columns A rows ≠ 0 ↔ ∀ ci ∈ columns.zipIdx, ∃ x ∈ rows, Admits A ci x := by
  have hlen : (rows.length : ℝ) ≠ 0 := by exact_mod_cast (List.length_pos_iff.2 hne).ne'
  unfold leafShare
  rw [Ne, List.prod_eq_zero_iff, List.mem_map]
  push Not
  refine forall₂_congr fun ci hci => ?_
  rw [Ne, div_eq_zero_iff, not_or]
  have : ((admitted A ci rows : ℕ) : ℝ) ≠ 0 ↔ admitted A ci rows ≠ 0 := by norm_cast
  rw [← Ne, this, ← Nat.pos_iff_ne_zero, admitted, List.countP_pos_iff]
  simp [hlen]

/-- What is known about the units below the root. -/
structure RootParts (S : Settings) (data : List Row) (st : State) (E : List Emitted) (A : SimpleEvent) (P : Node → ℝ) : Prop where
  parts : List.Forall₂ (fun (e : Emitted) e' => e ∈ E ∧ linWeight e' = (e.idx.length : ℝ) / data.length ∧
    P e'.dst = leafShare S.columns A (trainingRows data e.idx) ∧
    ∀ ℓ f, CircuitValue st.circuit ℓ f → f e'.dst = (S.columns.zipIdx.map fun ci => e.Fs ci ℓ).prod) E (st.circuit.outEdges 0)

theorem rootParts {st : State} {E : List Emitted} (h : TreeInput S data) (hE : Inv S I data st [] E)
    (hh : ∀ x ∈ data, ∀ ci ∈ S.columns.zipIdx, HashesToItself x ci) {A : SimpleEvent} (hA : DiscreteEvidence S.columns A) {P : Node → ℝ}
    (hP : CircuitValue st.circuit (fun d => (leafLaw d).real (allowed A d.var)) P) : RootParts S data st E A P := by
  obtain ⟨_, hpart, _⟩ := denotes_tree (emitted_ne_nil hE) (fun e he => ⟨_, (hE.leaf e he).2⟩) data.length
  rw [← hE.circuit] at hpart
  refine ⟨(forall₂_mem hpart).imp ?_⟩
  rintro e e' ⟨he, hp⟩
  refine ⟨he, ?_, ?_, hp.value⟩
  · rw [← weight_eq hE he]
    simp only [linWeight, hp.weight]
  · rw [hp.value _ P hP]
    unfold leafShare
    congr 1
    exact List.map_congr_left fun ci hci => emitted_share h hE hh he hci fun hd => evidence_no_continuous h hA hci hd

theorem pruned_below {st : State} {E : List Emitted} (h : TreeInput S data) (hE : Inv S I data st [] E) {A : SimpleEvent}
    (hA : DiscreteEvidence S.columns A) {P T C f : Node → ℝ}
    (hP : CircuitValue st.circuit (fun d => (leafLaw d).real (allowed A d.var)) P) (hT : RemainingWeight st.circuit P T) {ℓ : Leaf → ℝ}
    (hC : PrunedValue st.circuit P T ℓ C) (hf : CircuitValue st.circuit ℓ f) {n : Node} {e' : Edge} (he' : e' ∈ st.circuit.outEdges n) :
    T e'.dst = 1 ∧ C e'.dst = f e'.dst := by
  obtain ⟨hD, _, _⟩ := denotes_tree (emitted_ne_nil hE) (fun e he => ⟨_, (hE.leaf e he).2⟩) data.length
  rw [← hE.circuit] at hD
  have hL := hD.layered
  have hedge := (List.mem_filter.1 he').1
  refine pruned_flat hL (tree_neat h hE).norm (Q := fun d => (leafLaw d).real (allowed A d.var) = 1) ?_ (fun _ hd => hd) hP hT hC hf _
    (hL.wf.dstMem e' hedge) ?_
  · intro n hn hk e he
    obtain ⟨d, hd, ci, hci, hdis, hl⟩ := tree_flat h hE n hn hk e he
    refine ⟨d, hd, ?_⟩
    rw [hl.var, allowed_of_not_mem (evidence_no_continuous h hA hci hdis), measureReal_def, leafLaw_univ (hD.valid _ d hd)]
    · rfl
    · obtain ⟨c, i⟩ := ci
      cases c with
      | other v => exact hl.elim
      | integer v => exact absurd trivial hdis
      | symbolic v _ => exact absurd trivial hdis
      | continuous P => rcases hl with ⟨_, _, _, _, rfl⟩ | ⟨_, _, rfl⟩ <;> trivial
  · intro h0
    have : e' ∈ st.circuit.inEdges 0 := List.mem_filter.2 ⟨hedge, by simp [h0]⟩
    rw [(root_mem hL.root).2] at this
    cases this

/-- **C116**, what conditioning a learned tree computes: for evidence `A` about discrete columns, `conditional` returns the probability
of `A` and a tree in which the leaves without an agreeing row are gone and the others keep weights proportional to the number of *all*
their training rows.  Inside a leaf, each column has the frequencies of the rows that agree with `A` in this column.  Partial: by Bayes'
rule the leaves would be weighted with their agreeing rows (`C116_full_false`); trees with Dirac leaves, integer entries that are not their own hash and evidence about
continuous columns are excluded. -/
theorem C116_law_partial (h : TreeInput S data)
    (hI : SplitContract I S.minImprovement (requiredSamples S.minSamplesLeaf data.length)) {q : List Task} {st : State}
    (hfit : fit S I data [] = (q, .ok st)) (hh : ∀ x ∈ data, ∀ ci ∈ S.columns.zipIdx, HashesToItself x ci) {dom : Var → VSet}
    (hdom : ColumnDomains S.columns dom) (hline : ∀ P, Column.continuous P ∈ S.columns → OneOpen (dom P.var))
    (hdirac : ∀ P, Column.continuous P ∈ S.columns → ∀ n x c, st.circuit.kind? n ≠ some (.leaf (.dirac P.var x c))) {A : SimpleEvent} (hA : DiscreteEvidence S.columns A)
    (hne : agreeingLeaves S.columns data A st ≠ []) :
    ∃ g' p, st.circuit.conditional dom [A] = .ok (some g', p) ∧ 0 < p ∧ (∀ m, (st.circuit.probability m dom [A]).2 = .ok p) ∧
      p = ((leafSamples st).map fun idx => (idx.length : ℝ) / data.length * leafShare S.columns A (trainingRows data idx)).sum ∧
      ∀ B, DiscreteEvidence S.columns B → ∀ m, (g'.probability m dom [B]).2 =
        .ok (((agreeingLeaves S.columns data A st).map fun idx =>
            (idx.length : ℝ) * leafShareGiven S.columns A B (trainingRows data idx)).sum /
          ((agreeingLeaves S.columns data A st).map fun idx => (idx.length : ℝ)).sum) := by
  obtain ⟨st', E, hfit', hE⟩ := fit_ok h (minSamples_eq S data.length ▸ hI)
  rw [hfit] at hfit'
  simp only [Prod.mk.injEq, Except.ok.injEq] at hfit'
  obtain ⟨rfl, rfl⟩ := hfit'
  obtain ⟨hD, _, hk0⟩ := denotes_tree (emitted_ne_nil hE) (fun e he => ⟨_, (hE.leaf e he).2⟩) data.length
  rw [← hE.circuit] at hD hk0
  obtain ⟨sc, hs, hdec, hsc⟩ := hD.scope
  have hL := hD.layered
  have hneat := tree_neat h hE
  have hdomF := tree_domain h hE hdom
  have hEv := evidence_event h hE hA hsc
  obtain ⟨hpr, hone⟩ := evidence_proper h hE hA hline hD.valid hdirac
  obtain ⟨P, T, hP, hT, _⟩ := C88_defined hL A
  have hroot := rootParts h hE hh hA hP
  have hN : (0 : ℝ) < data.length := by exact_mod_cast List.length_pos_iff.2 h.nonempty
  have hls := leafSamples_eq hE
  have hrows : ∀ e ∈ E, trainingRows data e.idx ≠ [] := fun e he => (emitted_rows h hE he).1
  have hP0 : P 0 = ((leafSamples st).map fun idx => (idx.length : ℝ) / data.length * leafShare S.columns A (trainingRows data idx)).sum := by
    rw [hP.sum 0 hk0, hls, List.map_map]
    have := sum_filter_forall₂ hroot.parts (p := fun _ => True) (q := fun _ => True)
      (f := fun e => (e.idx.length : ℝ) / data.length * leafShare S.columns A (trainingRows data e.idx))
      (g := fun e' => linWeight e' * P e'.dst) (fun _ _ _ => Iff.rfl) (fun e e' he _ => by rw [he.2.1, he.2.2.1])
    simp only [decide_true, List.filter_true] at this
    rw [← this]
    rfl
  have hnn : ∀ idx, 0 ≤ (idx : List ℕ).length / (data.length : ℝ) * leafShare S.columns A (trainingRows data idx) := by
    intro idx
    refine mul_nonneg (by positivity) (List.prod_nonneg ?_)
    intro x hx
    obtain ⟨ci, _, rfl⟩ := List.mem_map.1 hx
    positivity
  have hpos : 0 < P 0 := by
    obtain ⟨idx, hidx⟩ := List.exists_mem_of_ne_nil _ hne
    have hmem := List.mem_filter.1 hidx
    rw [hP0]
    refine lt_of_lt_of_le ?_ (List.single_le_sum (fun x hx => by
      obtain ⟨i, _, rfl⟩ := List.mem_map.1 hx
      exact hnn i) _ (List.mem_map.2 ⟨idx, hmem.1, rfl⟩))
    refine lt_of_le_of_ne (hnn idx) (Ne.symm ?_)
    have h1 := hmem.1
    rw [hls] at h1
    obtain ⟨e, he, rfl⟩ := List.mem_map.1 h1
    refine mul_ne_zero (div_ne_zero ?_ hN.ne') ((leafShare_ne_zero (hrows e he) _ _).2 (by simpa using hmem.2))
    have := hrows e he
    intro h0
    have h0' : e.idx = [] := List.length_eq_zero_iff.1 (by exact_mod_cast h0)
    exact this (by simp [trainingRows, h0'])
  obtain ⟨g', r', hcond, _, _, _, _, _, hval⟩ := C88_pruned hL hs hdec hD.valid hneat.pos hneat.tree hdomF hEv hpr hone hP hT hpos
  refine ⟨g', P 0, hcond, hpos, fun m => ?_, hP0, fun B hB m => ?_⟩
  · rw [probability_eq hL hs hD.valid hdomF (by simpa using hEv) (p := fun _ => P) (by simpa using hP)]
    simp
  · obtain ⟨C, hC⟩ := exists_prunedValue hL.graded.acyclic P T
      (fun d : Leaf => (leafLaw d).real (allowed A d.var ∩ allowed B d.var) / (leafLaw d).real (allowed A d.var))
    obtain ⟨f, hf⟩ := exists_circuitValue hL.graded.acyclic
      (fun d : Leaf => (leafLaw d).real (allowed A d.var ∩ allowed B d.var) / (leafLaw d).real (allowed A d.var))
    rw [hval [B] (by simpa using evidence_event h hE hB hsc) (fun _ => C) (by simpa using hC) m]
    simp only [List.map_cons, List.map_nil, List.sum_cons, List.sum_nil, add_zero]
    have hbelow : ∀ e' ∈ st.circuit.outEdges 0, T e'.dst = 1 ∧ C e'.dst = f e'.dst := fun e' he' =>
      pruned_below h hE hA hP hT hC hf he'
    rw [hC.sum 0 hk0]
    have hmem : ∀ e e', (e ∈ E ∧ linWeight e' = (e.idx.length : ℝ) / data.length ∧
        P e'.dst = leafShare S.columns A (trainingRows data e.idx) ∧
        ∀ ℓ f, CircuitValue st.circuit ℓ f → f e'.dst = (S.columns.zipIdx.map fun ci => e.Fs ci ℓ).prod) →
        ((∀ ci ∈ S.columns.zipIdx, ∃ x ∈ trainingRows data e.idx, Admits A ci x) ↔ P e'.dst ≠ 0) := by
      rintro e e' ⟨he, _, hPe, _⟩
      rw [hPe, leafShare_ne_zero (hrows e he)]
    have hnum : ((possibleEdges st.circuit P 0).map fun e => linWeight e * T e.dst * C e.dst)
        = (possibleEdges st.circuit P 0).map fun e => linWeight e * f e.dst :=
      List.map_congr_left fun e he => by
        obtain ⟨h1, h2⟩ := hbelow e (List.mem_filter.1 he).1
        rw [h1, h2, mul_one]
    have hden : ((possibleEdges st.circuit P 0).map fun e => linWeight e * T e.dst)
        = (possibleEdges st.circuit P 0).map fun e => linWeight e :=
      List.map_congr_left fun e he => by rw [(hbelow e (List.mem_filter.1 he).1).1, mul_one]
    have hagree : agreeingLeaves S.columns data A st
        = (E.filter fun e => ∀ ci ∈ S.columns.zipIdx, ∃ x ∈ trainingRows data e.idx, Admits A ci x).map Emitted.idx := by
      unfold agreeingLeaves
      rw [hls, List.filter_map]
      rfl
    rw [hnum, hden, hagree, List.map_map, List.map_map]
    have e1 := sum_filter_forall₂ hroot.parts
      (f := fun e => (data.length : ℝ)⁻¹ * ((e.idx.length : ℝ) * leafShareGiven S.columns A B (trainingRows data e.idx)))
      (g := fun e' => linWeight e' * f e'.dst) hmem (by
        rintro e e' ⟨he, hw, _, hv⟩ _
        rw [hw, hv _ f hf]
        have : (S.columns.zipIdx.map fun ci => e.Fs ci fun d => (leafLaw d).real (allowed A d.var ∩ allowed B d.var) /
            (leafLaw d).real (allowed A d.var)).prod = leafShareGiven S.columns A B (trainingRows data e.idx) := by
          unfold leafShareGiven
          congr 1
          exact List.map_congr_left fun ci hci => emitted_share_given h hE hh he hci
            (fun hd => evidence_no_continuous h hA hci hd) (fun hd => evidence_no_continuous h hB hci hd)
        rw [this, div_eq_mul_inv]
        ring)
    have e2 := sum_filter_forall₂ hroot.parts (f := fun e => (data.length : ℝ)⁻¹ * (e.idx.length : ℝ))
      (g := fun e' => linWeight e') hmem (by
        rintro e e' ⟨he, hw, _, hv⟩ _
        rw [hw, div_eq_mul_inv]
        ring)
    have hpe : possibleEdges st.circuit P 0 = (st.circuit.outEdges 0).filter fun b => P b.dst ≠ 0 :=
      List.filter_congr fun _ _ => by simp
    rw [hpe, ← e1, ← e2, List.sum_map_mul_left, List.sum_map_mul_left, mul_div_mul_left _ _ (inv_ne_zero hN.ne')]
    rfl

/-! ### Columns without evidence -/

/-- **C116**: evidence with which no leaf agrees has probability zero, and `conditional` returns no circuit. -/
theorem C116_none (h : TreeInput S data)
    (hI : SplitContract I S.minImprovement (requiredSamples S.minSamplesLeaf data.length)) {q : List Task} {st : State}
    (hfit : fit S I data [] = (q, .ok st)) (hh : ∀ x ∈ data, ∀ ci ∈ S.columns.zipIdx, HashesToItself x ci) {dom : Var → VSet}
    (hdom : ColumnDomains S.columns dom) (hline : ∀ P, Column.continuous P ∈ S.columns → OneOpen (dom P.var))
    (hdirac : ∀ P, Column.continuous P ∈ S.columns → ∀ n x c, st.circuit.kind? n ≠ some (.leaf (.dirac P.var x c))) {A : SimpleEvent} (hA : DiscreteEvidence S.columns A)
    (hnone : agreeingLeaves S.columns data A st = []) :
    st.circuit.conditional dom [A] = .ok (none, 0) ∧ ∀ m, (st.circuit.probability m dom [A]).2 = .ok 0 := by
  obtain ⟨st', E, hfit', hE⟩ := fit_ok h (minSamples_eq S data.length ▸ hI)
  rw [hfit] at hfit'
  simp only [Prod.mk.injEq, Except.ok.injEq] at hfit'
  obtain ⟨rfl, rfl⟩ := hfit'
  obtain ⟨hD, _, hk0⟩ := denotes_tree (emitted_ne_nil hE) (fun e he => ⟨_, (hE.leaf e he).2⟩) data.length
  rw [← hE.circuit] at hD hk0
  obtain ⟨sc, hs, hdec, hsc⟩ := hD.scope
  have hL := hD.layered
  have hdomF := tree_domain h hE hdom
  have hEv := evidence_event h hE hA hsc
  obtain ⟨hpr, hone⟩ := evidence_proper h hE hA hline hD.valid hdirac
  obtain ⟨P, hP⟩ := exists_probValue hL A
  have hroot := rootParts h hE hh hA hP
  have hP0 : P 0 = 0 := by
    rw [hP.sum 0 hk0]
    refine List.sum_eq_zero fun x hx => ?_
    obtain ⟨e', he', rfl⟩ := List.mem_map.1 hx
    have : ∀ {l : List Emitted} {l' : List Edge} {R : Emitted → Edge → Prop}, List.Forall₂ R l l' → e' ∈ l' → ∃ e, R e e' := by
      intro l l' R hR
      induction hR with
      | nil => intro h; cases h
      | cons h _ ih => intro hm; rcases List.mem_cons.1 hm with rfl | hm; exacts [⟨_, h⟩, ih hm]
    obtain ⟨e, he, _, hPe, _⟩ := this hroot.parts he'
    rw [hPe]
    by_cases h0 : leafShare S.columns A (trainingRows data e.idx) = 0
    · rw [h0, mul_zero]
    · exfalso
      rw [← Ne, leafShare_ne_zero (show trainingRows data e.idx ≠ [] from (emitted_rows h hE he).1)] at h0
      have hm : e.idx ∈ agreeingLeaves S.columns data A st := by
        unfold agreeingLeaves
        rw [leafSamples_eq hE]
        exact List.mem_filter.2 ⟨List.mem_map.2 ⟨e, he, rfl⟩, by simpa using h0⟩
      rw [hnone] at hm
      cases hm
  refine ⟨?_, fun m => ?_⟩
  · have hvc : ∀ n d, st.circuit.copy.kind? n = some (.leaf d) → d.Valid := fun n d hk => hD.valid n d (by rwa [kind?_copy] at hk)
    have hU := unsplit_ready (Layered.copy hL) (Scoped.copy hL.wf hs) hvc (DomainFor.copy hdomF) (EventFor.copy hEv)
      (ProperEvent.copy hpr) (OneInterval.copy hone)
    have := conditionSimple_dead (Layered.copy hL) (Scoped.copy hL.wf hs).sumNe (CircuitValue.copy hL.wf hP) hU hP0 freshMem
    unfold conditional
    rw [circuitVars_eq hL.wf hL.graded.acyclic hs hL.root]
    simp only [List.map_cons, List.map_nil, logConditional, logConditionalInPlace, bind, Except.bind]
    rw [this]
    simp
  · rw [probability_eq hL hs hD.valid hdomF (by simpa using hEv) (p := fun _ => P) (by simpa using hP)]
    simp [hP0]

theorem admitted_congr {A B : SimpleEvent} {ci : Column × ℕ} {rows : List Row} (h : ∀ x ∈ rows, Admits A ci x ↔ Admits B ci x) :
    admitted A ci rows = admitted B ci rows :=
  List.countP_congr fun x hx => by simpa using h x hx

/-- A row admits anything that says nothing about the column. -/
theorem admits_free {rows : List Row} {ci : Column × ℕ} (hf : ColumnFits rows ci) {x : Row} (hx : x ∈ rows) {A : SimpleEvent}
    (hA : columnVar ci.1 ∉ A.keys) : Admits A ci x := by
  have hno : ∀ q ∈ A, q.1 ≠ columnVar ci.1 := fun q hq hv => hA (List.mem_map.2 ⟨q, hq, hv⟩)
  obtain ⟨c, i⟩ := ci
  cases c with
  | other v => exact hf.elim
  | continuous P => exact ⟨fun _ => x.real i, rfl, fun q hq hv => absurd hv (hno q hq)⟩
  | integer v => exact ⟨fun _ => x.int i, rfl, fun q hq hv => absurd hv (hno q hq)⟩
  | symbolic v domain =>
    obtain ⟨e, he, hei⟩ := List.mem_map.1 (hf.2.2 x hx)
    exact ⟨fun _ => e.2, ⟨e, he, hei, rfl⟩, fun q hq hv => absurd hv (hno q hq)⟩

/-- **C116**, the columns without evidence: a discrete column that the evidence says nothing about has, in the conditional tree, the
relative frequencies of *all* training rows in the leaves with an agreeing row. -/
theorem C116_target_partial (h : TreeInput S data)
    (hI : SplitContract I S.minImprovement (requiredSamples S.minSamplesLeaf data.length)) {q : List Task} {st : State}
    (hfit : fit S I data [] = (q, .ok st)) (hh : ∀ x ∈ data, ∀ ci ∈ S.columns.zipIdx, HashesToItself x ci) {dom : Var → VSet}
    (hdom : ColumnDomains S.columns dom) (hline : ∀ P, Column.continuous P ∈ S.columns → OneOpen (dom P.var))
    (hdirac : ∀ P, Column.continuous P ∈ S.columns → ∀ n x c, st.circuit.kind? n ≠ some (.leaf (.dirac P.var x c))) {A : SimpleEvent} (hA : DiscreteEvidence S.columns A)
    (hne : agreeingLeaves S.columns data A st ≠ []) :
    ∃ g' p, st.circuit.conditional dom [A] = .ok (some g', p) ∧ ∀ cj ∈ S.columns.zipIdx, IsDiscrete cj.1 → columnVar cj.1 ∉ A.keys →
      ∀ B, SetOf cj.1 B → ∀ m, (g'.probability m dom [[(columnVar cj.1, B)]]).2
        = .ok (relativeFrequency (trainingRows data (agreeingLeaves S.columns data A st).flatten) cj B) := by
  obtain ⟨g', p, hcond, _, _, _, hlaw⟩ := C116_law_partial h hI hfit hh hdom hline hdirac hA hne
  refine ⟨g', p, hcond, fun cj hcj hdj hvj B hB m => ?_⟩
  rw [hlaw [(columnVar cj.1, B)] ⟨by simp [SimpleEvent.keys], by
    intro p hp
    rw [List.mem_singleton.1 hp]
    exact ⟨cj, hcj, rfl, hdj, hB⟩⟩ m]
  obtain ⟨st', E, hfit', hE⟩ := fit_ok h (minSamples_eq S data.length ▸ hI)
  rw [hfit] at hfit'
  simp only [Prod.mk.injEq, Except.ok.injEq] at hfit'
  obtain ⟨rfl, rfl⟩ := hfit'
  congr 1
  have hone : ∀ idx ∈ agreeingLeaves S.columns data A st, (idx.length : ℝ) * leafShareGiven S.columns A [(columnVar cj.1, B)] (trainingRows data idx)
      = ((trainingRows data idx).countP fun x => EntryIn cj B x : ℕ) := by
    intro idx hidx
    have hm := List.mem_filter.1 hidx
    have hseen : ∀ ci ∈ S.columns.zipIdx, ∃ x ∈ trainingRows data idx, Admits A ci x := by simpa using hm.2
    have hm1 := hm.1
    rw [leafSamples_eq hE] at hm1
    obtain ⟨e, he, rfl⟩ := List.mem_map.1 hm1
    obtain ⟨hrows, _, hfits⟩ := emitted_rows h hE he
    change trainingRows data e.idx ≠ [] at hrows
    change ∀ ci ∈ S.columns.zipIdx, ColumnFits (trainingRows data e.idx) ci at hfits
    have hlen : ((trainingRows data e.idx).length : ℝ) ≠ 0 := by exact_mod_cast (List.length_pos_iff.2 hrows).ne'
    have hl : (trainingRows data e.idx).length = e.idx.length := by simp [trainingRows]
    have hprod : ∀ l : List (Column × ℕ), l.Nodup → (∀ ci ∈ l, ci ∈ S.columns.zipIdx) →
        (l.map fun ci => (admitted (A ++ [(columnVar cj.1, B)]) ci (trainingRows data e.idx) : ℝ) / admitted A ci (trainingRows data e.idx)).prod
          = if cj ∈ l then (((trainingRows data e.idx).countP fun x => EntryIn cj B x : ℕ) : ℝ) / (trainingRows data e.idx).length else 1 := by
      intro l
      induction l with
      | nil => intro _ _; simp
      | cons ci l ih =>
        intro hnd hsub
        rw [List.nodup_cons] at hnd
        rw [List.map_cons, List.prod_cons, ih hnd.2 fun c hc => hsub c (List.mem_cons_of_mem _ hc)]
        have hci := hsub ci (List.mem_cons_self ..)
        by_cases hc : ci = cj
        · subst hc
          rw [if_neg hnd.1, if_pos (List.mem_cons_self ..), mul_one]
          congr 2
          · refine List.countP_congr fun x hx => ?_
            simp only [decide_eq_true_eq]
            constructor
            · rintro ⟨p, hp, hq⟩
              exact ⟨p, hp, hq (columnVar ci.1, B) (by simp) rfl⟩
            · rintro ⟨p, hp, hq⟩
              refine ⟨p, hp, fun r hr hv => ?_⟩
              rcases List.mem_append.1 hr with hr | hr
              · exact absurd (List.mem_map.2 ⟨r, hr, hv⟩) hvj
              · rw [List.mem_singleton.1 hr]; exact hq
          · rw [admitted, List.countP_eq_length]
            exact fun x hx => decide_eq_true (admits_free (hfits ci hci) hx hvj)
        · have h1 : admitted (A ++ [(columnVar cj.1, B)]) ci (trainingRows data e.idx) = admitted A ci (trainingRows data e.idx) := by
            refine admitted_congr fun x _ => ?_
            have hv : columnVar cj.1 ≠ columnVar ci.1 := fun hv => hc (column_inj h hci cj hcj hv).symm
            constructor
            · rintro ⟨p, hp, hq⟩
              exact ⟨p, hp, fun r hr => hq r (List.mem_append.2 (.inl hr))⟩
            · rintro ⟨p, hp, hq⟩
              refine ⟨p, hp, fun r hr hv' => ?_⟩
              rcases List.mem_append.1 hr with hr | hr
              · exact hq r hr hv'
              · rw [List.mem_singleton.1 hr] at hv'
                exact absurd hv' hv
          have h2 : (admitted A ci (trainingRows data e.idx) : ℝ) ≠ 0 := by
            have : 0 < admitted A ci (trainingRows data e.idx) := by
              rw [admitted, List.countP_pos_iff]
              obtain ⟨x, hx, hax⟩ := hseen ci hci
              exact ⟨x, hx, decide_eq_true hax⟩
            exact_mod_cast this.ne'
          rw [h1, div_self h2, one_mul]
          congr 1
          simp only [List.mem_cons, eq_iff_iff]
          exact ⟨fun h => .inr h, fun h => h.resolve_left fun h => hc h.symm⟩
    unfold leafShareGiven
    rw [hprod _ ?_ fun _ h => h, if_pos hcj, ← hl, mul_div_cancel₀ _ hlen]
    exact List.Nodup.of_map (fun c : Column × ℕ => columnVar c.1) (by
      have : S.columns.zipIdx.map (fun c => columnVar c.1) = S.columns.map columnVar := by
        conv_rhs => rw [← List.zipIdx_map_fst 0 S.columns, List.map_map]
        rfl
      rw [this]
      exact h.distinct)
  rw [List.map_congr_left hone, relativeFrequency]
  congr 1
  · rw [trainingRows, List.map_flatten, List.countP_flatten, Nat.cast_list_sum, List.map_map, List.map_map]
    rfl
  · rw [trainingRows, List.length_map, List.length_flatten, Nat.cast_list_sum, List.map_map]
    rfl

/-! ### When Bayes' rule holds -/

/-- **C116**, Bayes' rule: if all leaves with agreeing rows have the same share of them (for instance, because the evidence decides the
splits and all their rows agree), conditioning follows Bayes' rule for every event. -/
theorem C116_bayes_partial (h : TreeInput S data)
    (hI : SplitContract I S.minImprovement (requiredSamples S.minSamplesLeaf data.length)) {q : List Task} {st : State}
    (hfit : fit S I data [] = (q, .ok st)) (hh : ∀ x ∈ data, ∀ ci ∈ S.columns.zipIdx, HashesToItself x ci) {dom : Var → VSet}
    (hdom : ColumnDomains S.columns dom) (hline : ∀ P, Column.continuous P ∈ S.columns → OneOpen (dom P.var))
    (hdirac : ∀ P, Column.continuous P ∈ S.columns → ∀ n x c, st.circuit.kind? n ≠ some (.leaf (.dirac P.var x c))) {A : SimpleEvent} (hA : DiscreteEvidence S.columns A)
    (hne : agreeingLeaves S.columns data A st ≠ [])
    {c : ℝ} (hc : ∀ idx ∈ agreeingLeaves S.columns data A st, leafShare S.columns A (trainingRows data idx) = c) :
    ∃ g' p, st.circuit.conditional dom [A] = .ok (some g', p) ∧ 0 < p ∧ (∀ m, (st.circuit.probability m dom [A]).2 = .ok p) ∧
      ∀ Fs : Event, (∀ F ∈ Fs, EventFor st.circuit (S.columns.map columnVar).toFinset F) → ∀ m m', ∃ q, (g'.probability m dom Fs).2 = .ok q ∧
        (st.circuit.probability m' dom (Fs.map fun F => SimpleEvent.inter A F)).2 = .ok (q * p) := by
  obtain ⟨g', p, hcond, hpos, hprob, _, _⟩ := C116_law_partial h hI hfit hh hdom hline hdirac hA hne
  obtain ⟨st', E, hfit', hE⟩ := fit_ok h (minSamples_eq S data.length ▸ hI)
  rw [hfit] at hfit'
  simp only [Prod.mk.injEq, Except.ok.injEq] at hfit'
  obtain ⟨rfl, rfl⟩ := hfit'
  obtain ⟨hD, _, hk0⟩ := denotes_tree (emitted_ne_nil hE) (fun e he => ⟨_, (hE.leaf e he).2⟩) data.length
  rw [← hE.circuit] at hD hk0
  obtain ⟨sc, hs, hdec, hsc⟩ := hD.scope
  have hL := hD.layered
  have hneat := tree_neat h hE
  have hdomF := tree_domain h hE hdom
  have hEv := evidence_event h hE hA hsc
  obtain ⟨hpr, hone⟩ := evidence_proper h hE hA hline hD.valid hdirac
  obtain ⟨P, T, hP, hT, hCex⟩ := C88_defined hL A
  obtain ⟨C, hC⟩ := hCex A
  obtain ⟨f, hf⟩ := exists_circuitValue hL.graded.acyclic
      (fun d : Leaf => (leafLaw d).real (allowed A d.var ∩ allowed A d.var) / (leafLaw d).real (allowed A d.var))
  have hroot := rootParts h hE hh hA hP
  have hP0 : P 0 = p := by
    have := hprob freshMem
    rw [probability_eq hL hs hD.valid hdomF (by simpa using hEv) (p := fun _ => P) (by simpa using hP)] at this
    simpa using this
  have hT1 : ∀ n, ∀ e' ∈ st.circuit.outEdges n, T e'.dst = 1 := fun n e' he' => (pruned_below h hE hA hP hT hC hf he').1
  have hprop : Proportional st.circuit P T := by
    intro n hk _
    by_cases hn : n = 0
    · subst hn
      refine ⟨c, fun e' he' => ?_⟩
      have hm := List.mem_filter.1 he'
      rw [hT1 0 e' hm.1, mul_one]
      have : ∀ {l : List Emitted} {l' : List Edge} {R : Emitted → Edge → Prop}, List.Forall₂ R l l' → e' ∈ l' → ∃ e, R e e' := by
        intro l l' R hR
        induction hR with
        | nil => intro h; cases h
        | cons h _ ih => intro hm; rcases List.mem_cons.1 hm with rfl | hm; exacts [⟨_, h⟩, ih hm]
      obtain ⟨e, he, _, hPe, _⟩ := this hroot.parts hm.1
      have hne0 : P e'.dst ≠ 0 := by simpa using hm.2
      rw [hPe] at hne0 ⊢
      rw [leafShare_ne_zero (show trainingRows data e.idx ≠ [] from (emitted_rows h hE he).1)] at hne0
      refine hc e.idx ?_
      unfold agreeingLeaves
      rw [leafSamples_eq hE]
      exact List.mem_filter.2 ⟨List.mem_map.2 ⟨e, he, rfl⟩, by simpa using hne0⟩
    · refine ⟨1, fun e' he' => ?_⟩
      have hm := List.mem_filter.1 he'
      rw [hT1 n e' hm.1, one_mul]
      obtain ⟨d, hd, ci, hci, hdis, hl⟩ := tree_flat h hE n hn hk e' hm.1
      rw [hP.leaf _ d hd, hl.var, allowed_of_not_mem (evidence_no_continuous h hA hci hdis), measureReal_def, leafLaw_univ (hD.valid _ d hd)]
      · rfl
      · obtain ⟨c, i⟩ := ci
        cases c with
        | other v => exact hl.elim
        | integer v => exact absurd trivial hdis
        | symbolic v _ => exact absurd trivial hdis
        | continuous P => rcases hl with ⟨_, _, _, _, rfl⟩ | ⟨_, _, rfl⟩ <;> trivial
  obtain ⟨g'', r', hcond', _, _, _, _, _, hval⟩ := C08_proportional_partial hL hs hdec hD.valid hneat.pos hneat.tree hdomF hEv hpr hone hP hT
    hprop (hP0.symm ▸ hpos)
  rw [hcond] at hcond'
  simp only [Except.ok.injEq, Prod.mk.injEq, Option.some.injEq] at hcond'
  obtain ⟨rfl, hp'⟩ := hcond'
  refine ⟨g', p, hcond, hpos, hprob, fun Fs hFs m m' => ?_⟩
  rw [hp']
  exact hval Fs (fun F hF => by rw [hsc]; exact hFs F hF) m m'

/-! ### A concrete tree -/

/-- Three symbols, at most one split. -/
noncomputable def oneSplit : Settings := ⟨[.symbolic 0 [(0, 0), (1, 1), (2, 2)]], 1, 0, 1, ⊤, 1⟩

theorem oneSplit_input : TreeInput oneSplit [row 0, row 1, row 2] where
  nonempty := by simp
  distinct := by simp [oneSplit, columnVar]
  columns := by
    intro ci hci
    simp only [oneSplit, List.zipIdx_cons, List.zipIdx_nil, List.mem_singleton] at hci
    subst hci
    simp [ColumnFits, row]
  cap := one_pos

theorem oneSplit_contract (n : ℕ) : SplitContract firstSample oneSplit.minImprovement (requiredSamples oneSplit.minSamplesLeaf n) :=
  (requiredSamples_one n).symm ▸ firstSample_contract

theorem oneSplit_domains : ColumnDomains oneSplit.columns (fun _ => .symbols [0, 1, 2]) where
  disjoint := by intro v; simp [VSet.Disjoint]
  domain := by
    intro c hc
    simp only [oneSplit, List.mem_singleton] at hc
    subst hc
    exact ⟨[0, 1, 2], rfl, by simp⟩

theorem oneSplit_hash : ∀ x ∈ [row 0, row 1, row 2], ∀ ci ∈ oneSplit.columns.zipIdx, HashesToItself x ci := by
  intro x _ ci hci
  simp only [oneSplit, List.zipIdx_cons, List.zipIdx_nil, List.mem_singleton] at hci
  subst hci
  trivial

/-- A round that makes a leaf because the tree is deep enough. -/
theorem c45_deep {S : Settings} {I : Impurity} {total : ℕ} {st st' : State} {t : Task} {new : List Task}
    (hd : (t.depth : EReal) ≥ S.maxDepth) (h : c45 S I total st t = .ok (st', new)) :
    st'.indices = st.indices ∧ st'.samples = st.samples ++ [(t.start, t.stop)] ∧ new = [] := by
  unfold c45 at h
  simp only [hd, true_or, if_true, bind, Except.bind] at h
  cases hr : st.circuit.root with
  | error e => rw [hr] at h; cases h
  | ok r =>
    rw [hr] at h
    simp only at h
    split at h
    · cases h
    · split at h
      · cases h
      · split at h
        · cases h
        · simp only [Except.ok.injEq, Prod.mk.injEq] at h
          obtain ⟨rfl, rfl⟩ := h
          exact ⟨rfl, rfl, rfl⟩

/-- A round that splits. -/
theorem c45_split {S : Settings} {I : Impurity} {total : ℕ} {st st' : State} {t : Task} {new : List Task}
    (hd : ¬ ((t.depth : EReal) ≥ S.maxDepth ∨ ((t.stop - t.start : ℕ) : ℝ) < 2 * S.minSamples total))
    (hg : ¬ (I st.calls st.indices t.start t.stop).gain ≤ S.minImprovement) (h : c45 S I total st t = .ok (st', new)) :
    st'.indices = (I st.calls st.indices t.start t.stop).indices ∧ st'.samples = st.samples ∧
      new = [⟨t.data, t.start, t.start + (I st.calls st.indices t.start t.stop).pos + 1, t.depth + 1⟩,
        ⟨t.data, t.start + (I st.calls st.indices t.start t.stop).pos + 1, t.stop, t.depth + 1⟩] := by
  unfold c45 at h
  simp only [bind, Except.bind] at h
  rw [if_neg hd] at h
  simp only [if_neg hg] at h
  cases hr : st.circuit.root with
  | error e => rw [hr] at h; cases h
  | ok r =>
    rw [hr] at h
    simp only [Except.ok.injEq, Prod.mk.injEq] at h
    obtain ⟨rfl, rfl⟩ := h
    exact ⟨rfl, rfl, rfl⟩

/-- The first row is in a leaf of its own. -/
theorem oneSplit_leaves {q : List Task} {st : State} (hfit : fit oneSplit firstSample [row 0, row 1, row 2] [] = (q, .ok st)) :
    leafSamples st = [[0], [1, 2]] := by
  have hms : oneSplit.minSamples 3 = 1 := by rw [← minSamples_eq]; exact requiredSamples_one 3
  have step : ∀ {fuel : ℕ} {st₀ : State} {t : Task} {q₀ : List Task},
      loop oneSplit firstSample 3 (fuel + 1) st₀ (t :: q₀) = (q, .ok st) →
      ∃ st₁ new, c45 oneSplit firstSample 3 st₀ t = .ok (st₁, new) ∧ loop oneSplit firstSample 3 fuel st₁ (q₀ ++ new) = (q, .ok st) := by
    intro fuel st₀ t q₀ h
    rw [loop] at h
    cases hc : c45 oneSplit firstSample 3 st₀ t with
    | error e => rw [hc] at h; simp at h
    | ok x => rw [hc] at h; exact ⟨x.1, x.2, rfl, h⟩
  change loop oneSplit firstSample 3 (4 + 1) ⟨List.range 3, 0, newUnit 0 .sum, []⟩ [⟨[row 0, row 1, row 2], 0, 3, 0⟩] = (q, .ok st) at hfit
  obtain ⟨st₁, new₁, hc₁, hfit⟩ := step hfit
  obtain ⟨i1, s1, rfl⟩ := c45_split (by
    rw [hms]
    simp only [oneSplit, not_or]
    exact ⟨by norm_num, by norm_num⟩) (by simp [firstSample, oneSplit]) hc₁
  obtain ⟨st₂, new₂, hc₂, hfit⟩ := step (fuel := 3) hfit
  obtain ⟨i2, s2, rfl⟩ := c45_deep (by simp [oneSplit]) hc₂
  obtain ⟨st₃, new₃, hc₃, hfit⟩ := step (fuel := 2) hfit
  obtain ⟨i3, s3, rfl⟩ := c45_deep (by simp [oneSplit]) hc₃
  simp only [List.append_nil] at hfit
  obtain ⟨_, rfl⟩ := hfit
  unfold leafSamples
  rw [s3, s2, s1, i3, i2, i1]
  simp [firstSample, List.range, List.range.loop]

theorem oneSplit_admits {L : List (List ℤ)} {k : ℤ} (hk : k = 0 ∨ k = 1 ∨ k = 2) :
    Admits (L.map fun l => (0, .symbols l)) (.symbolic 0 [(0, 0), (1, 1), (2, 2)], 0) (row k) ↔ ∀ l ∈ L, k ∈ l := by
  simp only [Admits, Agrees, columnVar, row, List.forall_mem_map]
  constructor
  · rintro ⟨p, ⟨e, he, h1, h2⟩, h3⟩ l hl
    obtain ⟨j, hj, h4⟩ := h3 l hl trivial
    have he2 : e.2 = e.1 := by
      simp only [List.mem_cons, List.not_mem_nil, or_false] at he
      rcases he with rfl | rfl | rfl <;> rfl
    rw [h2] at h4
    have : e.2 = j := by
      first | exact_mod_cast h4 | exact_mod_cast h4.symm
    rw [← h1, ← he2, this]
    exact hj
  · intro hl
    refine ⟨fun _ => k, ⟨(k, k), ?_, rfl, rfl⟩, fun l h _ => ⟨k, hl l h, rfl⟩⟩
    rcases hk with rfl | rfl | rfl <;> simp

theorem oneSplit_admitted (L : List (List ℤ)) (ks : List ℤ) (hk : ∀ k ∈ ks, k = 0 ∨ k = 1 ∨ k = 2) :
    admitted (L.map fun l => (0, .symbols l)) (.symbolic 0 [(0, 0), (1, 1), (2, 2)], 0) (ks.map row) =
      ks.countP fun k => ∀ l ∈ L, k ∈ l := by
  classical
  unfold admitted
  rw [List.countP_map]
  refine List.countP_congr fun k hk' => ?_
  simp [oneSplit_admits (hk k hk')]

theorem oneSplit_evidence {l : List ℤ} (hl : l.Nodup) : DiscreteEvidence oneSplit.columns [(0, .symbols l)] where
  nodup := by simp [SimpleEvent.keys]
  column := by
    intro p hp
    rw [List.mem_singleton.1 hp]
    exact ⟨(.symbolic 0 [(0, 0), (1, 1), (2, 2)], 0), by simp [oneSplit], rfl, trivial, hl, trivial⟩

theorem oneSplit_rows : trainingRows [row 0, row 1, row 2] [0] = [0].map row ∧
    trainingRows [row 0, row 1, row 2] [1, 2] = [1, 2].map row := ⟨rfl, rfl⟩

theorem oneSplit_agreeing {st : State} (hst : leafSamples st = [[0], [1, 2]]) (l : List ℤ) :
    agreeingLeaves oneSplit.columns [row 0, row 1, row 2] [(0, .symbols l)] st =
      (if 0 ∈ l then [[0]] else []) ++ if 1 ∈ l ∨ 2 ∈ l then [[1, 2]] else [] := by
  have h : ∀ k : ℤ, (k = 0 ∨ k = 1 ∨ k = 2) →
      (Admits [(0, .symbols l)] (.symbolic 0 [(0, 0), (1, 1), (2, 2)], 0) (row k) ↔ k ∈ l) := fun k hk => by
    have := oneSplit_admits (L := [l]) hk
    simpa using this
  unfold agreeingLeaves
  rw [hst]
  simp only [List.filter_cons, List.filter_nil, oneSplit, List.zipIdx_cons, List.zipIdx_nil, forall_eq, oneSplit_rows,
    List.map_cons, List.map_nil, List.mem_cons, List.not_mem_nil, or_false, exists_eq_or_imp, exists_eq_left, h 0 (.inl rfl), h 1 (.inr (.inl rfl)), h 2 (.inr (.inr rfl)),
    decide_eq_true_eq]
  by_cases h0 : (0 : ℤ) ∈ l <;> by_cases h1 : (1 : ℤ) ∈ l ∨ (2 : ℤ) ∈ l <;> simp [h0, h1]

/-- Conditioning does not follow Bayes' rule. In the tree with the leaves `{0}` and `{1, 2}`, the evidence "0 or 1" has probability 2/3 and
0 has probability 1/3, but after conditioning on the evidence 0 has probability 1/3 and not 1/2: the second leaf keeps its weight
2/3, although only half of its rows agree with the evidence. -/
theorem C116_full_false : ¬ C116_full := by
  intro hall
  obtain ⟨st, E, hfit, -⟩ := fit_ok oneSplit_input (minSamples_eq oneSplit 3 ▸ oneSplit_contract 3)
  have hst := oneSplit_leaves hfit
  have law := fun l hl => C116_law_partial oneSplit_input (oneSplit_contract 3) hfit oneSplit_hash oneSplit_domains
    (by simp [oneSplit]) (by simp [oneSplit]) (oneSplit_evidence (l := l) hl)
  obtain ⟨g, p, hg, hp, hpA, hpv, hB⟩ := law [0, 1] (by simp) (by rw [oneSplit_agreeing hst]; simp)
  obtain ⟨g₂, p₂, -, -, hpA₂, hpv₂, -⟩ := law [0] (by simp) (by rw [oneSplit_agreeing hst]; simp)
  obtain ⟨g', q, hg', hq, hpq⟩ := hall oneSplit firstSample _ oneSplit_input (oneSplit_contract 3) oneSplit_hash _ _ hfit _ oneSplit_domains
    _ _ (oneSplit_evidence (l := [0, 1]) (by simp)) (oneSplit_evidence (l := [0]) (by simp)) p (hpA _) hp
  rw [hg] at hg'
  obtain rfl : g = g' := by simpa using hg'
  rw [hB _ (oneSplit_evidence (l := [0]) (by simp))] at hq
  have hinter : SimpleEvent.inter [(0, .symbols [0, 1])] [(0, .symbols [0])] = [(0, VSet.symbols [0])] := by
    simp [SimpleEvent.inter, VSet.inter, SimpleEvent.keys]
  rw [hinter, hpA₂] at hpq
  have hq := Except.ok.inj hq
  have hpq := Except.ok.inj hpq
  have adm : ∀ (L : List (List ℤ)) (ks : List ℤ), (∀ k ∈ ks, k = 0 ∨ k = 1 ∨ k = 2) → _ := oneSplit_admitted
  have a1 := fun L => adm L [0] (by simp)
  have a2 := fun L => adm L [1, 2] (by simp)
  have b1 := a1 [[0]]
  have b2 := a2 [[0]]
  have c1 := a1 [[0, 1]]
  have c2 := a2 [[0, 1]]
  have d1 := a1 [[0, 1], [0]]
  have d2 := a2 [[0, 1], [0]]
  simp only [List.map_cons, List.map_nil] at b1 b2 c1 c2 d1 d2
  rw [oneSplit_agreeing hst] at hq
  rw [hst] at hpv hpv₂
  simp [leafShareGiven, leafShare, oneSplit_rows, oneSplit, b1, b2, c1, c2, d1, d2] at hq hpv hpv₂
  norm_num at hq hpv hpv₂
  rw [← hq, hpv, hpv₂] at hpq
  norm_num at hpq

/-- Some leaf agrees with the evidence as soon as one training row is admitted in every column. -/
theorem C116_agreeing (h : TreeInput S data)
    (hI : SplitContract I S.minImprovement (requiredSamples S.minSamplesLeaf data.length)) {q : List Task} {st : State}
    (hfit : fit S I data [] = (q, .ok st)) {A : SimpleEvent} {x : Row} (hx : x ∈ data) (hA : ∀ ci ∈ S.columns.zipIdx, Admits A ci x) :
    agreeingLeaves S.columns data A st ≠ [] := by
  obtain ⟨st', _, hfit', _, _, hperm, _⟩ := C41_fit h hI
  rw [hfit] at hfit'
  simp only [Prod.mk.injEq, Except.ok.injEq] at hfit'
  obtain ⟨rfl, rfl⟩ := hfit'
  obtain ⟨i, hi, rfl⟩ := List.mem_iff_getElem.1 hx
  obtain ⟨idx, hidx, hmem⟩ := List.mem_flatten.1 (hperm.mem_iff.2 (List.mem_range.2 hi))
  refine List.ne_nil_of_mem (a := idx) (List.mem_filter.2 ⟨hidx, ?_⟩)
  simp only [decide_eq_true_eq]
  exact fun ci hci => ⟨data[i], List.mem_map.2 ⟨i, hmem, by simp [hi]⟩, hA ci hci⟩

/-- The hypotheses of the theorems are met by the tree with the leaves `{0}` and `{1, 2}`: for "0 or 1" (both leaves), for "1 or 2" (one
leaf, all of whose rows agree) and for a symbol that does not occur. -/
example : ∃ q st, fit oneSplit firstSample [row 0, row 1, row 2] [] = (q, .ok st) ∧
    (∃ g p, st.circuit.conditional (fun _ => .symbols [0, 1, 2]) [[(0, .symbols [0, 1])]] = .ok (some g, p) ∧ 0 < p) ∧
    (∃ g p, st.circuit.conditional (fun _ => .symbols [0, 1, 2]) [[(0, .symbols [1, 2])]] = .ok (some g, p) ∧ 0 < p ∧
      ∃ r, (g.probability freshMem (fun _ => .symbols [0, 1, 2]) [[(0, .symbols [1])]]).2 = .ok r ∧
        (st.circuit.probability freshMem (fun _ => .symbols [0, 1, 2]) [[(0, .symbols [1])]]).2 = .ok (r * p)) ∧
    st.circuit.conditional (fun _ => .symbols [0, 1, 2]) [[(0, .symbols [3])]] = .ok (none, 0) := by
  obtain ⟨st, E, hfit, hE⟩ := fit_ok oneSplit_input (minSamples_eq oneSplit 3 ▸ oneSplit_contract 3)
  have hst := oneSplit_leaves hfit
  refine ⟨_, st, hfit, ?_, ?_, ?_⟩
  · obtain ⟨g, p, h1, h2, _⟩ := C116_law_partial oneSplit_input (oneSplit_contract 3) hfit oneSplit_hash oneSplit_domains
      (by simp [oneSplit]) (by simp [oneSplit]) (oneSplit_evidence (l := [0, 1]) (by simp)) (by rw [oneSplit_agreeing hst]; simp)
    exact ⟨g, p, h1, h2⟩
  · have a2 := oneSplit_admitted [[1, 2]] [1, 2] (by simp)
    simp only [List.map_cons, List.map_nil] at a2
    obtain ⟨g, p, h1, h2, h3, h4⟩ := C116_bayes_partial oneSplit_input (oneSplit_contract 3) hfit oneSplit_hash oneSplit_domains
      (by simp [oneSplit]) (by simp [oneSplit]) (oneSplit_evidence (l := [1, 2]) (by simp)) (by rw [oneSplit_agreeing hst]; simp) (c := 1) (by
        rw [oneSplit_agreeing hst]
        simp [leafShare, oneSplit_rows, oneSplit, a2])
    obtain ⟨r, hr, hr'⟩ := h4 [[(0, .symbols [1])]] (by
      simpa using evidence_event oneSplit_input hE (oneSplit_evidence (l := [1]) (by simp)) rfl) freshMem freshMem
    refine ⟨g, p, h1, h2, r, hr, ?_⟩
    rw [← hr']
    simp [SimpleEvent.inter, VSet.inter, SimpleEvent.keys]
  · exact (C116_none oneSplit_input (oneSplit_contract 3) hfit oneSplit_hash oneSplit_domains
      (by simp [oneSplit]) (by simp [oneSplit]) (oneSplit_evidence (l := [3]) (by simp)) (by rw [oneSplit_agreeing hst]; simp)).1

/-- The hypotheses of `C116_target_partial` are met by a tree over two columns, evidence about the first and a query about the second. -/
example : ∃ q st, fit twoColumns firstSample [row 0, row 1, row 1] [] = (q, .ok st) ∧
    ∃ g p f, st.circuit.conditional (fun v => if v = 0 then .symbols [0, 1] else numbers) [[(0, .symbols [1])]] = .ok (some g, p) ∧
      (g.probability freshMem (fun v => if v = 0 then .symbols [0, 1] else numbers) [[(1, numbers)]]).2 = .ok f := by
  have hI : SplitContract firstSample twoColumns.minImprovement (requiredSamples twoColumns.minSamplesLeaf [row 0, row 1, row 1].length) :=
    (requiredSamples_one 3).symm ▸ firstSample_contract
  obtain ⟨st, r, hfit, _⟩ := C41_fit twoColumns_input hI
  refine ⟨_, st, hfit, ?_⟩
  have hne : agreeingLeaves twoColumns.columns [row 0, row 1, row 1] [(0, .symbols [1])] st ≠ [] := by
    refine C116_agreeing twoColumns_input hI hfit (x := row 1) (by simp) fun ci hci => ?_
    simp only [twoColumns, List.zipIdx_cons, List.zipIdx_nil, List.mem_cons, List.not_mem_nil, or_false] at hci
    refine ⟨fun _ => 1, ?_, ?_⟩
    · rcases hci with rfl | rfl <;> simp [Agrees, row]
    · intro p hp _
      rw [List.mem_singleton.1 hp]
      exact ⟨1, by simp, by simp⟩
  obtain ⟨g, p, h1, h2⟩ := C116_target_partial twoColumns_input hI hfit (by
      intro x hx ci hci
      simp only [twoColumns, List.zipIdx_cons, List.zipIdx_nil, List.mem_cons, List.not_mem_nil, or_false] at hx hci
      rcases hci with rfl | rfl
      · trivial
      · rcases hx with rfl | rfl | rfl <;> simp [HashesToItself, row]) twoColumns_domains (by simp [twoColumns]) (by simp [twoColumns])
    (A := [(0, .symbols [1])])
    ⟨by simp [SimpleEvent.keys], by
      intro p hp
      rw [List.mem_singleton.1 hp]
      exact ⟨(.symbolic 0 [(0, 0), (1, 1)], 0), by simp [twoColumns], rfl, trivial, by simp [VSet.Disjoint], trivial⟩⟩ hne
  have := h2 (.integer 1, 1) (by simp [twoColumns]) trivial (by simp [columnVar, SimpleEvent.keys]) numbers
    ⟨by simp [VSet.Disjoint, numbers, SimpleInterval.IsEmpty], trivial⟩ freshMem
  exact ⟨g, p, _, h1, this⟩

end PM.Props
