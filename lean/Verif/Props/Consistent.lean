import Verif.Props.Plain
import Verif.Props.ConditionalDensity
import Verif.Props.JptRange

/-! # C121: evidence that agrees with a possible point is never contradictory -/

namespace PM.Props
open Spec Graph Classical MeasureTheory

variable {g : Circuit} {r : Node} {sc : Node → Finset Var} {dom : Var → VSet} {x : Var → ℝ}

/-- Evidence that holds at a possible point is possible. -/
theorem evidence_positive (hM : EvidenceModel g r sc dom) {E : SimpleEvent} (hE : EvidenceFor g (sc r) E) (hx : ∀ v ∈ sc r, x v ∈ (dom v).toSet)
    (hEx : E.Mem x) {l : ℝ} {m : Mem LogP} (hl : g.likelihood m x = .ok l) (hpos : 0 < l) :
    ∃ p, 0 < p ∧ ∀ m, (g.probability m dom [E]).2 = .ok p := by
  obtain ⟨f, hf, hlik⟩ := exists_lik hM
  rw [hlik] at hl
  obtain rfl := Except.ok.inj hl
  obtain ⟨P, hP⟩ := exists_probValue hM.layered E
  have hr := (root_mem hM.layered.root).1
  have hnn : 0 ≤ P r := circuitValue_nonneg hM.layered.wf hM.layered.graded.acyclic hP (fun _ _ _ => measureReal_nonneg) r hr
  refine ⟨P r, lt_of_le_of_ne hnn fun h0 => hpos.ne' ?_, fun m => ?_⟩
  · refine circuitValue_null hM.layered hP (hf x) (fun _ _ _ => measureReal_nonneg) (fun n d hk h1 => ?_) r hr h0.symm
    exact (newLeaf_density hM.layered hM.smooth hM.valid hM.domain hE.event (hM.proper hE) (hM.one hE) (fun v hv _ => hx v hv) hk).2 h1
      fun p hp hpv => hpv ▸ hEx p hp
  · rw [probability_eq hM.layered hM.smooth hM.valid hM.domain (Es := [E]) (by simpa using hE.event) (p := fun _ => P) (by simpa using hP)]
    simp

/-- A possible point stays possible if variables are dropped. -/
theorem plain_positive {g' : Circuit} {r' : Node} {sc' : Node → Finset Var} (hM : EvidenceModel g r sc dom) (h : SameLaw g g' r r' sc sc' dom)
    {l : ℝ} {m : Mem LogP} (hl : g.likelihood m x = .ok l) (hpos : 0 < l) (m' : Mem LogP) : ∃ l', g'.likelihood m' x = .ok l' ∧ 0 < l' := by
  obtain ⟨f, hf, hlik⟩ := exists_lik hM
  obtain ⟨f', hf', hlik'⟩ := exists_lik h.model
  rw [hlik] at hl
  obtain rfl := Except.ok.inj hl
  have hr := (root_mem hM.layered.root).1
  obtain ⟨q, hq⟩ := exists_circuitValue hM.layered.graded.acyclic
    (fun d : Leaf => if d.var ∈ sc' r' then leafDensity d (x d.var) else 1)
  have hnn : ∀ n d, g.kind? n = some (.leaf d) → (0 : ℝ) ≤ if d.var ∈ sc' r' then leafDensity d (x d.var) else 1 := fun n d hk => by
    split
    · exact leafDensity_nonneg (hM.valid n d hk) _
    · exact zero_le_one
  have hq0 : 0 < q r := by
    refine lt_of_le_of_ne (circuitValue_nonneg hM.layered.wf hM.layered.graded.acyclic hq hnn r hr) fun h0 => hpos.ne' ?_
    refine circuitValue_null hM.layered hq (hf x) hnn (fun n d hk h1 => ?_) r hr h0.symm
    split at h1
    · exact h1
    · exact absurd h1 one_ne_zero
  obtain ⟨q', hq', hqr⟩ := h.value _ (fun n d _ hd => if_neg hd) q hq
  have hL' := h.model.layered
  refine ⟨_, hlik' x m', ?_⟩
  have hq'' : CircuitValue g' (fun d => leafDensity d (x d.var)) q' := by
    refine ⟨fun n d hk => ?_, hq'.sum, hq'.prod⟩
    rw [hq'.leaf n d hk]
    exact if_pos (leaf_var_mem hL' h.model.smooth hk)
  rw [circuitValue_unique hL'.wf hL'.graded.acyclic (hf' x) hq'' r' (root_mem hL'.root).1, hqr]
  exact hq0

theorem consistent_history : ∀ (ops : List Op) {g : Circuit} {r : Node} {sc : Node → Finset Var}, EvidenceModel g r sc dom → (sc r).Nonempty →
    Sensible g (sc r) ops → (∀ v ∈ sc r, x v ∈ (dom v).toSet) → (∀ E ∈ observations ops, E.Mem x) → (variablesAfter (sc r) ops).Nonempty →
    ∀ {l : ℝ} {m : Mem LogP}, g.likelihood m x = .ok l → 0 < l →
      ∃ g' r' sc', history dom g ops = .ok (some g') ∧ EvidenceModel g' r' sc' dom ∧ sc' r' = variablesAfter (sc r) ops ∧
        (∀ F, EvidenceFor g (variablesAfter (sc r) ops) F → EvidenceFor g' (variablesAfter (sc r) ops) F) ∧
        ∀ m', ∃ l', g'.likelihood m' x = .ok l' ∧ 0 < l'
  | [], g, r, sc, hM, _, _, _, _, _, l, m, hl, hpos => by
    refine ⟨g, r, sc, rfl, hM, rfl, fun _ h => h, fun m' => ⟨l, ?_, hpos⟩⟩
    obtain ⟨f, _, hlik⟩ := exists_lik hM
    rw [hlik] at hl ⊢
    exact hl
  | op :: ops, g, r, sc, hM, hne, hS, hx, hobs, hleft, l, m, hl, hpos => by
    obtain ⟨hS1, hS2⟩ := sensible_cons hS
    by_cases hop : observations [op] = []
    · rw [observations_cons, hop, List.nil_append] at hobs
      rw [variablesAfter_cons] at hleft
      rcases plain_step hM hne op hop with ⟨h1, h2⟩ | ⟨g₁, r₁, sc₁, h1, h2, h3, h4, h5⟩
      · rw [h2] at hleft
        obtain ⟨v, hv⟩ := hleft
        exact absurd (variablesAfter_subset ∅ ops hv) (Finset.notMem_empty v)
      · rw [← h2] at hS2 hleft
        obtain ⟨l₁, hl₁, hpos₁⟩ := plain_positive hM h5 hl hpos freshMem
        rw [history, h1, variablesAfter_cons, ← h2]
        obtain ⟨g', r', sc', j1, j2, j3, j4, j5⟩ := consistent_history ops h5.model h3
          (sensible_transfer (U := sc₁ r₁) (fun V _ F hF => h5.from'.evidence hF) subset_rfl hS2)
          (fun v hv => hx v (h4 hv)) hobs hleft hl₁ hpos₁
        exact ⟨g', r', sc', j1, j2, j3, fun F hF => j4 F (h5.from'.evidence hF), j5⟩
    · obtain ⟨E, rfl⟩ : ∃ E, op = .given E := by
        cases op with
        | given E => exact ⟨E, rfl⟩
        | _ => simp [observations] at hop
      have hE0 : EvidenceFor g (sc r) E := hS.1
      have hS2 : Sensible g (sc r) ops := hS.2
      have hEx : E.Mem x := hobs E (by simp [observations])
      obtain ⟨p, hp, hprob⟩ := evidence_positive hM hE0 hx hEx hl hpos
      obtain ⟨g₁, r₁, h1, hM1, hsc, hEv, _, _, _⟩ := evidence_step hM hE0 (hprob freshMem) hp
      obtain ⟨g₂, y, h2, h3⟩ := C97_support hM.layered hM.smooth hM.decomposable hM.valid hM.positive hM.tree hM.domain (Es := [E])
        ⟨by simpa using hE0.event, by simpa using hM.proper hE0, by simpa using hM.one hE0⟩ (hprob freshMem) hp
      rw [h1] at h2
      simp only [Except.ok.injEq, Prod.mk.injEq, Option.some.injEq] at h2
      obtain ⟨rfl, rfl⟩ := h2
      obtain ⟨q, p', hq, hp', _, hiff⟩ := h3 x (fun E _ v hv _ => hx v hv) freshMem m
      rw [hl] at hp'
      obtain rfl := Except.ok.inj hp'
      rw [history, Op.apply, h1]
      have hleft : (variablesAfter (sc r) ops).Nonempty := hleft
      have ht : ∀ V, V ⊆ sc r → ∀ F, EvidenceFor g V F → EvidenceFor g₁ V F := fun V hV F hF =>
        EvidenceFor.narrow (hEv F (EvidenceFor.widen hV hF)) hF.event.keys
      obtain ⟨g', r', sc', j1, j2, j3, j4, j5⟩ := consistent_history ops hM1 (hsc ▸ hne)
        (sensible_transfer (U := sc r) ht hsc.subset (hsc ▸ hS2)) (hsc ▸ hx)
        (fun F hF => hobs F (by simp [observations, hF])) (hsc ▸ hleft) hq (hiff.2 ⟨hpos, E, by simp, hEx⟩)
      rw [hsc] at j3 j4
      exact ⟨g', r', sc', j1, j2, j3, fun F hF => j4 F (ht _ (variablesAfter_subset _ _) F hF), j5⟩

/-- **C121**: if a point has a positive likelihood, no program whose evidence holds at the point ends in `None` (as long as it keeps a
variable), and the model it returns still gives the point a positive likelihood, and every further piece of evidence that holds at the point a
positive probability. -/
theorem C121_possible (hM : EvidenceModel g r sc dom) {ops : List Op} (hS : Sensible g (sc r) ops) (hx : ∀ v ∈ sc r, x v ∈ (dom v).toSet)
    (hobs : ∀ E ∈ observations ops, E.Mem x) (hleft : (variablesAfter (sc r) ops).Nonempty) {l : ℝ} {m : Mem LogP}
    (hl : g.likelihood m x = .ok l) (hpos : 0 < l) :
    ∃ g', history dom g ops = .ok (some g') ∧ (∀ m', ∃ l', g'.likelihood m' x = .ok l' ∧ 0 < l') ∧
      ∀ F, EvidenceFor g (variablesAfter (sc r) ops) F → F.Mem x → ∃ p, 0 < p ∧ ∀ m', (g'.probability m' dom [F]).2 = .ok p := by
  have hne : (sc r).Nonempty := hleft.mono (variablesAfter_subset _ _)
  obtain ⟨g', r', sc', h1, hM', hsc, hev, h2⟩ := consistent_history ops hM hne hS hx hobs hleft hl hpos
  refine ⟨g', h1, h2, fun F hF hFx => ?_⟩
  obtain ⟨l', hl', hpos'⟩ := h2 freshMem
  refine evidence_positive hM' (hsc ▸ hev F hF) (fun v hv => hx v ?_) hFx hl' hpos'
  rw [hsc] at hv
  exact variablesAfter_subset _ _ hv

/-! ### Learned trees -/

open Learn.Jpt

/-- C121, full, for learned trees: whatever evidence a training row satisfies, the tree does not reject it, and it keeps the row possible. -/
def C121_full : Prop :=
  ∀ (S : Settings) (I : Impurity) (data : List Row), TreeInput S data →
    SplitContract I S.minImprovement (requiredSamples S.minSamplesLeaf data.length) → ∀ q st, fit S I data [] = (q, .ok st) →
    ∀ dom : Var → VSet, ColumnDomains S.columns dom → (∀ P, Column.continuous P ∈ S.columns → OneOpen (dom P.var)) →
    ∀ x ∈ data, ∀ p : Var → ℝ, (∀ ci ∈ S.columns.zipIdx, Agrees p x ci) →
    ∀ ops, ColumnSensible S.columns (S.columns.map columnVar).toFinset ops → (∀ E ∈ observations ops, E.Mem p) →
      (variablesAfter (S.columns.map columnVar).toFinset ops).Nonempty →
      ∃ g', history dom st.circuit ops = .ok (some g') ∧ ∀ m, ∃ l, g'.likelihood m p = .ok l ∧ 0 < l

variable {S : Settings} {I : Impurity} {data : List Row}

/-- The entries of a row are in the domains of the columns. -/
theorem agrees_domain (hdom : ColumnDomains S.columns dom) {y : Row} {p : Var → ℝ}
    (hp : ∀ ci ∈ S.columns.zipIdx, Agrees p y ci) {c : Column} (hc : c ∈ S.columns) : p (columnVar c) ∈ (dom (columnVar c)).toSet := by
  obtain ⟨i, hi, hci⟩ := List.mem_iff_getElem.1 hc
  have hm : (c, i) ∈ S.columns.zipIdx := by simp [List.mem_zipIdx_iff_getElem?, hi, hci]
  have ha := hp _ hm
  have hd := hdom.domain c hc
  cases c with
  | other v => exact ha.elim
  | continuous P => obtain ⟨J, hJ, hall⟩ := hd; rw [hJ]; exact hall _
  | integer v => obtain ⟨J, hJ, hall⟩ := hd; rw [hJ]; exact hall _
  | symbolic v dm =>
    obtain ⟨l, hl, hin⟩ := hd
    obtain ⟨e, he, _, hpe⟩ := ha
    change p v ∈ (dom v).toSet
    rw [hl, hpe]
    exact ⟨e.2, hin e he, rfl⟩

/-- **C121**, learned trees: if all evidence of a program holds for some training row, no call of the program returns `None`; the model at
the end gives the row a positive likelihood, and all further evidence that holds for the row a positive probability. -/
theorem C121_training_row_partial (h : TreeInput S data)
    (hI : SplitContract I S.minImprovement (requiredSamples S.minSamplesLeaf data.length)) {q : List Task} {st : State}
    (hfit : fit S I data [] = (q, .ok st)) (hh : ∀ x ∈ data, ∀ ci ∈ S.columns.zipIdx, HashesToItself x ci) {dom : Var → VSet}
    (hdom : ColumnDomains S.columns dom) (hline : ∀ P, Column.continuous P ∈ S.columns → OneOpen (dom P.var))
    (hdirac : ∀ P, Column.continuous P ∈ S.columns → ∀ n x c, st.circuit.kind? n ≠ some (.leaf (.dirac P.var x c)))
    {y : Row} (hy : y ∈ data) {p : Var → ℝ} (hp : ∀ ci ∈ S.columns.zipIdx, Agrees p y ci)
    {ops : List Op} (hops : ColumnSensible S.columns (S.columns.map columnVar).toFinset ops) (hobs : ∀ E ∈ observations ops, E.Mem p)
    (hleft : (variablesAfter (S.columns.map columnVar).toFinset ops).Nonempty) :
    ∃ g', history dom st.circuit ops = .ok (some g') ∧ (∀ m, ∃ l, g'.likelihood m p = .ok l ∧ 0 < l) ∧
      ∀ F, ColumnEvidence S.columns (variablesAfter (S.columns.map columnVar).toFinset ops) F → F.Mem p →
        ∃ pF, 0 < pF ∧ ∀ m, (g'.probability m dom [F]).2 = .ok pF := by
  obtain ⟨l, hpos, hl⟩ := C60_positive_partial h hI hfit hy hp (hh y hy)
  obtain ⟨st', E, hfit', hE⟩ := fit_ok h (minSamples_eq S data.length ▸ hI)
  rw [hfit] at hfit'
  simp only [Prod.mk.injEq, Except.ok.injEq] at hfit'
  obtain ⟨rfl, rfl⟩ := hfit'
  obtain ⟨sc, hM, hsc⟩ := tree_evidenceModel h hE hh hdom hline hdirac
  rw [← hsc] at hops hleft ⊢
  obtain ⟨g', h1, h2, h3⟩ := C121_possible hM (column_sensible h hE hops) (x := p) (fun v hv => by
    rw [hsc, List.mem_toFinset] at hv
    obtain ⟨c, hc, rfl⟩ := List.mem_map.1 hv
    exact agrees_domain hdom hp hc) hobs hleft (hl freshMem) hpos
  exact ⟨g', h1, h2, fun F hF hFp => h3 F (column_evidence_for h hE hF) hFp⟩

/-- The domain of a column. -/
noncomputable def domainOf : Column → VSet
  | .symbolic _ dm => .symbols (dm.map Prod.snd)
  | _ => realLine

/-- The columns of every tree have domains. -/
theorem columnDomains_exist (h : TreeInput S data) :
    ∃ dom, ColumnDomains S.columns dom ∧ ∀ P, Column.continuous P ∈ S.columns → OneOpen (dom P.var) := by
  have hex : ∃ dom : Var → VSet, (∀ c ∈ S.columns, dom (columnVar c) = domainOf c) ∧ ∀ v, dom v = realLine ∨ ∃ c ∈ S.columns, dom v = domainOf c := by
    have hnd := h.distinct
    generalize S.columns = l at hnd
    induction l with
    | nil => exact ⟨fun _ => realLine, by simp, fun _ => .inl rfl⟩
    | cons c l ih =>
      rw [List.map_cons, List.nodup_cons] at hnd
      obtain ⟨dom, h1, h2⟩ := ih hnd.2
      refine ⟨Function.update dom (columnVar c) (domainOf c), fun c' hc' => ?_, fun v => ?_⟩
      · rcases List.mem_cons.1 hc' with rfl | hc'
        · simp
        · have hne : columnVar c' ≠ columnVar c := fun heq => hnd.1 (heq ▸ List.mem_map_of_mem hc')
          rw [Function.update_of_ne hne]
          exact h1 c' hc'
      · by_cases hv : v = columnVar c
        · subst hv
          exact .inr ⟨c, by simp, by simp⟩
        · rw [Function.update_of_ne hv]
          exact (h2 v).imp_right fun ⟨c', h3, h4⟩ => ⟨c', by simp [h3], h4⟩
  obtain ⟨dom, h1, h2⟩ := hex
  refine ⟨dom, ⟨fun v => ?_, fun c hc => ?_⟩, fun P hP => ⟨_, _, h1 _ hP⟩⟩
  · rcases h2 v with h3 | ⟨c, hc, h3⟩
    · rw [h3]
      exact realLine_disjoint
    · rw [h3]
      obtain ⟨i, hi, hci⟩ := List.mem_iff_getElem.1 hc
      have hfit := h.columns (c, i) (by simp [List.mem_zipIdx_iff_getElem?, hi, hci])
      cases c with
      | symbolic u dm => exact hfit.2.1
      | _ => exact realLine_disjoint
  · have hd := h1 c hc
    have hall := fun x => Set.eq_univ_iff_forall.1 realLine_toSet x
    cases c with
    | other v => trivial
    | symbolic v dm => exact ⟨_, hd, fun e he => List.mem_map_of_mem he⟩
    | integer v => exact ⟨_, hd, fun x => hall x⟩
    | continuous P => exact ⟨_, hd, fun x => hall x⟩

/-- A tree that was learned from the integer -1 stores -2, so that the training row itself is impossible. -/
theorem C121_full_false : ¬ C121_full := by
  intro hall
  refine C60_full_false ?_
  intro S I data h hI q st hfit x hx p hp
  by_cases hc : S.columns = []
  · exact C60_positive_partial h hI hfit hx hp (by simp [hc])
  obtain ⟨dom, hdom, hline⟩ := columnDomains_exist h
  obtain ⟨c, hcm⟩ := List.exists_mem_of_ne_nil _ hc
  obtain ⟨g', h1, h2⟩ := hall S I data h hI q st hfit dom hdom hline x hx p hp [] trivial (by simp [observations])
    ⟨columnVar c, List.mem_toFinset.2 (List.mem_map_of_mem hcm)⟩
  cases h1
  obtain ⟨l, hl, hpos⟩ := h2 freshMem
  refine ⟨l, hpos, fun m => ?_⟩
  obtain ⟨st', E, hfit', hE⟩ := fit_ok h (minSamples_eq S data.length ▸ hI)
  rw [hfit] at hfit'
  simp only [Prod.mk.injEq, Except.ok.injEq] at hfit'
  obtain ⟨rfl, rfl⟩ := hfit'
  rw [tree_likelihood hE p] at hl ⊢
  exact hl

/-- Evidence about the symbol that holds for the second row: the program returns a model in which the integer of this row is possible. -/
example : ∃ q st g', fit symbolAndNumber firstSample [row 0, row 1, row 2] [] = (q, .ok st) ∧
    history symbolAndNumberDomain st.circuit [.given zeroOrOne, .onto {1}] = .ok (some g') ∧
    ∃ p, 0 < p ∧ ∀ m, (g'.probability m symbolAndNumberDomain [[(1, .interval [⟨(1 : ℝ), (1 : ℝ), .closed, .closed⟩])]]).2 = .ok p := by
  obtain ⟨st, r, hfit, _⟩ := C41_fit symbolAndNumber_input (symbolAndNumber_contract _)
  have hafter : variablesAfter (symbolAndNumber.columns.map columnVar).toFinset [.given zeroOrOne, .onto {1}] = {1} := by
    simp only [variablesAfter, symbolAndNumber, columnVar, List.map]
    decide
  obtain ⟨g', h1, _, h3⟩ := C121_training_row_partial symbolAndNumber_input (symbolAndNumber_contract _) hfit symbolAndNumber_hash
    symbolAndNumber_domains (by simp [symbolAndNumber]) (by simp [symbolAndNumber]) (y := row 1) (by simp) (p := fun _ => 1) (by
      intro ci hci
      simp only [symbolAndNumber, List.zipIdx_cons, List.zipIdx_nil, List.mem_cons, List.not_mem_nil, or_false] at hci
      rcases hci with rfl | rfl
      · exact ⟨(1, 1), by simp, rfl, by norm_num⟩
      · simp [Agrees, row]) zeroOrOne_program
    (by simp [observations, zeroOrOne, SimpleEvent.Mem, VSet.Mem]) (by rw [hafter]; simp)
  refine ⟨_, st, g', hfit, h1, h3 _ ⟨by simp [SimpleEvent.keys], ?_⟩ (by simp [SimpleEvent.Mem, VSet.Mem, SimpleInterval.Mem,
    SimpleInterval.leftOK, SimpleInterval.rightOK])⟩
  intro p hp
  rw [List.mem_singleton.1 hp, hafter]
  exact ⟨by simp, (.integer 1, 1), by simp [symbolAndNumber], rfl, setOf_point 1 1, .inl trivial⟩

end PM.Props
