import Verif.Props.PosteriorSupport
import Verif.Props.Mode
import Verif.Props.Commute
import Verif.Props.Plain
import Verif.Props.JptMode

/-! # C124: the mode after a program -/

namespace PM.Props
open Spec Graph Classical MeasureTheory

variable {g : Circuit} {r : Node} {sc : Node → Finset Var} {dom : Var → VSet}

theorem positive_entry {probs : List (ℤ × ℝ)} (h : (probs.map Prod.snd).sum = 1) : ∃ kp ∈ probs, 0 < kp.2 := by
  by_contra hc
  push Not at hc
  have : (probs.map Prod.snd).sum ≤ (probs.map fun _ => (0 : ℝ)).sum := List.sum_le_sum hc
  simp only [List.map_const', List.sum_replicate, smul_zero] at this
  linarith

/-- A leaf that is not normal has a maximum. -/
theorem attains_of_not_normal {d : Leaf} (hv : d.Valid) (hn : d.Normalized)
    (hno : (∀ v μ σ, d ≠ .gaussian v μ σ) ∧ ∀ v I μ σ, d ≠ .truncGaussian v I μ σ) : AttainsMax d := by
  have hm : HasMode d := by
    cases d with
    | symbolic v probs => exact positive_entry hn
    | integer v probs => exact positive_entry hn
    | truncGaussian v I μ σ => exact absurd rfl (hno.2 v I μ σ)
    | _ => trivial
  obtain ⟨A, L, -, -, hm⟩ := leaf_mode hv hm (fun x _ => x) (s := decide (∃ v probs, d = .symbolic v probs)) (by simp)
  obtain ⟨x, hx⟩ := hm.ne
  have hx := (hm.mem x).1 hx
  exact ⟨x, by rw [hx]; exact hm.pos, fun y => by rw [hx]; exact hm.le y⟩

/-- What `mode` answers for a model without normal leaves. -/
theorem model_mode (hM : EvidenceModel g r sc dom) (ho : Occupied g sc) (hno : NoNormal g) (next : ℝ → Bool → ℝ) (m : Mem Event)
    (m' : Mem (Event × LogP)) :
    ((g.isDeterministic m).2 = .ok false ∧ g.mode next m m' = .error .intractableError) ∨
    (g.isDeterministic m).2 = .ok true ∧ ∃ A p, g.mode next m m' = .ok (A, p) ∧ 0 < p ∧ (∃ x, A.Mem x) ∧
      ∀ x m₁, ∃ l, g.likelihood m₁ x = .ok l ∧ l ≤ p ∧ (A.Mem x ↔ l = p) := by
  have hp := products_of_occupied hM ho
  have ht := typed_of_domain hM
  obtain ⟨S, hS⟩ := exists_possiblePoints hM.layered.graded.acyclic
  obtain ⟨b, hb, _⟩ := C14_is_deterministic hM.layered hM.smooth hp ht hM.valid hS m
  cases b with
  | false => exact .inl ⟨hb, C15_intractable m hb next m'⟩
  | true =>
    obtain ⟨A, p, h1, h2, h3, h4⟩ := C15_mode_partial hM.layered hM.smooth hM.decomposable hp ht hM.valid
      (fun n d hk => attains_of_not_normal (hM.valid n d hk) (hM.leaves n d hk) (hno n d hk)) (fun n hk => by
        obtain ⟨c, hc⟩ := List.exists_mem_of_ne_nil _ (hM.smooth.sumNe n hk)
        obtain ⟨e, he, _⟩ : ∃ e ∈ g.outEdges n, e.dst = c := by simpa [succ, List.mem_map] using hc
        obtain ⟨w, hw⟩ := hM.positive n hk e he
        exact ⟨e, he, by rw [linWeight, hw]; exact Real.exp_pos w⟩) m hb next m'
    obtain ⟨f, hf, hlik⟩ := exists_lik hM
    exact .inr ⟨hb, A, p, h1, h2, h3, fun x m₁ => ⟨f x r, hlik x m₁, h4 x _ (hf x)⟩⟩

/-- **C124**: after any program of conditioning, marginalisation, simplification, normalisation, copying and reloading, `mode` raises
`IntractableError` if `is_deterministic` answers `False`.  Otherwise it returns the maximum of the likelihood of the model that is left with
exactly the points that attain it, at least one, and each of them is part of a point that was possible originally and satisfies all the
evidence. -/
theorem C124_mode (hM : EvidenceModel g r sc dom) (hp : ProductsNonempty g) (hno : NoNormal g) {ops : List Op} (hS : Sensible g (sc r) ops)
    {g' : Circuit} (hg : history dom g ops = .ok (some g')) (hleft : (variablesAfter (sc r) ops).Nonempty) (next : ℝ → Bool → ℝ)
    (m : Mem Event) (m' : Mem (Event × LogP)) :
    ((g'.isDeterministic m).2 = .ok false ∧ g'.mode next m m' = .error .intractableError) ∨
    (g'.isDeterministic m).2 = .ok true ∧ ∃ A p, g'.mode next m m' = .ok (A, p) ∧ 0 < p ∧ (∃ x, A.Mem x) ∧
      (∀ x m₁, ∃ l, g'.likelihood m₁ x = .ok l ∧ l ≤ p ∧ (A.Mem x ↔ l = p)) ∧
      ∀ x, A.Mem x → (∀ v ∈ variablesAfter (sc r) ops, x v ∈ (dom v).toSet) →
        ∃ y, (∀ v ∈ variablesAfter (sc r) ops, y v = x v) ∧ (∀ v ∈ sc r, y v ∈ (dom v).toSet) ∧ (∀ E ∈ observations ops, E.Mem y) ∧
          ∃ l, 0 < l ∧ ∀ m, g.likelihood m y = .ok l := by
  obtain ⟨res, h1, _, h2⟩ := history_spec ops hM (hleft.mono (variablesAfter_subset _ _)) hS
  rw [hg] at h1
  obtain ⟨r', sc', hM', _, _, _, _, ho', hn', _⟩ := h2 g' (Except.ok.inj h1).symm
  rcases model_mode hM' (ho' (occupied_of_products hM hp)) (hn' hno) next m m' with h | ⟨hd, A, p, a1, a2, a3, a4⟩
  · exact .inl h
  · refine .inr ⟨hd, A, p, a1, a2, a3, a4, fun x hx hdom => ?_⟩
    obtain ⟨l, hl, _, hiff⟩ := C122_possible hM hS hg hleft hdom freshMem
    obtain ⟨l', hl', _, hmem⟩ := a4 x freshMem
    rw [hl] at hl'
    obtain rfl := Except.ok.inj hl'
    exact hiff.1 (by rw [hmem.1 hx]; exact a2)

/-- Rewriting does not change the mode: if nothing is observed and no variable is dropped, and `mode` answers for the original model and for
the model that is left, both report the same maximum and the same points. -/
theorem C124_same_mode (hM : EvidenceModel g r sc dom) (hp : ProductsNonempty g) (hno : NoNormal g) (hne : (sc r).Nonempty) {ops : List Op}
    (hobs : observations ops = []) (hall : variablesAfter (sc r) ops = sc r) (hS : Sensible g (sc r) ops) {g' : Circuit}
    (hg : history dom g ops = .ok (some g')) {next next' : ℝ → Bool → ℝ} {m₁ m₂ : Mem Event} {m₁' m₂' : Mem (Event × LogP)} {A A' : Event}
    {p p' : ℝ} (h : g.mode next m₁ m₁' = .ok (A, p)) (h' : g'.mode next' m₂ m₂' = .ok (A', p')) :
    p' = p ∧ ∀ x, A'.Mem x ↔ A.Mem x := by
  rcases model_mode hM (occupied_of_products hM hp) hno next m₁ m₁' with ⟨_, h1⟩ | ⟨_, B, q, b1, _, ⟨x, hx⟩, b4⟩
  · rw [h] at h1
    cases h1
  rcases C124_mode hM hp hno hS hg (hall.symm ▸ hne) next' m₂ m₂' with ⟨_, h1⟩ | ⟨_, B', q', c1, _, ⟨y, hy⟩, c4, _⟩
  · rw [h'] at h1
    cases h1
  rw [h] at b1
  rw [h'] at c1
  cases b1
  cases c1
  have key : ∀ z, ∃ l, l ≤ p ∧ l ≤ p' ∧ (A.Mem z ↔ l = p) ∧ (A'.Mem z ↔ l = p') := by
    intro z
    obtain ⟨l, h1, h2⟩ := C109_likelihood hM hne hobs hall hg z freshMem freshMem
    obtain ⟨l₁, d1, d2, d3⟩ := b4 z freshMem
    obtain ⟨l₂, e1, e2, e3⟩ := c4 z freshMem
    rw [h2] at d1
    rw [h1] at e1
    cases d1
    cases e1
    exact ⟨l, d2, e2, d3, e3⟩
  have hpp : p' = p := by
    obtain ⟨l, _, k2, k3, _⟩ := key x
    obtain ⟨l', k1', _, _, k4'⟩ := key y
    exact le_antisymm ((k4'.1 hy) ▸ k1') ((k3.1 hx) ▸ k2)
  refine ⟨hpp, fun z => ?_⟩
  obtain ⟨l, _, _, k3, k4⟩ := key z
  rw [k3, k4, hpp]

/-! ### Learned trees -/

open Learn.Jpt

variable {S : Settings} {I : Impurity} {data : List Row}

theorem tree_noNormal (h : TreeInput S data) {st : State} {E : List Emitted} (hE : Inv S I data st [] E) : NoNormal st.circuit := by
  intro n d hk
  obtain ⟨⟨c, i⟩, -, hl⟩ := tree_leaves h hE n d hk
  cases c with
  | continuous P => rcases hl with ⟨_, _, _, _, rfl⟩ | ⟨_, _, rfl⟩ <;> simp
  | symbolic v domain => obtain ⟨_, rfl, _⟩ := hl; simp
  | integer v => obtain ⟨_, rfl⟩ := hl; simp
  | other v => exact hl.elim

/-- The most likely points of a learned tree after a program satisfy all the evidence and resemble, in every column, the training rows of one
leaf of the tree. -/
theorem C124_learned (h : TreeInput S data)
    (hI : SplitContract I S.minImprovement (requiredSamples S.minSamplesLeaf data.length)) {q : List Task} {st : State}
    (hfit : fit S I data [] = (q, .ok st)) (hh : ∀ x ∈ data, ∀ ci ∈ S.columns.zipIdx, HashesToItself x ci) {dom : Var → VSet}
    (hdom : ColumnDomains S.columns dom) (hline : ∀ P, Column.continuous P ∈ S.columns → OneOpen (dom P.var))
    (hdirac : ∀ P, Column.continuous P ∈ S.columns → ∀ n x c, st.circuit.kind? n ≠ some (.leaf (.dirac P.var x c)))
    {ops : List Op} (hops : ColumnSensible S.columns (S.columns.map columnVar).toFinset ops)
    (hleft : (variablesAfter (S.columns.map columnVar).toFinset ops).Nonempty) {g' : Circuit}
    (hres : history dom st.circuit ops = .ok (some g')) (next : ℝ → Bool → ℝ) (m : Mem Event) (m' : Mem (Event × LogP)) :
    ((g'.isDeterministic m).2 = .ok false ∧ g'.mode next m m' = .error .intractableError) ∨
    (g'.isDeterministic m).2 = .ok true ∧ ∃ A p, g'.mode next m m' = .ok (A, p) ∧ 0 < p ∧ (∃ x, A.Mem x) ∧
      (∀ x m₁, ∃ l, g'.likelihood m₁ x = .ok l ∧ l ≤ p ∧ (A.Mem x ↔ l = p)) ∧
      ∀ x, A.Mem x → ∃ y : Var → ℝ, (∀ v ∈ variablesAfter (S.columns.map columnVar).toFinset ops, y v = x v) ∧
        (∀ E ∈ observations ops, E.Mem y) ∧ ∃ idx ∈ leafSamples st, ∀ ci ∈ S.columns.zipIdx, Resembles y (trainingRows data idx) ci := by
  have hcols : S.columns ≠ [] := by
    rintro h0
    obtain ⟨v, hv⟩ := hleft
    simpa [h0] using variablesAfter_subset _ _ hv
  have hlearned := fun x => C122_learned_partial h hI hfit hh hdom hline hdirac hops hleft hres x freshMem
  obtain ⟨st', E, hfit', hE⟩ := fit_ok h (minSamples_eq S data.length ▸ hI)
  rw [hfit] at hfit'
  simp only [Prod.mk.injEq, Except.ok.injEq] at hfit'
  obtain ⟨rfl, rfl⟩ := hfit'
  obtain ⟨sc, hM, hsc⟩ := tree_evidenceModel h hE hh hdom hline hdirac
  rw [← hsc] at hops hleft hlearned ⊢
  obtain ⟨res, h1, _, h2⟩ := history_spec ops hM (hleft.mono (variablesAfter_subset _ _)) (column_sensible h hE hops)
  rw [hres] at h1
  obtain ⟨r', sc', hM', _, _, _, _, ho', hn', _⟩ := h2 g' (Except.ok.inj h1).symm
  rcases model_mode hM' (ho' (occupied_of_products hM (tree_facts h hcols hE).1)) (hn' (tree_noNormal h hE)) next m m' with
    h | ⟨hd, A, p, a1, a2, a3, a4⟩
  · exact .inl h
  · refine .inr ⟨hd, A, p, a1, a2, a3, a4, fun x hx => ?_⟩
    obtain ⟨l, hl, _, hiff⟩ := hlearned x
    obtain ⟨l', hl', _, hmem⟩ := a4 x freshMem
    rw [hl] at hl'
    obtain rfl := Except.ok.inj hl'
    exact hiff.1 (by rw [hmem.1 hx]; exact a2)

/-! ### Concrete inputs -/

/-- A tree, evidence and a marginal that meet all the hypotheses: whatever `mode` returns satisfies the evidence. -/
example : ∃ q st g', fit symbolAndNumber firstSample [row 0, row 1, row 2] [] = (q, .ok st) ∧
    history symbolAndNumberDomain st.circuit [.given zeroOrOne, .onto {1}] = .ok (some g') ∧
    ∀ next m m', g'.mode next m m' = .error .intractableError ∨
      ∃ A p, g'.mode next m m' = .ok (A, p) ∧ 0 < p ∧ (∃ x, A.Mem x) ∧ ¬ A.Mem fun _ => 5 := by
  obtain ⟨q, st, g', l, hfit, hres, hl, h1, h5⟩ := C122_example
  have hafter : variablesAfter (symbolAndNumber.columns.map columnVar).toFinset [.given zeroOrOne, .onto {1}] = {1} := by
    simp only [variablesAfter, symbolAndNumber, columnVar, List.map]
    decide
  refine ⟨q, st, g', hfit, hres, fun next m m' => ?_⟩
  rcases C124_learned symbolAndNumber_input (symbolAndNumber_contract _) hfit symbolAndNumber_hash symbolAndNumber_domains
    (by simp [symbolAndNumber]) (by simp [symbolAndNumber]) zeroOrOne_program (by rw [hafter]; simp) hres next m m' with
    h | ⟨_, A, p, a1, a2, a3, a4, _⟩
  · exact .inl h.2
  · refine .inr ⟨A, p, a1, a2, a3, fun hA => ?_⟩
    obtain ⟨l', k1, _, k2⟩ := a4 (fun _ => 5) freshMem
    rw [h5] at k1
    have := k2.1 hA
    rw [← Except.ok.inj k1] at this
    exact a2.ne this

/-- A tree of different integers is deterministic, so its mode is returned and is an entry of the data. -/
example : ∃ q st g', fit (oneInteger ⊤) firstSample [row 3, row 5, row 7] [] = (q, .ok st) ∧
    history (fun _ => numbers) st.circuit [] = .ok (some g') ∧
    ∀ next m m', ∃ A p, g'.mode next m m' = .ok (A, p) ∧ 0 < p ∧ ∃ x, A.Mem x ∧ (x 0 = 3 ∨ x 0 = 5 ∨ x 0 = 7) := by
  have h := oneInteger_input ⊤ (data := [row 3, row 5, row 7]) (by simp)
  obtain ⟨st, r, hfit, _, _, hpart, _⟩ := C41_fit h (oneInteger_contract ⊤ _)
  refine ⟨[], st, st.circuit, hfit, rfl, fun next m m' => ?_⟩
  have hdet := C111_deterministic_partial h (by simp [oneInteger]) (oneInteger_contract ⊤ _)
    (firstSample_separating (by simp [row])) (by
      intro ci hci
      simp only [oneInteger, List.zipIdx_cons, List.zipIdx_nil, List.mem_singleton] at hci
      subst hci
      simp [NoHashClash, row]) hfit m
  rcases C124_learned h (oneInteger_contract ⊤ _) hfit (by
      intro x hx ci hci
      simp only [oneInteger, List.zipIdx_cons, List.zipIdx_nil, List.mem_cons, List.not_mem_nil, or_false] at hx hci
      subst hci
      rcases hx with rfl | rfl | rfl <;> simp [HashesToItself, row]) (dom := fun _ => numbers) ⟨fun v => by
        simp [VSet.Disjoint, numbers, SimpleInterval.IsEmpty], by
        intro c hc
        simp only [oneInteger, List.mem_singleton] at hc
        subst hc
        refine ⟨_, rfl, fun x => ⟨_, List.mem_singleton_self _, ?_⟩⟩
        simp [SimpleInterval.Mem, SimpleInterval.leftOK, SimpleInterval.rightOK]⟩ (by simp [oneInteger]) (by simp [oneInteger]) (ops := []) trivial
        (by simp [variablesAfter, oneInteger]) rfl next m m' with ⟨h0, _⟩ | ⟨_, A, p, a1, a2, ⟨x, hx⟩, _, a5⟩
  · rw [hdet] at h0
    cases h0
  · refine ⟨A, p, a1, a2, x, hx, ?_⟩
    obtain ⟨y, y1, _, idx, hidx, y3⟩ := a5 x hx
    have h0 := y1 0 (by simp [variablesAfter, oneInteger, columnVar])
    obtain ⟨z, hz, hyz⟩ := y3 (.integer 0, 0) (by simp [oneInteger])
    obtain ⟨i, hi, rfl⟩ := List.mem_map.1 hz
    have hi3 : i < 3 := by simpa using hpart.mem_iff.1 (List.mem_flatten.2 ⟨idx, hidx, hi⟩)
    rw [← h0]
    simp only [Agrees] at hyz
    rw [hyz]
    interval_cases i <;> simp [row]

/-! ### A marginal can make the mode intractable -/

/-- Two boxes that differ in variable 0 only. -/
noncomputable def besideBoxes : Circuit where
  nodes := [(0, .sum), (1, .prod), (2, .prod), (3, .leaf (.uniform 0 0 1 .closed .closed)), (4, .leaf (.uniform 1 0 1 .closed .closed)),
    (5, .leaf (.uniform 0 2 3 .closed .closed)), (6, .leaf (.uniform 1 0 1 .closed .closed))]
  edges := [⟨0, 1, Ex.lw (1 / 2)⟩, ⟨0, 2, Ex.lw (1 / 2)⟩, ⟨1, 3, none⟩, ⟨1, 4, none⟩, ⟨2, 5, none⟩, ⟨2, 6, none⟩]

def besideBoxesScope : Node → Finset Var := fun n => if n ≤ 2 then {0, 1} else if n = 4 ∨ n = 6 then {1} else {0}

/-- The marginal of `besideBoxes` over variable 1. -/
noncomputable def besideBoxesSide : Circuit where
  nodes := [(0, .sum), (4, .leaf (.uniform 1 0 1 .closed .closed)), (6, .leaf (.uniform 1 0 1 .closed .closed))]
  edges := [⟨0, 4, Ex.lw (1 / 2)⟩, ⟨0, 6, Ex.lw (1 / 2)⟩]

theorem besideBoxes_leaves {Q : Node → Leaf → Prop} (h3 : Q 3 (.uniform 0 0 1 .closed .closed)) (h4 : Q 4 (.uniform 1 0 1 .closed .closed))
    (h5 : Q 5 (.uniform 0 2 3 .closed .closed)) (h6 : Q 6 (.uniform 1 0 1 .closed .closed)) :
    ∀ n d, besideBoxes.kind? n = some (.leaf d) → Q n d := fun n d h =>
  Ex.forall_kind (P := fun n k => ∀ d, k = .leaf d → Q n d) (by
    simp only [besideBoxes, List.mem_cons, List.not_mem_nil, or_false, forall_eq_or_imp, forall_eq, Kind.leaf.injEq, reduceCtorEq,
      false_implies, implies_true, true_and, forall_eq']
    exact ⟨h3, h4, h5, h6⟩) n _ h d rfl

theorem besideBoxes_leaf {Q : Leaf → Prop} (h1 : Q (.uniform 0 0 1 .closed .closed)) (h2 : Q (.uniform 1 0 1 .closed .closed))
    (h3 : Q (.uniform 0 2 3 .closed .closed)) : ∀ n d, besideBoxes.kind? n = some (.leaf d) → Q d :=
  besideBoxes_leaves (Q := fun _ d => Q d) h1 h2 h3 h2

theorem besideBoxes_succ : besideBoxes.succ 0 = [1, 2] ∧ besideBoxes.succ 1 = [3, 4] ∧ besideBoxes.succ 2 = [5, 6] := ⟨rfl, rfl, rfl⟩

theorem besideBoxes_nodes : besideBoxes.nodes = [(0, .sum), (1, .prod), (2, .prod), (3, .leaf (.uniform 0 0 1 .closed .closed)),
    (4, .leaf (.uniform 1 0 1 .closed .closed)), (5, .leaf (.uniform 0 2 3 .closed .closed)), (6, .leaf (.uniform 1 0 1 .closed .closed))] := rfl

theorem besideBoxes_out : besideBoxes.outEdges 0 = [⟨0, 1, Ex.lw (1 / 2)⟩, ⟨0, 2, Ex.lw (1 / 2)⟩] := rfl

theorem besideBoxes_model : EvidenceModel besideBoxes 0 besideBoxesScope fun _ => realLine where
  layered := ⟨⟨by decide, by simp [besideBoxes], by simp [besideBoxes, ids], by simp [besideBoxes, ids]⟩,
    ⟨fun n => if n = 0 then 0 else if n ≤ 2 then 1 else 2, by simp [besideBoxes]⟩,
    Ex.leafTerminal_of (by simp [besideBoxes, succ, outEdges]),
    Ex.weighted_of (by simp [besideBoxes, outEdges, Ex.lw]), by simp [root, besideBoxes, ids, inDegree, inEdges]⟩
  smooth := by
    obtain ⟨h0, h1, h2⟩ := besideBoxes_succ
    refine Ex.scoped_of ?_ ?_ ?_ <;> simp [besideBoxes_nodes, h0, h1, h2, besideBoxesScope, Leaf.var]
  decomposable := by
    obtain ⟨h0, h1, h2⟩ := besideBoxes_succ
    refine Ex.decomposable_of ?_
    simp [besideBoxes_nodes, h1, h2, besideBoxesScope]
  valid := besideBoxes_leaf (by norm_num [Leaf.Valid]) (by norm_num [Leaf.Valid]) (by norm_num [Leaf.Valid])
  positive := Ex.positive_of (by simp [besideBoxes, outEdges, Ex.lw])
  normalized := Ex.normalized_of (by
    simp (disch := norm_num) [besideBoxes_nodes, besideBoxes_out, Ex.linWeight_lw, -one_div])
  leaves := besideBoxes_leaf trivial trivial trivial
  tree := by simp [TreeShaped, besideBoxes]
  domain := ⟨fun _ => realLine_disjoint, besideBoxes_leaf (by simp [Fits, realLine]) (by simp [Fits, realLine]) (by simp [Fits, realLine]),
    fun n d h => by simp [realLine_toSet]⟩
  noDirac := besideBoxes_leaf (by simp) (by simp) (by simp)
  line := fun _ _ _ _ => ⟨_, _, rfl⟩

theorem besideBoxes_copy : besideBoxes.copy = besideBoxes := by
  simp [besideBoxes, copy, copyAt, edgeView, ids, outEdges, Ex.lw]

theorem besideBoxes_marginal : besideBoxes.copy.marginalInPlace {1} = .ok (some besideBoxesSide) := by
  rw [besideBoxes_copy, marginal_eq besideBoxes_model.layered besideBoxes_model.smooth,
    if_pos (keeps_iff_not_disjoint.2 (by simp [besideBoxesScope]))]
  generalize hg' : besideBoxes.induced (keeps besideBoxesScope {1}) = g'
  have hg : g' = ⟨[(0, .sum), (1, .prod), (2, .prod), (4, .leaf (.uniform 1 0 1 .closed .closed)),
      (6, .leaf (.uniform 1 0 1 .closed .closed))],
      [⟨0, 1, Ex.lw (1 / 2)⟩, ⟨0, 2, Ex.lw (1 / 2)⟩, ⟨1, 4, none⟩, ⟨2, 6, none⟩]⟩ := by subst hg'; rfl
  have h0 : g'.root = .ok 0 := by subst hg; rfl
  have h1 : g'.bottomUp 0 = [4, 6, 1, 2, 0] := by subst hg; rfl
  simp only [simplify, h0, h1]
  subst hg
  rfl

theorem besideBoxes_sum {n : Node} (h : besideBoxes.kind? n = some .sum) : n = 0 :=
  Ex.forall_kind (P := fun n k => k = Kind.sum → n = 0) (by simp [besideBoxes]) n _ h rfl

theorem besideBoxes_products : ProductsNonempty besideBoxes := fun n h =>
  Ex.forall_kind (g := besideBoxes) (P := fun n k => k = Kind.prod → besideBoxes.succ n ≠ []) (by
    simp [besideBoxes_nodes, besideBoxes_succ]) n _ h rfl

theorem besideBoxes_deterministic (m : Mem Event) : (besideBoxes.isDeterministic m).2 = .ok true := by
  have hM := besideBoxes_model
  obtain ⟨S, hS⟩ := exists_possiblePoints hM.layered.graded.acyclic
  obtain ⟨b, hb, hiff⟩ := C14_is_deterministic hM.layered hM.smooth besideBoxes_products (typed_of_domain hM) hM.valid hS m
  rw [hb, hiff.2]
  intro n hk
  obtain rfl := besideBoxes_sum hk
  rw [besideBoxes_succ.1]
  simp only [List.pairwise_cons, List.mem_singleton, forall_eq, List.not_mem_nil, false_implies, implies_true, List.Pairwise.nil, and_true]
  rintro x ⟨h1, h2⟩
  have h3 := (hS.leaf 3 _ rfl x).1 ((hS.prod 1 rfl x).1 h1 3 (by rw [besideBoxes_succ.2.1]; simp))
  have h5 := (hS.leaf 5 _ rfl x).1 ((hS.prod 2 rfl x).1 h2 5 (by rw [besideBoxes_succ.2.2]; simp))
  have inside : ∀ {v : Var} {a b t : ℝ}, 0 < leafDensity (.uniform v a b .closed .closed) t → a ≤ t ∧ t ≤ b := by
    intro v a b t h
    by_contra hc
    rw [leafDensity, if_neg (fun h' => hc ⟨EReal.coe_le_coe_iff.1 h'.1, EReal.coe_le_coe_iff.1 h'.2⟩)] at h
    exact lt_irrefl _ h
  have h6 := (inside h3).2
  have h7 := (inside h5).1
  simp only [Leaf.var] at h6 h7
  linarith

/-- The other side of C124: a marginal can turn a deterministic model into one whose mode is refused. -/
theorem C124_marginal_intractable : ∃ (g : Circuit) (r : Node) (sc : Node → Finset Var) (dom : Var → VSet) (g' : Circuit),
    EvidenceModel g r sc dom ∧ ProductsNonempty g ∧ NoNormal g ∧ (∀ m, (g.isDeterministic m).2 = .ok true) ∧
    history dom g [.onto {1}] = .ok (some g') ∧ ∀ next m m', g'.mode next m m' = .error .intractableError := by
  have hno : NoNormal besideBoxes := besideBoxes_leaf (by simp) (by simp) (by simp)
  have hres : history (fun _ => realLine) besideBoxes [.onto {1}] = .ok (some besideBoxesSide) := by
    rw [Spec.history, Op.apply, besideBoxes_marginal]
    rfl
  refine ⟨besideBoxes, 0, besideBoxesScope, fun _ => realLine, besideBoxesSide, besideBoxes_model, besideBoxes_products, hno, besideBoxes_deterministic, hres,
    fun next m m' => ?_⟩
  have hM := besideBoxes_model
  obtain ⟨res, h1, _, h2⟩ := history_spec [.onto {1}] hM (by simp [besideBoxesScope]) trivial
  rw [hres] at h1
  obtain ⟨r', sc', hM', _, _, _, _, ho', hn', _⟩ := h2 _ (Except.ok.inj h1).symm
  obtain ⟨S, hS⟩ := exists_possiblePoints hM'.layered.graded.acyclic
  obtain ⟨b, hb, hiff⟩ := C14_is_deterministic hM'.layered hM'.smooth
    (products_of_occupied hM' (ho' (occupied_of_products hM besideBoxes_products))) (typed_of_domain hM') hM'.valid hS m
  cases b with
  | false => exact C15_intractable m hb next m'
  | true =>
    have := hiff.1 rfl 0 rfl
    rw [show besideBoxesSide.succ 0 = [4, 6] from rfl] at this
    simp only [List.pairwise_cons, List.mem_singleton, forall_eq, List.not_mem_nil, false_implies, implies_true, List.Pairwise.nil, and_true]
      at this
    refine absurd ⟨(hS.leaf 4 _ rfl fun _ => 1 / 2).2 ?_, (hS.leaf 6 _ rfl fun _ => 1 / 2).2 ?_⟩ (this fun _ => 1 / 2)
    all_goals
      rw [leafDensity, if_pos]
      · norm_num
      · constructor
        · show ((0 : ℝ) : EReal) ≤ ((1 / 2 : ℝ) : EReal)
          exact EReal.coe_le_coe_iff.2 (by norm_num)
        · show ((1 / 2 : ℝ) : EReal) ≤ ((1 : ℝ) : EReal)
          exact EReal.coe_le_coe_iff.2 (by norm_num)

/-- `besideBoxes` and copies of it meet the hypotheses: the mode is returned. -/
example (next : ℝ → Bool → ℝ) (m : Mem Event) (m' : Mem (Event × LogP)) :
    history (fun _ => realLine) besideBoxes [.copy, .copy] = .ok (some besideBoxes) ∧
    ∃ A p, besideBoxes.mode next m m' = .ok (A, p) ∧ 0 < p ∧ ∃ x, A.Mem x := by
  constructor
  · rw [Spec.history, Op.apply, besideBoxes_copy]
    show Spec.history _ besideBoxes [.copy] = _
    rw [Spec.history, Op.apply, besideBoxes_copy]
    rfl
  · rcases model_mode besideBoxes_model (occupied_of_products besideBoxes_model besideBoxes_products)
      (besideBoxes_leaf (by simp) (by simp) (by simp)) next m m' with ⟨h, _⟩ | ⟨_, A, p, h1, h2, h3, _⟩
    · rw [besideBoxes_deterministic] at h
      cases h
    · exact ⟨A, p, h1, h2, h3⟩

end PM.Props
