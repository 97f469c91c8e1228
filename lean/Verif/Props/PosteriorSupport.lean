import Verif.Props.Posterior
import Verif.Props.Support
import Verif.Props.JptMode

/-! # C123: the support after a program is the part of the support before it that satisfies the evidence -/

namespace PM.Props
open Spec Graph Classical MeasureTheory

variable {g : Circuit} {r : Node} {sc : Node → Finset Var} {dom : Var → VSet} {x : Var → ℝ}

theorem occupied_of_products (hM : EvidenceModel g r sc dom) (hp : ProductsNonempty g) : Occupied g sc := by
  refine hM.layered.graded.acyclic.induct ?_
  intro n ih hn
  obtain ⟨k, hk⟩ := exists_kind? hn
  cases k with
  | leaf d => rw [hM.smooth.leaf n d hk]; exact Finset.singleton_nonempty _
  | sum =>
    obtain ⟨c, hc⟩ := List.exists_mem_of_ne_nil _ (hM.smooth.sumNe n hk)
    rw [← hM.smooth.sum n hk c hc]
    exact ih c hc (succ_mem_ids hM.layered.wf hc)
  | prod =>
    obtain ⟨c, hc⟩ := List.exists_mem_of_ne_nil _ (hp n hk)
    obtain ⟨v, hv⟩ := ih c hc (succ_mem_ids hM.layered.wf hc)
    exact ⟨v, (hM.smooth.prod n hk v).2 ⟨c, hc, hv⟩⟩

theorem products_of_occupied (hM : EvidenceModel g r sc dom) (ho : Occupied g sc) : ProductsNonempty g := fun n hk h0 => by
  obtain ⟨v, hv⟩ := ho n (mem_ids_of_kind? hk)
  obtain ⟨c, hc, _⟩ := (hM.smooth.prod n hk v).1 hv
  rw [h0] at hc
  cases hc

theorem typed_of_domain (hM : EvidenceModel g r sc dom) :
    Typed g fun v => match dom v with | .symbols _ => true | .interval _ => false := by
  intro n d hk
  have hf := hM.domain.fits n d hk
  beta_reduce
  generalize dom d.var = A at hf ⊢
  cases A <;> cases d <;> simp_all [Fits]

/-- The support is the set of possible points. -/
theorem support_possible (hM : EvidenceModel g r sc dom) (ho : Occupied g sc) (m : Mem Event) :
    ∃ A, (g.support m).2 = .ok A ∧ ∀ x m l, g.likelihood m x = .ok l → (A.Mem x ↔ 0 < l) := by
  obtain ⟨f, hf, hlik⟩ := exists_lik hM
  obtain ⟨A, h1, h2, h3⟩ := C13_support hM.layered hM.smooth (products_of_occupied hM ho) (typed_of_domain hM) hM.valid m
  refine ⟨A, h1, fun x m l hl => ?_⟩
  rw [hlik] at hl
  rw [← Except.ok.inj hl]
  exact ⟨h3 hM.positive x _ (hf x), h2 x _ (hf x)⟩

/-- **C123**: after any program of conditioning, marginalisation, simplification, normalisation, copying and reloading `support` can be
computed, and a point over the variables that are left is in it exactly if it is part of a point of the support of the original model that
satisfies all the evidence. -/
theorem C123_support (hM : EvidenceModel g r sc dom) (hp : ProductsNonempty g) {ops : List Op} (hS : Sensible g (sc r) ops) {g' : Circuit}
    (hg : history dom g ops = .ok (some g')) (hleft : (variablesAfter (sc r) ops).Nonempty) (m m' : Mem Event) :
    ∃ A A', (g.support m).2 = .ok A ∧ (g'.support m').2 = .ok A' ∧
      ∀ x : Var → ℝ, (∀ v ∈ variablesAfter (sc r) ops, x v ∈ (dom v).toSet) →
        (A'.Mem x ↔ ∃ y, (∀ v ∈ variablesAfter (sc r) ops, y v = x v) ∧ (∀ v ∈ sc r, y v ∈ (dom v).toSet) ∧
          (∀ E ∈ observations ops, E.Mem y) ∧ A.Mem y) := by
  have ho := occupied_of_products hM hp
  obtain ⟨res, h1, _, h2⟩ := history_spec ops hM (hleft.mono (variablesAfter_subset _ _)) hS
  rw [hg] at h1
  obtain ⟨r', sc', hM', hsc, _, _, _, ho', _⟩ := h2 g' (Except.ok.inj h1).symm
  obtain ⟨A, a1, a2⟩ := support_possible hM ho m
  obtain ⟨A', b1, b2⟩ := support_possible hM' (ho' ho) m'
  refine ⟨A, A', a1, b1, fun x hx => ?_⟩
  obtain ⟨l, hl, _, hiff⟩ := C122_possible hM hS hg hleft hx freshMem
  rw [b2 x _ l hl, hiff]
  obtain ⟨f, hf, hlik⟩ := exists_lik hM
  refine exists_congr fun y => and_congr_right fun _ => and_congr_right fun _ => and_congr_right fun _ => ?_
  rw [a2 y _ _ (hlik y freshMem)]
  constructor
  · rintro ⟨k, hk, hk'⟩
    have := hk' freshMem
    rw [hlik] at this
    rwa [Except.ok.inj this]
  · exact fun h => ⟨_, h, hlik y⟩

/-- Everything that is left in the support agrees with what was observed about the variables that are left. -/
theorem C123_agrees (hM : EvidenceModel g r sc dom) (hp : ProductsNonempty g) {ops : List Op} (hS : Sensible g (sc r) ops) {g' : Circuit}
    (hg : history dom g ops = .ok (some g')) (hleft : (variablesAfter (sc r) ops).Nonempty) (m : Mem Event) {A' : Event}
    (hA : (g'.support m).2 = .ok A') (hx : ∀ v ∈ variablesAfter (sc r) ops, x v ∈ (dom v).toSet) (hmem : A'.Mem x) :
    ∀ E ∈ observations ops, ∀ p ∈ E, p.1 ∈ variablesAfter (sc r) ops → p.2.Mem (x p.1) := by
  obtain ⟨A, A₁, _, h1, h2⟩ := C123_support hM hp hS hg hleft freshMem m
  rw [hA] at h1
  obtain rfl := Except.ok.inj h1
  obtain ⟨y, i1, _, i3, _⟩ := (h2 x hx).1 hmem
  intro E hE p hpE hv
  rw [← i1 _ hv]
  exact i3 E hE p hpE

/-! ### Learned trees -/

open Learn.Jpt

variable {S : Settings} {I : Impurity} {data : List Row}

/-- The support of a learned tree after a program: the points that can be completed such that they satisfy all the evidence and resemble, in
every column, the training rows of one leaf of the tree. -/
theorem C123_learned (h : TreeInput S data)
    (hI : SplitContract I S.minImprovement (requiredSamples S.minSamplesLeaf data.length)) {q : List Task} {st : State}
    (hfit : fit S I data [] = (q, .ok st)) (hh : ∀ x ∈ data, ∀ ci ∈ S.columns.zipIdx, HashesToItself x ci) {dom : Var → VSet}
    (hdom : ColumnDomains S.columns dom) (hline : ∀ P, Column.continuous P ∈ S.columns → OneOpen (dom P.var))
    (hdirac : ∀ P, Column.continuous P ∈ S.columns → ∀ n x c, st.circuit.kind? n ≠ some (.leaf (.dirac P.var x c)))
    {ops : List Op} (hops : ColumnSensible S.columns (S.columns.map columnVar).toFinset ops)
    (hleft : (variablesAfter (S.columns.map columnVar).toFinset ops).Nonempty) {g' : Circuit}
    (hres : history dom st.circuit ops = .ok (some g')) (m : Mem Event) :
    ∃ A, (g'.support m).2 = .ok A ∧ ∀ x : Var → ℝ, A.Mem x ↔
      ∃ y : Var → ℝ, (∀ v ∈ variablesAfter (S.columns.map columnVar).toFinset ops, y v = x v) ∧
        (∀ E ∈ observations ops, E.Mem y) ∧ ∃ idx ∈ leafSamples st, ∀ ci ∈ S.columns.zipIdx, Resembles y (trainingRows data idx) ci := by
  have hcols : S.columns ≠ [] := by
    rintro h0
    obtain ⟨v, hv⟩ := hleft
    simpa [h0] using variablesAfter_subset _ _ hv
  have hlearned := fun x => C122_learned_partial h hI hfit hh hdom hline hdirac hops hleft hres x freshMem
  obtain ⟨st', E, hfit', hE⟩ := fit_ok h (minSamples_eq S data.length ▸ hI)
  rw [hfit] at hfit'
  simp only [Prod.mk.injEq, Except.ok.injEq] at hfit'
  obtain ⟨rfl, rfl⟩ := hfit'
  obtain ⟨sc, hM, hsc⟩ := tree_evidenceModel h hE hh hdom hline hdirac
  rw [← hsc] at hops hleft hlearned ⊢
  obtain ⟨res, h1, _, h2⟩ := history_spec ops hM (hleft.mono (variablesAfter_subset _ _)) (column_sensible h hE hops)
  rw [hres] at h1
  obtain ⟨r', sc', hM', _, _, _, _, ho', _⟩ := h2 g' (Except.ok.inj h1).symm
  obtain ⟨A, b1, b2⟩ := support_possible hM' (ho' (occupied_of_products hM (tree_facts h hcols hE).1)) m
  refine ⟨A, b1, fun x => ?_⟩
  obtain ⟨l, hl, _, hiff⟩ := hlearned x
  rw [b2 x _ l hl, hiff]

/-- A tree over a symbol and an integer, conditioned on the symbol being 0 or 1 and then reduced to the integer: its support can be computed,
and contains 1 but not 5. -/
example : ∃ q st g' A, fit symbolAndNumber firstSample [row 0, row 1, row 2] [] = (q, .ok st) ∧
    history symbolAndNumberDomain st.circuit [.given zeroOrOne, .onto {1}] = .ok (some g') ∧
    (g'.support freshMem).2 = .ok A ∧ A.Mem (fun _ => 1) ∧ ¬ A.Mem (fun _ => 5) := by
  obtain ⟨q, st, g', l, hfit, hres, hl, h1, h5⟩ := C122_example
  have hafter : variablesAfter (symbolAndNumber.columns.map columnVar).toFinset [.given zeroOrOne, .onto {1}] = {1} := by
    simp only [variablesAfter, symbolAndNumber, columnVar, List.map]
    decide
  obtain ⟨A, a1, a2⟩ := C123_learned symbolAndNumber_input (symbolAndNumber_contract _) hfit symbolAndNumber_hash
    symbolAndNumber_domains (by simp [symbolAndNumber]) (by simp [symbolAndNumber]) zeroOrOne_program (by rw [hafter]; simp) hres freshMem
  have hlearned := fun x => C122_learned_partial symbolAndNumber_input (symbolAndNumber_contract _) hfit symbolAndNumber_hash
    symbolAndNumber_domains (by simp [symbolAndNumber]) (by simp [symbolAndNumber]) zeroOrOne_program (by rw [hafter]; simp) hres
    x freshMem
  refine ⟨q, st, g', A, hfit, hres, a1, ?_, ?_⟩
  · obtain ⟨l', k1, _, k2⟩ := hlearned (fun _ => 1)
    rw [h1] at k1
    rw [a2, ← k2, ← Except.ok.inj k1]
    exact hl
  · obtain ⟨l', k1, _, k2⟩ := hlearned (fun _ => 5)
    rw [h5] at k1
    rw [a2, ← k2, ← Except.ok.inj k1]
    exact lt_irrefl _

end PM.Props
