import Verif.Circuit.SampleLemmas
import Verif.Props.Queries
import Verif.Props.Probability
import Verif.Props.ExampleTools

/-!
# C18: `sample` fills every cell of the array exactly once
-/

namespace PM.Props
open Graph Spec

/-- After the pass every unit is served, and the cells are written as often as they were requested from the root. -/
theorem sample_spec {g : Circuit} {r : Node} (hL : Layered g r) {sc : Node → Finset Var} (hs : Scoped g sc) (hde : Decomposable g sc)
    (hn : NormalizedSums g) {draws : Outcomes} (hp : Possible g draws) (amount : ℕ) :
    ∃ s : Requests × List Write, g.sample draws amount = .ok s.2 ∧ (∀ w ∈ s.2, Genuine g draws amount w) ∧
      (∀ ρ v, writesTo s.2 ρ v = if ρ < amount ∧ v ∈ sc r then 1 else 0) ∧ (∀ ρ < amount, Active s.1 ρ r) ∧
      ∀ n, g.Reachable r n → Served g s n := by
  have hri := (root_mem hL.root).1
  have hO := ordered_topDown hL
  have hmem : ∀ n, n ∈ g.topDown r ↔ g.Reachable r n := fun n => mem_layersFrom_iff hL.wf hL.graded hri
  have hr0 : ∀ m, m ≠ r → pushAll (fun _ => []) [(r, 0, amount)] m = [] := by
    intro m hm
    simp [pushAll, Ne.symm hm]
  have hrr : pushAll (fun _ => []) [(r, 0, amount)] r = [(0, amount)] := by simp [pushAll]
  obtain ⟨s, h1, h2, h3, h4, h5, h6, h7⟩ := samplePass_ok (rows := amount) hs hde hL.weighted hn hp (g.topDown r) hO
    (fun n hn => reachable_mem_ids hL.wf hri ((hmem n).1 hn)) (pushAll (fun _ => []) [(r, 0, amount)], []) (by
      intro m q hq
      by_cases hm : m = r
      · subst hm; simp only [hrr] at hq; simp at hq; subst hq; simp
      · simp [hr0 m hm] at hq)
  refine ⟨s, ?_, h5 (by simp), ?_, ?_, fun n hr => h7 n ((hmem n).2 hr)⟩
  · simp only [sample, circuitVars_eq hL.wf hL.graded.acyclic hs hL.root, hL.root, bind, Except.bind, h1]
  · intro ρ v
    rw [h6 ρ v]
    have hnil : pending sc v ρ (fun _ => []) (g.topDown r) = 0 := by
      unfold pending
      apply List.sum_eq_zero
      intro x hx
      obtain ⟨n, _, rfl⟩ := List.mem_map.1 hx
      simp
    rw [pending_pushAll sc v ρ hO.nodup (by
      intro p hp'
      rw [List.mem_singleton] at hp'; subst hp'
      exact (hmem r).2 Relation.ReflTransGen.refl), hnil]
    simp [wanted, writesTo, covers, and_comm]
  · intro ρ hρ
    refine ⟨(0, amount), h3 r _ (by simp [hrr]), ?_⟩
    rw [covers_iff]; simpa using hρ

/-- **C18, cells.** For every layered, smooth, decomposable circuit with normalised sum units, every `amount` and all outcomes of the
random choices: `sample(amount)` succeeds; each cell `(ρ, v)` with `ρ < amount` and `v` a variable of the circuit is written exactly once
and no other cell is ever written; every write is done by a leaf over the variable of the column, with a value this leaf sampled. -/
theorem C18_cells {g : Circuit} {r : Node} (hL : Layered g r) {sc : Node → Finset Var} (hs : Scoped g sc) (hde : Decomposable g sc)
    (hn : NormalizedSums g) {draws : Outcomes} (hp : Possible g draws) (amount : ℕ) :
    ∃ log vs, g.sample draws amount = .ok log ∧ g.circuitVars = .ok vs ∧
      (∀ ρ v, (log.filter fun w => w.row == ρ && w.var == v).length = if ρ < amount ∧ v ∈ vs then 1 else 0) ∧
      (∀ w ∈ log, ∃ d, g.kind? w.leaf = some (.leaf d) ∧ d.var = w.var ∧ ∃ k a i, i < a ∧ w.value = draws.value w.leaf k a i) ∧
      ∀ ρ v, (cell log ρ v).isSome ↔ ρ < amount ∧ v ∈ vs := by
  obtain ⟨s, h1, h2, h3, -, -⟩ := sample_spec hL hs hde hn hp amount
  have hlen : ∀ ρ v, (s.2.filter fun w => w.row == ρ && w.var == v).length = if ρ < amount ∧ v ∈ sc r then 1 else 0 := by
    intro ρ v
    rw [← h3 ρ v, writesTo, List.countP_eq_length_filter]
  refine ⟨s.2, sc r, h1, circuitVars_eq hL.wf hL.graded.acyclic hs hL.root, hlen, fun w hw => (h2 w hw).2, ?_⟩
  intro ρ v
  have h := hlen ρ v
  rw [cell]
  by_cases hc : ρ < amount ∧ v ∈ sc r
  · rw [if_pos hc] at h
    obtain ⟨w, hw⟩ := List.length_eq_one_iff.1 h
    simp [hw, hc]
  · rw [if_neg hc] at h
    rw [List.length_eq_zero_iff] at h
    simp [h, hc]

/-- **C18, likelihood.** If moreover the leaves are valid and sample inside their supports, every row of the array has positive
likelihood. -/
theorem C18_positive {g : Circuit} {r : Node} (hL : Layered g r) {sc : Node → Finset Var} (hs : Scoped g sc) (hde : Decomposable g sc)
    (hn : NormalizedSums g) (hv : ∀ n d, g.kind? n = some (.leaf d) → d.Valid) {draws : Outcomes} (hp : Possible g draws)
    (hin : InSupport g draws) (amount : ℕ) {log : List Write} (hlog : g.sample draws amount = .ok log) {vs : Finset Var}
    (hvs : g.circuitVars = .ok vs) {ρ : ℕ} (hρ : ρ < amount) (x : Var → ℝ) (hx : ∀ v ∈ vs, cell log ρ v = some (x v)) (m : Mem LogP) :
    (∃ p, g.likelihood m x = .ok p ∧ 0 < p) ∧ ∃ L, (g.logLikelihood m x).2 = .ok L ∧ L ≠ .negInf := by
  obtain ⟨s, h1, h2, h3, h4, h5⟩ := sample_spec hL hs hde hn hp amount
  rw [hlog] at h1; injection h1 with h1; subst h1
  rw [circuitVars_eq hL.wf hL.graded.acyclic hs hL.root] at hvs; injection hvs with hvs; subst hvs
  obtain ⟨f, hf⟩ := exists_circuitValue hL.graded.acyclic (g := g) (fun d => leafDensity d (x d.var))
  have hri := (root_mem hL.root).1
  have hpos : ∀ n, g.Reachable r n → Active s.1 ρ n → 0 < f n := by
    refine hL.graded.acyclic.induct (P := fun n => g.Reachable r n → Active s.1 ρ n → 0 < f n) ?_
    intro n ih hr ha
    have hsv := h5 n hr
    obtain ⟨k, hk⟩ := exists_kind? (reachable_mem_ids hL.wf hri hr)
    cases k with
    | leaf d =>
      rw [hf.leaf n d hk]
      obtain ⟨w, hw, hrow, hvar, hleaf⟩ := hsv.leaf d hk ρ ha
      obtain ⟨-, d', hd', -, k, a, i, hi, hval⟩ := h2 w hw
      have hcount : 0 < writesTo s.2 ρ d.var := List.countP_pos_iff.2 ⟨w, hw, by simp [hrow, hvar]⟩
      have h1w := h3 ρ d.var
      split at h1w
      · rename_i hc
        rw [writesTo, List.countP_eq_length_filter] at h1w
        obtain ⟨w', hw'⟩ := List.length_eq_one_iff.1 h1w
        have hww : w ∈ s.2.filter fun w => w.row == ρ && w.var == d.var := List.mem_filter.2 ⟨hw, by simp [hrow, hvar]⟩
        rw [hw', List.mem_singleton] at hww
        have := hx d.var hc.2
        rw [cell, hw'] at this
        simp only [List.getLast?_singleton, Option.map_some, Option.some.injEq] at this
        rw [← this, ← hww, hval, hleaf]
        exact hin n d k a i hk hi
      · omega
    | sum =>
      obtain ⟨e, he, hwt, hac⟩ := hsv.sum hk ρ ha
      rw [hf.sum n hk]
      have hsucc : e.dst ∈ g.succ n := List.mem_map.2 ⟨e, he, rfl⟩
      have hfe := ih e.dst hsucc (hr.tail hsucc) hac
      have hnn : ∀ m ∈ g.ids, 0 ≤ f m := fun m hm =>
        circuitValue_nonneg hL.wf hL.graded.acyclic hf (fun n d hd => by
          have := exp_logLik (hv n d hd) (x d.var)
          rw [← this]; exact LogP.exp_nonneg _) m hm
      refine lt_of_lt_of_le (mul_pos hwt hfe) (List.single_le_sum ?_ _ (List.mem_map.2 ⟨e, he, rfl⟩))
      intro y hy
      obtain ⟨e', he', rfl⟩ := List.mem_map.1 hy
      exact mul_nonneg (linWeight_nonneg' e') (hnn _ (hL.wf.dstMem e' (mem_outEdges.1 he').1))
    | prod =>
      rw [hf.prod n hk]
      have := hsv.prod hk ρ ha
      apply List.prod_pos
      intro y hy
      obtain ⟨e, he, rfl⟩ := List.mem_map.1 hy
      have hsucc : e.dst ∈ g.succ n := List.mem_map.2 ⟨e, he, rfl⟩
      exact ih e.dst hsucc (hr.tail hsucc) (this _ hsucc)
  have hfr := hpos r Relation.ReflTransGen.refl (h4 ρ hρ)
  obtain ⟨L, l1, l2, l3, l4⟩ := C01_loglikelihood hL hs hv x hf m
  exact ⟨⟨_, l4, hfr⟩, L, l1, fun h => hfr.ne' (l3.1 h)⟩

/-- Outcomes for the circuit `Ex.dag`: a third of the rows (rounded down) goes to the first mixture component, the components are
shuffled for every second request, and all leaves sample a point of their support. -/
noncomputable def dagOutcomes : Outcomes where
  counts _ _ a := [a / 3, a - a / 3]
  order _ k := if k % 2 = 0 then [1, 0] else [0, 1]
  value n _ _ _ := if n = 5 then 3 else 1 / 2

theorem dagOutcomes_possible : Possible Ex.dag dagOutcomes := by
  have h0 : ∀ n, Ex.dag.kind? n = some .sum → n = 0 := fun n h =>
    Ex.forall_kind (P := fun n k => k = .sum → n = 0) (by simp [Ex.dag_nodes]) n _ h rfl
  have hout : Ex.dag.outEdges 0 = [⟨0, 1, some (.fin (Real.log (1 / 4)))⟩, ⟨0, 2, some (.fin (Real.log (3 / 4)))⟩] := by
    simp [outEdges, Ex.dag]
  refine ⟨?_, ?_, ?_, ?_⟩
  · intro n k a h; rw [h0 n h, hout]; rfl
  · intro n k a h; simp [dagOutcomes]; omega
  · intro n k a i e h he hz
    rw [h0 n h, hout] at he
    have : e ∈ [(⟨0, 1, some (.fin (Real.log (1 / 4)))⟩ : Edge), ⟨0, 2, some (.fin (Real.log (3 / 4)))⟩] := List.mem_of_getElem? he
    simp only [List.mem_cons, List.not_mem_nil, or_false] at this
    rcases this with rfl | rfl <;> simp [linWeight] at hz
  · intro n k h
    rw [h0 n h, hout]
    simp only [dagOutcomes, List.length_cons, List.length_nil]
    split
    · exact List.Perm.swap 0 1 []
    · exact List.Perm.refl _

/-- The hypotheses of `C18_cells` and `C18_positive` are met by `Ex.dag` (whose leaf `3` gets two requests) and `dagOutcomes`. -/
example : ∃ log, Ex.dag.sample dagOutcomes 7 = .ok log ∧ ∀ ρ < 7, ∀ x : Var → ℝ, (∀ v ∈ ({0, 1} : Finset Var), cell log ρ v = some (x v)) →
    ∃ p, Ex.dag.likelihood freshMem x = .ok p ∧ 0 < p := by
  obtain ⟨log, vs, h1, h2, h3, h4, h5⟩ := C18_cells Ex.dag_layered Ex.dag_scoped Ex.dag_decomposable dag_normalized.1
    dagOutcomes_possible 7
  have hin : InSupport Ex.dag dagOutcomes := by
    intro n d k a i hd hi
    have := Ex.forall_kind (g := Ex.dag) (P := fun n k => ∀ d, k = .leaf d → 0 < leafDensity d (dagOutcomes.value n 0 0 0)) (by
      simp only [Ex.dag_nodes, List.mem_cons, List.not_mem_nil, or_false, forall_eq_or_imp, forall_eq]
      refine ⟨by simp, by simp, by simp, ?_, ?_, ?_⟩ <;> rintro d ⟨⟩
      · rw [Ex.uniform_inside] <;> norm_num [dagOutcomes]
      · rw [leafDensity, if_pos]
        · norm_num
        · refine ⟨EReal.coe_le_coe_iff.2 ?_, EReal.coe_lt_coe_iff.2 ?_⟩ <;> norm_num [dagOutcomes]
      · rw [Ex.uniform_inside] <;> norm_num [dagOutcomes]) n _ hd d rfl
    exact this
  refine ⟨log, h1, fun ρ hρ x hx => ?_⟩
  have hvs : vs = {0, 1} := by
    have := circuitVars_eq Ex.dag_layered.wf Ex.dag_layered.graded.acyclic Ex.dag_scoped Ex.dag_layered.root
    rw [h2] at this; injection this
  subst hvs
  exact (C18_positive Ex.dag_layered Ex.dag_scoped Ex.dag_decomposable dag_normalized.1 Ex.dag_valid dagOutcomes_possible hin 7 h1 h2
    hρ x hx freshMem).1

end PM.Props
