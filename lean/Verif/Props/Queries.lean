import Verif.Props.Examples
import Verif.Dist.LeafLemmas

/-!
# C01, C02, C03, C21: what a query returns

* C01: the log-likelihood is the logarithm of the mixture/product formula.
* C02: a pass returns the recursively defined value — on layered circuits; false on other acyclic circuits.
* C03: results do not depend on earlier queries.
* C21: the root.
-/

namespace PM.Props

open Spec Graph

/-! ### C01 -/

/-- **C01.** For every layered smooth circuit, every point `x` and whatever earlier queries left in the units:
`log_likelihood(x)` returns (without error) a number whose exponential is the mixture/product formula `f` of the
leaf densities at `x`; it is `-inf` exactly if that number is `0`; and `likelihood(x)` is that number. -/
theorem C01_loglikelihood {g : Circuit} {r : Node} (hL : Layered g r) {sc : Node → Finset Var} (hs : Scoped g sc)
    (hv : ∀ n d, g.kind? n = some (.leaf d) → d.Valid) (x : Var → ℝ) {f : Node → ℝ}
    (hf : CircuitValue g (fun d => leafDensity d (x d.var)) f) (m : Mem LogP) :
    ∃ L, (g.logLikelihood m x).2 = .ok L ∧ L.exp = f r ∧ (L = .negInf ↔ f r = 0) ∧ g.likelihood m x = .ok (f r) := by
  have hf' : CircuitValue g (fun d => (d.logLik (x d.var)).exp) f :=
    ⟨fun n d h => by rw [hf.leaf n d h, exp_logLik (hv n d h)], hf.sum, hf.prod⟩
  have hri := (root_mem hL.root).1
  have hnn := circuitValue_nonneg hL.wf hL.graded.acyclic hf' (fun n d _ => LogP.exp_nonneg _) r hri
  have hq : (g.logLikelihood m x).2 = .ok (LogP.log (f r)) := by
    simp only [logLikelihood, circuitVars_eq hL.wf hL.graded.acyclic hs hL.root]
    exact (query_eq_meaning hL.wf hL.graded hL.root (logLik_meaning hL hs x hf') m).1
  refine ⟨_, hq, LogP.exp_log hnn, LogP.log_eq_negInf hnn, ?_⟩
  rw [likelihood, hq]
  simp [Except.map, LogP.exp_log hnn]

/-- Such an `f` always exists and is unique on the units of the circuit. -/
theorem C01_formula_exists_unique {g : Circuit} {r : Node} (hL : Layered g r) (x : Var → ℝ) :
    (∃ f, CircuitValue g (fun d => leafDensity d (x d.var)) f) ∧
    ∀ f f', CircuitValue g (fun d => leafDensity d (x d.var)) f → CircuitValue g (fun d => leafDensity d (x d.var)) f' →
      f r = f' r :=
  ⟨exists_circuitValue hL.graded.acyclic _, fun _ _ h h' =>
    circuitValue_unique hL.wf hL.graded.acyclic h h' r (root_mem hL.root).1⟩

/-- The hypotheses of C01 are met by the mixture `Ex.dag` (which shares a leaf). -/
example : Layered Ex.dag 0 ∧ Scoped Ex.dag Ex.dagScope ∧ ∀ n d, Ex.dag.kind? n = some (.leaf d) → d.Valid :=
  ⟨Ex.dag_layered, Ex.dag_scoped, Ex.dag_valid⟩

/-! ### C02 -/

/-- **C02, the full statement**: on every acyclic single-root circuit a query returns the recursively defined value of
the root, for every kind of query. -/
def C02_full : Prop := ∀ (V : Type) (g : Circuit) (A : Alg Leaf V) (r : Node), g.WF → g.Acyclic → g.LeafTerminal →
  g.root = .ok r → ∀ v, Eval g A r v → (g.query A freshMem).2 = .ok v

/-- **C02, proved part**: on layered circuits a query succeeds with `v` exactly if `v` is the recursively defined
value of the root — for every rule (log-likelihood, probability, cdf, …) and every earlier memory.  Missing: circuits
with paths of different length to the same unit, for which it is false (`C02_full_false`). -/
theorem C02_pass_eq_recursion_partial {D V : Type} {g : Graph D} {r : Node} (hL : Layered g r) (A : Alg D V) (m : Mem V)
    (v : V) : (g.query A m).2 = .ok v ↔ Eval g A r v :=
  query_iff_eval hL.wf hL.graded hL.leaves hL.root m v

example : Layered Ex.dag 0 := Ex.dag_layered

/-- `0: ⊕ → 1: ⊕, 2: U₀[0,1]`, `1 → 2`: the unit `2` is one and two steps below the root. -/
noncomputable def skip : Circuit where
  nodes := [(0, .sum), (1, .sum), (2, .leaf (.uniform 0 0 1 .closed .closed))]
  edges := [⟨0, 1, some (.fin (Real.log (1 / 2)))⟩, ⟨0, 2, some (.fin (Real.log (1 / 2)))⟩, ⟨1, 2, some (.fin 0)⟩]

theorem skip_wf : skip.WF := ⟨by decide, by decide, by simp [skip, ids], by simp [skip, ids]⟩
theorem skip_acyclic : skip.Acyclic := ⟨fun n => 2 - n, by simp [skip]⟩
theorem skip_root : skip.root = .ok 0 := by simp [root, skip, ids, inDegree, inEdges]
theorem skip_leafTerminal : skip.LeafTerminal := fun n d h => by
  have := Ex.forall_kind (g := skip) (P := fun n k => ∀ d, k = .leaf d → skip.succ n = [])
    (by simp [skip, succ, outEdges]) n _ h
  exact this d rfl

theorem skip_order : skip.bottomUp 0 = [1, 2, 0] := rfl

/-- On `skip`, `log_likelihood` of a fresh circuit raises `TypeError`, at every point. -/
theorem skip_fails (x : Var → ℝ) : (skip.logLikelihood freshMem x).2 = .error .typeError := by
  have hv : skip.circuitVars = .ok {0} := by
    simp only [circuitVars, skip_root]
    rfl
  simp only [logLikelihood, hv, query, skip_root, skip_order]
  rfl

theorem C02_full_false : ¬ C02_full := by
  intro h
  have hE : Eval skip (forwardAlg fun _ => .ok 1) 0 1 := by
    have h2 : Eval skip (forwardAlg fun _ => .ok 1) 2 1 := .leaf (d := .uniform 0 0 1 .closed .closed) rfl rfl
    have h1 : Eval skip (forwardAlg fun _ => .ok 1) 1 1 := by
      refine .sum (fun _ => 1) rfl ?_ (by simp [skip, outEdges]) ?_
      · intro c hc
        have : skip.succ 1 = [2] := rfl
        rw [this] at hc
        simp only [List.mem_singleton] at hc
        subst hc
        exact h2
      · simp [skip, outEdges, forwardAlg]
    refine .sum (fun _ => 1) rfl ?_ (by simp [skip, outEdges]) ?_
    · intro c hc
      have : skip.succ 0 = [1, 2] := rfl
      rw [this] at hc
      simp only [List.mem_cons, List.not_mem_nil, or_false] at hc
      rcases hc with rfl | rfl
      · exact h1
      · exact h2
    · simp only [skip, outEdges, forwardAlg, List.filter_cons, List.filter_nil]
      have h12 : Real.exp (-Real.log 2) = 1 / 2 := by rw [Real.exp_neg, Real.exp_log (by norm_num)]; norm_num
      simp [h12]
      norm_num
  have := h ℝ skip (forwardAlg fun _ => .ok 1) 0 skip_wf skip_acyclic skip_leafTerminal skip_root 1 hE
  simp only [query, skip_root, skip_order] at this
  cases this

/-! ### C03 -/

/-- **C03.** On a layered circuit every query of a session returns what it returns on a freshly built circuit, for
every finite history of queries of any kinds (`V` is the type of everything units may store). -/
theorem C03_history_independent {D V : Type} {g : Graph D} {r : Node} (hL : Layered g r) (As : List (Alg D V))
    (m : Mem V) : (g.session As m).2 = As.map fun A => (g.query A freshMem).2 := by
  induction As generalizing m with
  | nil => rfl
  | cons A As ih =>
    simp only [session, List.map_cons]
    rw [ih, query_indep hL.wf hL.graded m freshMem]

/-- ... in particular for the API call `log_likelihood` after any state of the units. -/
theorem C03_loglikelihood_indep {g : Circuit} {r : Node} (hL : Layered g r) (x : Var → ℝ) (m₁ m₂ : Mem LogP) :
    (g.logLikelihood m₁ x).2 = (g.logLikelihood m₂ x).2 := by
  unfold logLikelihood
  cases g.circuitVars with
  | error e => rfl
  | ok vs => exact query_indep hL.wf hL.graded m₁ m₂

example : Layered Ex.dag 0 := Ex.dag_layered

/-- The circuit `skip` before the sum units were added. -/
noncomputable def skipLeaf : Circuit := { nodes := [(2, .leaf (.uniform 0 0 1 .closed .closed))], edges := [] }

/-- Without layering it fails: ask the leaf for the density at `2`, then put the sum units on top and ask for the
density at `1/2`.  The answer is `1/2` instead of `1`, because unit `1` reads the stale result of the leaf. -/
theorem C03_stale_read : ((skip.logLikelihood (skipLeaf.logLikelihood freshMem (fun _ => 2)).1 (fun _ => 1 / 2)).2)
    = .ok (LogP.log (1 / 2)) ∧ Eval skip (logLikAlg {0} (fun _ => 1 / 2)) 0 (LogP.log 1) := by
  have hlo : ((0 : ℝ) : EReal) ≤ ((1 / 2 : ℝ) : EReal) := by exact_mod_cast (by norm_num : (0 : ℝ) ≤ 1 / 2)
  have hhi : ((1 / 2 : ℝ) : EReal) ≤ ((1 : ℝ) : EReal) := by exact_mod_cast (by norm_num : (1 / 2 : ℝ) ≤ 1)
  have h21 : ¬ ((2 : ℝ) : EReal) ≤ ((1 : ℝ) : EReal) := by
    intro h
    have : (2 : ℝ) ≤ 1 := by exact_mod_cast h
    norm_num at this
  have hin : (Leaf.uniform 0 0 1 .closed .closed).logLik (1 / 2) = .fin 0 := by
    simp only [Leaf.logLik]
    rw [if_pos (show SimpleInterval.leftOK .closed ((0 : ℝ) : EReal) ((1 / 2 : ℝ) : EReal) ∧
      SimpleInterval.rightOK .closed ((1 : ℝ) : EReal) ((1 / 2 : ℝ) : EReal) from ⟨hlo, hhi⟩)]; simp
  have hout : (Leaf.uniform 0 0 1 .closed .closed).logLik 2 = .negInf := by
    simp only [Leaf.logLik]
    rw [if_neg (show ¬ (SimpleInterval.leftOK .closed ((0 : ℝ) : EReal) ((2 : ℝ) : EReal) ∧
      SimpleInterval.rightOK .closed ((1 : ℝ) : EReal) ((2 : ℝ) : EReal)) from fun h => h21 h.2)]
  have hv : skip.circuitVars = .ok {0} := by
    simp only [circuitVars, skip_root]; rfl
  have hrl : skipLeaf.root = .ok 2 := by simp [root, skipLeaf, ids, inDegree, inEdges]
  have hvl : skipLeaf.circuitVars = .ok {0} := by
    simp only [circuitVars, hrl]; rfl
  have hm : (skipLeaf.logLikelihood freshMem (fun _ => 2)).1 2 = some .negInf := by
    have ho : skipLeaf.bottomUp 2 = [2] := rfl
    have hk : skipLeaf.kind? 2 = some (.leaf (.uniform 0 0 1 .closed .closed)) := rfl
    simp only [logLikelihood, hvl, query, hrl, ho, passLoop, evalUnit, hk, logLikAlg]
    simp [Leaf.var, hout, Mem.set]
  constructor
  · generalize (skipLeaf.logLikelihood freshMem (fun _ => 2)).1 = m at hm
    have hk0 : skip.kind? 0 = some .sum := rfl
    have hk1 : skip.kind? 1 = some .sum := rfl
    have hk2 : skip.kind? 2 = some (.leaf (.uniform 0 0 1 .closed .closed)) := rfl
    have e1 : skip.evalUnit (logLikAlg {0} fun _ => 1 / 2) m 1 = .ok .negInf := by
      have ho : skip.outEdges 1 = [⟨1, 2, some (.fin 0)⟩] := rfl
      simp only [evalUnit, hk1, succ, ho]
      have : readResult m 2 = .ok .negInf := by simp [readResult, hm]
      have hw : List.mapM readWeight [⟨1, 2, some (.fin 0)⟩] = .ok [.fin 0] := rfl
      have hr : List.mapM (readResult m) [2] = .ok [.negInf] := by
        simp only [List.mapM_cons, this, List.mapM_nil]; rfl
      simp only [List.map_cons, List.map_nil, hw, hr]
      show (logLikAlg {0} fun _ => 1 / 2).sum [(.fin 0, .negInf)] = _
      simp [logLikAlg, LogP.logsumexp]
    have e2 : ∀ m, skip.evalUnit (logLikAlg {0} fun _ => 1 / 2) m 2 = .ok (.fin 0) := by
      intro m
      simp only [evalUnit, hk2, logLikAlg, Leaf.var]
      simp only [Finset.mem_singleton, if_true, hin]
    simp only [logLikelihood, hv, query, skip_root, skip_order, passLoop, e1, e2]
    have e0 : skip.evalUnit (logLikAlg {0} fun _ => 1 / 2) ((m.set 1 .negInf).set 2 (.fin 0)) 0
        = .ok (LogP.log (1 / 2)) := by
      have ho : skip.outEdges 0 = [⟨0, 1, some (.fin (Real.log (1 / 2)))⟩, ⟨0, 2, some (.fin (Real.log (1 / 2)))⟩] := rfl
      simp only [evalUnit, hk0, succ, ho]
      show (logLikAlg {0} fun _ => 1 / 2).sum [(.fin (Real.log (1 / 2)), .negInf), (.fin (Real.log (1 / 2)), .fin 0)] = _
      simp only [logLikAlg, reduceCtorEq, if_false, LogP.logsumexp, List.map_cons,
        List.map_nil, LogP.add_negInf, LogP.exp_negInf, LogP.fin_add_fin, LogP.exp_fin, List.sum_cons, List.sum_nil]
      rw [add_zero, add_zero, zero_add, Real.exp_log (by norm_num)]
    simp only [e0]
    simp [readResult, Mem.set]
  · have h2 : Eval skip (logLikAlg {0} fun _ => 1 / 2) 2 (.fin 0) := by
      refine .leaf (d := .uniform 0 0 1 .closed .closed) rfl ?_
      simp only [logLikAlg, Leaf.var, Finset.mem_singleton, if_true, hin]
    have h1 : Eval skip (logLikAlg {0} fun _ => 1 / 2) 1 (.fin 0) := by
      refine .sum (fun _ => .fin 0) rfl ?_ (by simp [skip, outEdges]) ?_
      · intro c hc
        have : skip.succ 1 = [2] := rfl
        rw [this] at hc
        simp only [List.mem_singleton] at hc
        subst hc
        exact h2
      · simp only [logLikAlg, skip, outEdges, List.filter_cons, List.filter_nil]
        simp [LogP.logsumexp, LogP.zero_def, show LogP.log 1 = .fin 0 from LogP.log_one]
    rw [LogP.log_one]
    refine .sum (fun _ => .fin 0) rfl ?_ (by simp [skip, outEdges]) ?_
    · intro c hc
      have : skip.succ 0 = [1, 2] := rfl
      rw [this] at hc
      simp only [List.mem_cons, List.not_mem_nil, or_false] at hc
      rcases hc with rfl | rfl
      · exact h1
      · exact h2
    · simp only [logLikAlg, skip, outEdges, List.filter_cons, List.filter_nil]
      have h12 : Real.exp (-Real.log 2) = 1 / 2 := by rw [Real.exp_neg, Real.exp_log (by norm_num)]; norm_num
      simp [LogP.logsumexp, h12]
      norm_num [← LogP.zero_def]

/-! ### C21 -/

/-- **C21.** `root` returns `r` exactly if `r` is the only unit no edge points to. -/
theorem C21_root_ok {D : Type} {g : Graph D} (hw : g.WF) (r : Node) :
    g.root = .ok r ↔ r ∈ g.ids ∧ (∀ e ∈ g.edges, e.dst ≠ r) ∧
      ∀ n ∈ g.ids, (∀ e ∈ g.edges, e.dst ≠ n) → n = r := by
  have hin : ∀ n, g.inEdges n = [] ↔ ∀ e ∈ g.edges, e.dst ≠ n := by
    intro n; simp [inEdges, List.filter_eq_nil_iff]
  constructor
  · intro h
    obtain ⟨h1, h2⟩ := root_mem h
    exact ⟨h1, (hin r).1 h2, fun n hn h0 => root_unique h hn ((hin n).2 h0)⟩
  · rintro ⟨h1, h2, h3⟩
    have hmem : ∀ n, n ∈ g.ids.filter (fun n => g.inDegree n == 0) ↔ n = r := by
      intro n
      simp only [List.mem_filter, inDegree, beq_iff_eq, List.length_eq_zero_iff, hin]
      exact ⟨fun h => h3 n h.1 h.2, fun h => h ▸ ⟨h1, h2⟩⟩
    have hnd : (g.ids.filter (fun n => g.inDegree n == 0)).Nodup := hw.nodup.filter _
    unfold root
    generalize g.ids.filter (fun n => g.inDegree n == 0) = l at hmem hnd
    match l with
    | [] => exact absurd ((hmem r).2 rfl) (by simp)
    | [a] => rw [(hmem a).1 (by simp)]
    | a :: b :: _ =>
      have ha := (hmem a).1 (by simp)
      have hb := (hmem b).1 (by simp)
      subst ha; subst hb
      simp at hnd

/-- **C21.** Several parentless units: `ValueError`. -/
theorem C21_root_valueError {D : Type} {g : Graph D} (hw : g.WF) :
    g.root = .error .valueError ↔ ∃ a ∈ g.ids, ∃ b ∈ g.ids, a ≠ b ∧ (∀ e ∈ g.edges, e.dst ≠ a ∧ e.dst ≠ b) := by
  have hin : ∀ n, g.inEdges n = [] ↔ ∀ e ∈ g.edges, e.dst ≠ n := by
    intro n; simp [inEdges, List.filter_eq_nil_iff]
  have hmem : ∀ n, n ∈ g.ids.filter (fun n => g.inDegree n == 0) ↔ n ∈ g.ids ∧ ∀ e ∈ g.edges, e.dst ≠ n := by
    intro n
    simp only [List.mem_filter, inDegree, beq_iff_eq, List.length_eq_zero_iff, hin]
  have hnd : (g.ids.filter (fun n => g.inDegree n == 0)).Nodup := hw.nodup.filter _
  unfold root
  generalize g.ids.filter (fun n => g.inDegree n == 0) = l at hmem hnd
  match l with
  | [] =>
    simp only [reduceCtorEq, Except.error.injEq, false_iff]
    rintro ⟨a, ha, b, _, _, h⟩
    exact absurd ((hmem a).2 ⟨ha, fun e he => (h e he).1⟩) (by simp)
  | [r] =>
    simp only [reduceCtorEq, false_iff]
    rintro ⟨a, ha, b, hb, hab, h⟩
    have h1 := (hmem a).2 ⟨ha, fun e he => (h e he).1⟩
    have h2 := (hmem b).2 ⟨hb, fun e he => (h e he).2⟩
    simp only [List.mem_singleton] at h1 h2
    exact hab (h1.trans h2.symm)
  | a :: b :: rest =>
    simp only [true_iff]
    have h1 := (hmem a).1 (by simp)
    have h2 := (hmem b).1 (by simp)
    refine ⟨a, h1.1, b, h2.1, ?_, fun e he => ⟨h1.2 e he, h2.2 e he⟩⟩
    rintro rfl
    simp at hnd

/-- **C21.** No parentless unit: `IndexError`; `root` raises nothing else. -/
theorem C21_root_indexError {D : Type} {g : Graph D} :
    (g.root = .error .indexError ↔ ∀ n ∈ g.ids, ∃ e ∈ g.edges, e.dst = n) ∧
    ∀ err, g.root = .error err → err = .indexError ∨ err = .valueError := by
  have hin : ∀ n, g.inEdges n = [] ↔ ∀ e ∈ g.edges, e.dst ≠ n := by
    intro n; simp [inEdges, List.filter_eq_nil_iff]
  have hmem : ∀ n, n ∈ g.ids.filter (fun n => g.inDegree n == 0) ↔ n ∈ g.ids ∧ ∀ e ∈ g.edges, e.dst ≠ n := by
    intro n
    simp only [List.mem_filter, inDegree, beq_iff_eq, List.length_eq_zero_iff, hin]
  unfold root
  generalize g.ids.filter (fun n => g.inDegree n == 0) = l at hmem
  match l with
  | [] =>
    refine ⟨⟨fun _ n hn => ?_, fun _ => rfl⟩, fun err h => by cases h; exact .inl rfl⟩
    by_contra hc
    push Not at hc
    exact absurd ((hmem n).2 ⟨hn, hc⟩) (by simp)
  | [r] =>
    refine ⟨⟨fun h => by simp at h, fun h => ?_⟩, fun err h => by simp at h⟩
    have h1 := (hmem r).1 (by simp)
    obtain ⟨e, he, hd⟩ := h r h1.1
    exact absurd hd (h1.2 e he)
  | a :: b :: rest =>
    refine ⟨⟨fun h => by simp at h, fun h => ?_⟩, fun err h => by cases h; exact .inr rfl⟩
    have h1 := (hmem a).1 (by simp)
    obtain ⟨e, he, hd⟩ := h a h1.1
    exact absurd hd (h1.2 e he)

/-- **C21.** A non-empty acyclic circuit has a parentless unit, so `root` never raises `IndexError` on it. -/
theorem C21_root_exists {D : Type} {g : Graph D} (hw : g.WF) (ha : g.Acyclic) (hne : g.ids ≠ []) :
    ∃ n ∈ g.ids, ∀ e ∈ g.edges, e.dst ≠ n := by
  obtain ⟨rank, hr⟩ := ha
  obtain ⟨n, hn, hmax⟩ : ∃ n ∈ g.ids, ∀ k ∈ g.ids, rank k ≤ rank n := by
    generalize g.ids = l at hne
    induction l with
    | nil => exact absurd rfl hne
    | cons a l ih =>
      by_cases hl : l = []
      · subst hl; exact ⟨a, by simp, by simp⟩
      · obtain ⟨n, hn, hmax⟩ := ih hl
        by_cases h : rank a ≤ rank n
        · refine ⟨n, by simp [hn], fun k hk => ?_⟩
          rcases List.mem_cons.1 hk with rfl | hk
          · exact h
          · exact hmax k hk
        · refine ⟨a, by simp, fun k hk => ?_⟩
          rcases List.mem_cons.1 hk with rfl | hk
          · exact le_rfl
          · have := hmax k hk; omega
  refine ⟨n, hn, fun e he hd => ?_⟩
  have h1 := hr e he
  have h2 := hmax _ (hw.srcMem e he)
  rw [hd] at h1
  omega

example : Ex.dag.WF ∧ Ex.dag.Acyclic ∧ Ex.dag.ids ≠ [] ∧ Ex.dag.root = .ok 0 :=
  ⟨Ex.dag_layered.wf, Ex.dag_layered.graded.acyclic, by decide, Ex.dag_layered.root⟩

end PM.Props
