import Verif.Circuit.EqualityLemmas
import Verif.Circuit.JsonLemmas
import Verif.Props.ExampleTools
import Verif.Props.Copies
import Verif.Props.Queries

/-!
# C82: comparing circuits and distributions with `==`
-/

namespace PM.Props

open Spec Graph Classical

/-! ### What `==` compares -/

/-- C82.  Comparing two circuits never fails, and the answer is `True` exactly if the circuits have the same shape: at the
same places there are units of the same kind with as many subcircuits, leaves over continuous variables correspond to
each other, and corresponding sums have the same weights. -/
theorem C82_compares {g h : Circuit} {r s : Node} (hg : Layered g r) (hh : Layered h s) :
    ∃ b, g.eq h = .ok b ∧ (b = true ↔ SameShape g h r s) := by
  obtain ⟨rank, hrank, hb⟩ := hg.graded.acyclic.bounded hg.wf
  refine ⟨decide (SameShape g h r s), ?_, decide_eq_true_iff⟩
  simp only [Graph.eq, hg.root, hh.root, bind, Except.bind]
  exact unitEq_decide hg.wf hh.wf hg.weighted hh.weighted hg.leaves hh.leaves hrank _ _ _ (Nat.lt_succ_of_le (hb r))
    (root_mem hg.root).1 (root_mem hh.root).1

theorem eq_true_iff {g h : Circuit} {r s : Node} (hg : Layered g r) (hh : Layered h s) :
    g.eq h = .ok true ↔ SameShape g h r s := by
  obtain ⟨b, hb, hiff⟩ := C82_compares hg hh
  rw [hb, ← hiff]
  exact ⟨fun h => by cases h; rfl, fun h => by rw [h]⟩

theorem samePlace_renamed {g g' : Circuit} {φ : Node → Node} (hw : g.WF) (h : Renamed g g' φ) {r : Node} (hr : r ∈ g.ids)
    {n m : Node} (hp : SamePlace g g' r (φ r) n m) : n ∈ g.ids ∧ m = φ n := by
  induction hp with
  | here => exact ⟨hr, rfl⟩
  | child _ hc hd ih =>
    obtain ⟨hn, rfl⟩ := ih
    rw [Renamed.succ h hn, List.getElem?_map, hc] at hd
    exact ⟨succ_mem_ids hw (List.mem_of_getElem? hc), by simpa using hd.symm⟩

/-- C82.  A circuit equals its copy and what is read back from its JSON, since these differ from it only in the identities
of the units. -/
theorem C82_copies {g g' : Circuit} {r : Node} {φ : Node → Node} (hg : Layered g r) (h : Renamed g g' φ)
    (hg' : Layered g' (φ r)) : g.eq g' = .ok true := by
  refine (eq_true_iff hg hg').2 fun n m hp => ?_
  obtain ⟨hn, rfl⟩ := samePlace_renamed hg.wf h (root_mem hg.root).1 hp
  refine ⟨?_, by rw [Renamed.succ h hn, List.length_map]⟩
  obtain ⟨k, hk⟩ := exists_kind? hn
  have hk' := Renamed.kind? h hn
  rw [hk] at hk'
  rcases k with d | _ | _
  · exact .leaf d d hk hk' Iff.rfl
  · refine .sum hk hk' ?_
    rw [h.out n hn, List.map_map]
    rfl
  · exact .prod hk hk'

theorem C82_copy {g : Circuit} {r : Node} (hg : Layered g r) (off : ℕ) : g.eq (g.copyAt off) = .ok true :=
  C82_copies hg (copyAt_renamed hg.wf off) (Layered.copyAt hg off)

theorem samePlace_symm {g h : Circuit} {r s n m : Node} (hp : SamePlace g h r s n m) : SamePlace h g s r m n := by
  induction hp with
  | here => exact .here
  | child _ hc hd ih => exact .child ih hd hc

/-- C82.  `==` is symmetric and transitive (reflexive: `C82_copies` with the identity). -/
theorem C82_equivalence {g h k : Circuit} {r s t : Node} (hg : Layered g r) (hh : Layered h s) (hk : Layered k t) :
    g.eq g = .ok true ∧ (g.eq h = .ok true → h.eq g = .ok true) ∧
      (g.eq h = .ok true → h.eq k = .ok true → g.eq k = .ok true) := by
  refine ⟨C82_copies hg ⟨fun _ _ _ _ h => h, by simp, by simp, hg.wf.srcMem⟩ (φ := id) hg, ?_, ?_⟩
  · rw [eq_true_iff hg hh, eq_true_iff hh hg]
    intro hS n m hp
    obtain ⟨ha, hl⟩ := hS m n (samePlace_symm hp)
    refine ⟨?_, hl.symm⟩
    rcases ha with ⟨d, e, h1, h2, h3⟩ | ⟨h1, h2⟩ | ⟨h1, h2, h3⟩
    · exact .leaf e d h2 h1 h3.symm
    · exact .prod h2 h1
    · exact .sum h2 h1 h3.symm
  · rw [eq_true_iff hg hh, eq_true_iff hh hk, eq_true_iff hg hk]
    intro hS hT n m hp
    have hmid : ∃ x, SamePlace g h r s n x ∧ SamePlace h k s t x m := by
      induction hp with
      | here => exact ⟨s, .here, .here⟩
      | @child n m c d i _ hc hd ih =>
        obtain ⟨x, hx, hy⟩ := ih
        obtain ⟨hi, rfl⟩ := List.getElem?_eq_some_iff.1 hc
        have hlt : i < (h.succ x).length := by rw [← (hS n x hx).2]; exact hi
        exact ⟨(h.succ x)[i], .child hx hc (List.getElem?_eq_getElem hlt), .child hy (List.getElem?_eq_getElem hlt) hd⟩
    obtain ⟨x, hx, hy⟩ := hmid
    obtain ⟨ha, hl⟩ := hS n x hx
    obtain ⟨hb, hl'⟩ := hT x m hy
    refine ⟨?_, hl.trans hl'⟩
    rcases ha with ⟨d, e, h1, h2, h3⟩ | ⟨h1, h2⟩ | ⟨h1, h2, h3⟩ <;>
      rcases hb with ⟨d', e', h4, h5, h6⟩ | ⟨h4, h5⟩ | ⟨h4, h5, h6⟩ <;> try (rw [h2] at h4; cases h4)
    · exact .leaf d e' h1 h5 (h3.trans h6)
    · exact .prod h1 h5
    · exact .sum h1 h5 (h3.trans h6)

/-! ### Distributions -/

/-- C82.  Distributions that compare equal are over the same variable and have the same likelihood at every value and the
same probability for every set of values. -/
theorem C82_distributions {d e : Leaf} (hd : d.KeysNodup) (h : d.eq e = true) :
    d.var = e.var ∧ (∀ x, d.logLik x = e.logLik x) ∧ ∀ A, d.prob A = e.prob A := by
  cases d <;> cases e <;> simp only [Leaf.eq, Bool.false_eq_true, decide_eq_true_iff, Bool.and_eq_true] at h
  case symbolic.symbolic v p v' q =>
    obtain ⟨h1, rfl⟩ := h
    have hp := dictEq_perm hd h1
    refine ⟨rfl, fun x => discreteLogLik_perm hd hp x, fun A => ?_⟩
    cases A with
    | symbols S => simp only [Leaf.prob, funext (lookup_perm hd hp)]
    | interval I => rfl
  case integer.integer v p v' q =>
    obtain ⟨h1, rfl⟩ := h
    have hp := dictEq_perm hd h1
    refine ⟨rfl, fun x => discreteLogLik_perm hd hp x, fun A => ?_⟩
    cases A with
    | symbols S => rfl
    | interval I => simp only [Leaf.prob, (hp.map _).sum_eq]
  all_goals
    obtain ⟨h1, h2⟩ := h
    simp_all

/-- C82.  A distribution equals itself (and hence its copy). -/
theorem C82_distribution_self {d : Leaf} (hd : d.KeysNodup) : d.eq d = true := by
  cases d <;> simp only [Leaf.eq, decide_eq_true_iff, Bool.and_eq_true, and_self, and_true]
  · exact dictEq_of_perm hd (.refl _)
  · exact dictEq_of_perm hd (.refl _)

/-! ### Equal circuits and their distributions -/

/-- The full property: circuits that compare equal describe the same distribution. -/
def C82_full : Prop := ∀ (g h : Circuit) (r s : Node), Layered g r → Layered h s → g.eq h = .ok true →
  ∀ x v, (g.logLikelihood freshMem x).2 = .ok v ↔ (h.logLikelihood freshMem x).2 = .ok v

/-- C82 (partial): circuits that compare equal have the same variables and the same log-likelihood everywhere, provided the
distributions in corresponding leaves also compare equal.  What is missing: `==` of circuits does not look at the
distributions, see `C82_full_false`. -/
theorem C82_equal_partial {g h : Circuit} {r s : Node} (hg : Layered g r) (hh : Layered h s) (he : g.eq h = .ok true)
    (hleaves : LeavesMatch (fun d e => d.eq e = true) g h r s)
    (hkeys : ∀ n d, g.kind? n = some (.leaf d) → d.KeysNodup) :
    g.circuitVars = h.circuitVars ∧
      ∀ m m' x v, (g.logLikelihood m x).2 = .ok v ↔ (h.logLikelihood m' x).2 = .ok v := by
  have hS := (eq_true_iff hg hh).1 he
  let P : Leaf → Leaf → Prop := fun d e => d.eq e = true ∧ d.KeysNodup
  have hP : LeavesMatch P g h r s := fun n m d e hp h1 h2 => ⟨hleaves n m d e hp h1 h2, hkeys n d h1⟩
  have hP' : LeavesMatch (fun d e => P e d) h g s r := fun n m d e hp h1 h2 => hP m n e d (samePlace_symm hp) h2 h1
  obtain ⟨rank, hrank, hb⟩ := hg.graded.acyclic.bounded hg.wf
  obtain ⟨rank', hrank', hb'⟩ := hh.graded.acyclic.bounded hh.wf
  have hS' : SameShape h g s r := (eq_true_iff hh hg).1 ((C82_equivalence hg hh hg).2.1 he)
  have hv : g.circuitVars = h.circuitVars := by
    simp only [circuitVars, hg.root, hh.root]
    exact varsOf_same (fun d e hde => (C82_distributions hde.2 hde.1).1) hrank hrank' _ _ _ _ (Nat.lt_succ_of_le (hb r))
      (Nat.lt_succ_of_le (hb' s)) hS hP
  refine ⟨hv, fun m m' x v => ?_⟩
  unfold Graph.logLikelihood
  rw [← hv]
  cases g.circuitVars with
  | error e => simp
  | ok vs =>
    have hA : ∀ d e, P d e → (logLikAlg vs x).leaf d = (logLikAlg vs x).leaf e := by
      intro d e hde
      obtain ⟨h1, h2, -⟩ := C82_distributions hde.2 hde.1
      simp only [logLikAlg, h1, h2]
    change (g.query (logLikAlg vs x) m).2 = .ok v ↔ (h.query (logLikAlg vs x) m').2 = .ok v
    rw [query_iff_eval hg.wf hg.graded hg.leaves hg.root, query_iff_eval hh.wf hh.graded hh.leaves hh.root]
    exact ⟨fun hE => eval_same hA hE s hS hP, fun hE => eval_same (fun d e hde => (hA e d hde).symm) hE r hS' hP'⟩

/-! ### Witnesses -/

/-- A mixture of two uniform distributions of variable 0, over `[0, a]` and `[2, 3]`. -/
noncomputable def twoBoxes (a : ℝ) : Circuit where
  nodes := [(0, .sum), (1, .leaf (.uniform 0 0 a .closed .closed)), (2, .leaf (.uniform 0 2 3 .closed .closed))]
  edges := [⟨0, 1, some (.fin (Real.log (1 / 2)))⟩, ⟨0, 2, some (.fin (Real.log (1 / 2)))⟩]

theorem twoBoxes_layered (a : ℝ) : Layered (twoBoxes a) 0 where
  wf := ⟨by simp [twoBoxes, ids], by simp [twoBoxes], by simp [twoBoxes, ids], by simp [twoBoxes, ids]⟩
  graded := ⟨fun n => if n = 0 then 0 else 1, by simp [twoBoxes]⟩
  leaves := Ex.leafTerminal_of (by simp [twoBoxes, Graph.succ, outEdges])
  weighted := Ex.weighted_of (by simp [twoBoxes, outEdges])
  root := by rfl

theorem twoBoxes_scoped (a : ℝ) : Scoped (twoBoxes a) fun _ => {0} :=
  Ex.scoped_of (by simp [twoBoxes, Leaf.var]) (by simp [twoBoxes, Graph.succ, outEdges]) (by simp [twoBoxes])

theorem twoBoxes_shape (a b : ℝ) : SameShape (twoBoxes a) (twoBoxes b) 0 0 := by
  rw [sameShape_iff]
  refine ⟨.sum rfl rfl rfl, ?_⟩
  refine .cons (sameShape_iff.2 ⟨.leaf _ _ rfl rfl Iff.rfl, .nil⟩) (.cons (sameShape_iff.2 ⟨.leaf _ _ rfl rfl Iff.rfl, .nil⟩) .nil)

theorem twoBoxes_likelihood {a : ℝ} (ha : 0 < a) (m : Mem LogP) :
    (twoBoxes a).likelihood m (fun _ => 0) = .ok (1 / 2 * a⁻¹) := by
  have hv : ∀ n d, (twoBoxes a).kind? n = some (.leaf d) → d.Valid :=
    Ex.valid_of (by simp [twoBoxes, Leaf.Valid, ha]; norm_num)
  have hval : CircuitValue (twoBoxes a) (fun d => leafDensity d ((fun _ => 0 : Var → ℝ) d.var))
      (fun n => if n = 0 then 1 / 2 * a⁻¹ else if n = 1 then a⁻¹ else 0) := by
    refine Ex.value_of ?_ ?_ (by simp [twoBoxes])
    · have h1 := Ex.uniform_inside (v := 0) (a := 0) (b := a) (x := 0) le_rfl ha.le
      have h2 : leafDensity (.uniform 0 2 3 .closed .closed) 0 = 0 := by
        rw [leafDensity, if_neg]
        rintro ⟨h, -⟩
        have := EReal.coe_le_coe_iff.1 h
        norm_num at this
      simp only [twoBoxes, List.forall_mem_cons, Kind.leaf.injEq, reduceCtorEq, false_implies, implies_true, true_and,
        forall_eq', List.not_mem_nil]
      rw [h1, h2]
      simp
    · simp [twoBoxes, outEdges, linWeight, LogP.exp, Real.exp_neg, Real.exp_log]
  obtain ⟨L, -, -, -, h⟩ := C01_loglikelihood (twoBoxes_layered a) (twoBoxes_scoped a) hv (fun _ => 0) hval m
  simpa using h

/-- The hypotheses of `C82_compares`, `C82_copies`, `C82_equivalence` and `C82_equal_partial` are met. -/
example : Layered (twoBoxes 1) 0 ∧ (twoBoxes 1).eq (twoBoxes 1) = .ok true ∧
    LeavesMatch (fun d e => d.eq e = true) (twoBoxes 1) (twoBoxes 1) 0 0 ∧
    (∀ n d, (twoBoxes 1).kind? n = some (.leaf d) → d.KeysNodup) := by
  have hk : ∀ n d, (twoBoxes 1).kind? n = some (.leaf d) → d.KeysNodup := fun n d h =>
    Ex.forall_kind (g := twoBoxes 1) (P := fun _ k => ∀ d, k = .leaf d → d.KeysNodup)
      (by simp [twoBoxes, Leaf.KeysNodup]) n _ h d rfl
  refine ⟨twoBoxes_layered 1, (eq_true_iff (twoBoxes_layered 1) (twoBoxes_layered 1)).2 (twoBoxes_shape 1 1), ?_, hk⟩
  intro n m d e hp h1 h2
  have : m = n := by
    have := samePlace_renamed (g := twoBoxes 1) (g' := twoBoxes 1) (φ := id) (twoBoxes_layered 1).wf
      ⟨fun _ _ _ _ h => h, by simp, by simp, (twoBoxes_layered 1).wf.srcMem⟩ (root_mem (twoBoxes_layered 1).root).1 hp
    exact this.2
  subst this
  rw [h1] at h2
  cases h2
  exact C82_distribution_self (hk _ _ h1)

/-- C82: circuits with different distributions in their leaves compare equal. -/
theorem C82_full_false : ¬ C82_full := by
  intro h
  have hE := (eq_true_iff (twoBoxes_layered 1) (twoBoxes_layered 2)).2 (twoBoxes_shape 1 2)
  have h1 := twoBoxes_likelihood (a := 1) one_pos freshMem
  have h2 := twoBoxes_likelihood (a := 2) two_pos freshMem
  unfold Graph.likelihood at h1 h2
  cases hv : ((twoBoxes 1).logLikelihood freshMem fun _ => 0).2 with
  | error e => rw [hv] at h1; cases h1
  | ok v =>
    have := (h _ _ 0 0 (twoBoxes_layered 1) (twoBoxes_layered 2) hE (fun _ => 0) v).1 hv
    rw [hv] at h1
    rw [this] at h2
    have h3 := h1.symm.trans h2
    simp only [Except.ok.injEq] at h3
    norm_num at h3

example : (Leaf.integer 0 [(1, 1 / 4), (2, 3 / 4)]).KeysNodup ∧
    (Leaf.integer 0 [(1, 1 / 4), (2, 3 / 4)]).eq (.integer 0 [(2, 3 / 4), (1, 1 / 4)]) = true :=
  ⟨by simp [Leaf.KeysNodup], by simp [Leaf.eq, dictEq]⟩

end PM.Props
