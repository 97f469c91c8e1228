import Verif.Circuit.SupportLemmas
import Verif.Circuit.NormalizeLemmas
import Verif.Spec.Sharing
import Verif.Props.Examples
import Verif.Props.ExampleTools

/-!
# C13, C14: support and determinism
-/

namespace PM.Props

open Graph Spec PM.Bound

/-- A unit of positive value at `x` can produce `x`. -/
theorem possible_of_pos {g : Circuit} (hw : g.WF) (ha : g.Acyclic) (hv : ∀ n d, g.kind? n = some (.leaf d) → d.Valid)
    {S : Node → Set (Var → ℝ)} (hS : PossiblePoints g S) {x : Var → ℝ} {f : Node → ℝ}
    (hf : CircuitValue g (fun d => leafDensity d (x d.var)) f) : ∀ n ∈ g.ids, 0 < f n → x ∈ S n := by
  have hnn := circuitValue_nonneg hw ha hf fun n d h => by
    rw [← exp_logLik (hv n d h)]; exact LogP.exp_nonneg _
  refine ha.induct (P := fun n => n ∈ g.ids → 0 < f n → x ∈ S n) ?_
  intro n ih hn hpos
  obtain ⟨k, hk⟩ := exists_kind? hn
  cases k with
  | leaf d => rw [hS.leaf n d hk]; rwa [← hf.leaf n d hk]
  | sum =>
    rw [hS.sum n hk]
    by_contra hc
    push Not at hc
    rw [hf.sum n hk] at hpos
    refine absurd hpos (not_lt.2 (le_of_eq (List.sum_eq_zero ?_)))
    intro y hy
    obtain ⟨e, he, rfl⟩ := List.mem_map.1 hy
    have hm := Graph.dst_mem_succ he
    have h0 : f e.dst = 0 := by
      by_contra hne
      exact hc e.dst hm (ih e.dst hm (Graph.succ_mem_ids hw hm) (lt_of_le_of_ne (hnn _ (Graph.succ_mem_ids hw hm)) (Ne.symm hne)))
    rw [h0, mul_zero]
  | prod =>
    rw [hS.prod n hk]
    intro c hc
    refine ih c hc (Graph.succ_mem_ids hw hc) (lt_of_le_of_ne (hnn c (Graph.succ_mem_ids hw hc)) ?_)
    intro h0
    rw [hf.prod n hk] at hpos
    refine absurd hpos (not_lt.2 (le_of_eq (List.prod_eq_zero ?_)))
    obtain ⟨e, he, h⟩ := List.mem_map.1 hc
    exact List.mem_map.2 ⟨e, he, by rw [h, ← h0]⟩

/-- With positive weights, a unit has a positive value at every point it can produce. -/
theorem pos_of_possible {g : Circuit} (hw : g.WF) (ha : g.Acyclic) (hv : ∀ n d, g.kind? n = some (.leaf d) → d.Valid)
    (hp : PositiveWeights g) {S : Node → Set (Var → ℝ)} (hS : PossiblePoints g S) {x : Var → ℝ} {f : Node → ℝ}
    (hf : CircuitValue g (fun d => leafDensity d (x d.var)) f) : ∀ n ∈ g.ids, x ∈ S n → 0 < f n := by
  have hnn := circuitValue_nonneg hw ha hf fun n d h => by
    rw [← exp_logLik (hv n d h)]; exact LogP.exp_nonneg _
  refine ha.induct (P := fun n => n ∈ g.ids → x ∈ S n → 0 < f n) ?_
  intro n ih hn hx
  obtain ⟨k, hk⟩ := exists_kind? hn
  cases k with
  | leaf d => rw [hf.leaf n d hk]; rwa [← hS.leaf n d hk]
  | sum =>
    obtain ⟨c, hc, hxc⟩ := (hS.sum n hk x).1 hx
    obtain ⟨e, he, rfl⟩ := List.mem_map.1 hc
    have hpos := ih e.dst hc (Graph.succ_mem_ids hw hc) hxc
    rw [hf.sum n hk]
    have hwpos : 0 < linWeight e := by
      obtain ⟨w, hw⟩ := hp n hk e he
      simp only [linWeight, hw]
      exact Real.exp_pos w
    refine lt_of_lt_of_le (mul_pos hwpos hpos) (List.single_le_sum ?_ _ (List.mem_map.2 ⟨e, he, rfl⟩))
    intro y hy
    obtain ⟨e', he', rfl⟩ := List.mem_map.1 hy
    exact mul_nonneg (linWeight_nonneg _) (hnn _ (Graph.succ_mem_ids hw (Graph.dst_mem_succ he')))
  | prod =>
    rw [hf.prod n hk]
    refine List.prod_pos ?_
    intro y hy
    obtain ⟨e, he, rfl⟩ := List.mem_map.1 hy
    have hm := Graph.dst_mem_succ he
    exact ih _ hm (Graph.succ_mem_ids hw hm) ((hS.prod n hk x).1 hx _ hm)

/-- C13.  `support` answers with an event `E`; every point of positive likelihood lies in `E`; if no weight is zero, every
point of `E` has positive likelihood.  `f` is the mixture/product formula at the point `x`. -/
theorem C13_support {g : Circuit} {r : Node} (hL : Layered g r) {sc : Node → Finset Var} (hs : Scoped g sc)
    (hp : ProductsNonempty g) {sym : Var → Bool} (ht : Typed g sym) (hv : ∀ n d, g.kind? n = some (.leaf d) → d.Valid)
    (m : Mem Event) :
    ∃ E, (g.support m).2 = .ok E ∧
      (∀ x f, CircuitValue g (fun d => leafDensity d (x d.var)) f → 0 < f r → E.Mem x) ∧
      (PositiveWeights g → ∀ x f, CircuitValue g (fun d => leafDensity d (x d.var)) f → E.Mem x → 0 < f r) := by
  obtain ⟨S, hS⟩ := exists_possiblePoints hL.graded.acyclic
  obtain ⟨val, hval⟩ := support_eval hL.wf hL.graded.acyclic hL.weighted hs hp ht hv hS
  have hri := (root_mem hL.root).1
  have hq := query_eq_meaning hL.wf hL.graded hL.root (meaning_of_eval hL.wf hri fun n hn => (hval n hn).1) m
  refine ⟨val r, hq.1, ?_, ?_⟩
  · intro x f hf hpos
    exact ((hval r hri).2.2 x).2 (possible_of_pos hL.wf hL.graded.acyclic hv hS hf r hri hpos)
  · intro hpw x f hf hx
    exact pos_of_possible hL.wf hL.graded.acyclic hv hpw hS hf r hri (((hval r hri).2.2 x).1 hx)

theorem disjointFrom_eq {m : Mem Event} {A : Event} {val : Node → Event} {sym : Var → Bool} {V : Finset Var} {S : Node → Set (Var → ℝ)}
    (hA : A.Good sym V) : ∀ l : List Node, (∀ b ∈ l, m b = some (val b) ∧ (∃ W, (val b).Good sym W) ∧ ∀ x, (val b).Mem x ↔ x ∈ S b) →
    ∃ b, disjointFrom m A l = .ok b ∧ (b = true ↔ ∀ c ∈ l, ∀ x, ¬ (A.Mem x ∧ x ∈ S c))
  | [], _ => ⟨true, rfl, by simp⟩
  | c :: l, h => by
    obtain ⟨h1, ⟨W, h2⟩, h3⟩ := h c (by simp)
    obtain ⟨b, hb1, hb2⟩ := disjointFrom_eq hA l fun d hd => h d (List.mem_cons_of_mem _ hd)
    have hr : readResult m c = .ok (val c) := by simp [readResult, h1]
    unfold disjointFrom
    rw [hr]
    simp only [bind, Except.bind]
    by_cases he : (A.inter (val c)).IsEmpty
    · refine ⟨b, by rw [if_pos he]; exact hb1, ?_⟩
      have := (Event.isEmpty_iff (hA.inter h2)).1 he
      rw [hb2, List.forall_mem_cons]
      refine ⟨fun h => ⟨fun x hx => this x ((Event.mem_inter hA h2).2 ⟨hx.1, (h3 x).2 hx.2⟩), h⟩, fun h => h.2⟩
    · refine ⟨false, by rw [if_neg he], ?_⟩
      rw [Event.isEmpty_iff (hA.inter h2)] at he
      push Not at he
      obtain ⟨x, hx⟩ := he
      have := (Event.mem_inter hA h2).1 hx
      simp only [Bool.false_eq_true, false_iff]
      intro h
      exact h c (by simp) x ⟨this.1, (h3 x).1 this.2⟩

theorem pairwiseDisjoint_eq {m : Mem Event} {val : Node → Event} {sym : Var → Bool} {S : Node → Set (Var → ℝ)} :
    ∀ l : List Node, (∀ b ∈ l, m b = some (val b) ∧ (∃ W, (val b).Good sym W) ∧ ∀ x, (val b).Mem x ↔ x ∈ S b) →
    ∃ b, pairwiseDisjoint m l = .ok b ∧ (b = true ↔ l.Pairwise fun a c => ∀ x, ¬ (x ∈ S a ∧ x ∈ S c))
  | [], _ => ⟨true, rfl, by simp⟩
  | a :: l, h => by
    obtain ⟨h1, ⟨W, h2⟩, h3⟩ := h a (by simp)
    obtain ⟨b, hb1, hb2⟩ := pairwiseDisjoint_eq l fun d hd => h d (List.mem_cons_of_mem _ hd)
    obtain ⟨d, hd1, hd2⟩ := disjointFrom_eq h2 l fun d hd => h d (List.mem_cons_of_mem _ hd)
    have hr : readResult m a = .ok (val a) := by simp [readResult, h1]
    unfold pairwiseDisjoint
    rw [hr]
    simp only [bind, Except.bind, hd1]
    have hd2' : d = true ↔ ∀ c ∈ l, ∀ x, ¬ (x ∈ S a ∧ x ∈ S c) := by
      rw [hd2]
      exact forall_congr' fun c => imp_congr_right fun _ => forall_congr' fun x => by rw [h3]
    cases d with
    | true =>
      refine ⟨b, by simpa using hb1, ?_⟩
      rw [hb2, List.pairwise_cons]
      exact ⟨fun h => ⟨hd2'.1 rfl, h⟩, fun h => h.2⟩
    | false =>
      refine ⟨false, by simp, ?_⟩
      rw [List.pairwise_cons]
      simp only [Bool.false_eq_true, false_iff, not_and]
      intro h
      exact absurd (hd2'.2 fun c hc x hx => h c hc x hx.1 hx.2) (by simp)

theorem allDeterministic_eq {g : Circuit} {m : Mem Event} {P : Node → Prop}
    (h : ∀ n, g.kind? n = some .sum → ∃ b, pairwiseDisjoint m (g.succ n) = .ok b ∧ (b = true ↔ P n)) :
    ∀ l : List Node, (∀ n ∈ l, g.kind? n = some .sum) → ∃ b, g.allDeterministic m l = .ok b ∧ (b = true ↔ ∀ n ∈ l, P n)
  | [], _ => ⟨true, rfl, by simp⟩
  | n :: l, hl => by
    obtain ⟨b, hb1, hb2⟩ := allDeterministic_eq h l fun d hd => hl d (List.mem_cons_of_mem _ hd)
    obtain ⟨d, hd1, hd2⟩ := h n (hl n (by simp))
    unfold allDeterministic
    simp only [bind, Except.bind, hd1]
    cases d with
    | true => exact ⟨b, by simpa using hb1, by rw [hb2, List.forall_mem_cons]; exact ⟨fun h => ⟨hd2.1 rfl, h⟩, fun h => h.2⟩⟩
    | false =>
      refine ⟨false, by simp, ?_⟩
      rw [List.forall_mem_cons]
      simp only [Bool.false_eq_true, false_iff, not_and]
      intro h
      exact absurd (hd2.2 h) (by simp)

/-- C14.  `is_deterministic` answers `True` exactly if for every sum unit the sets of points its children can produce are
pairwise disjoint. -/
theorem C14_is_deterministic {g : Circuit} {r : Node} (hL : Layered g r) {sc : Node → Finset Var} (hs : Scoped g sc)
    (hp : ProductsNonempty g) {sym : Var → Bool} (ht : Typed g sym) (hv : ∀ n d, g.kind? n = some (.leaf d) → d.Valid)
    {S : Node → Set (Var → ℝ)} (hS : PossiblePoints g S) (m : Mem Event) :
    ∃ b, (g.isDeterministic m).2 = .ok b ∧
      (b = true ↔ ∀ n, g.kind? n = some .sum → (g.succ n).Pairwise fun a c => ∀ x, ¬ (x ∈ S a ∧ x ∈ S c)) := by
  obtain ⟨val, hval⟩ := support_eval hL.wf hL.graded.acyclic hL.weighted hs hp ht hv hS
  have hri := (root_mem hL.root).1
  have hq := query_eq_meaning hL.wf hL.graded hL.root (meaning_of_eval hL.wf hri fun n hn => (hval n hn).1) m
  have hres : ∀ n, g.kind? n = some .sum → ∃ b, pairwiseDisjoint (g.support m).1 (g.succ n) = .ok b ∧
      (b = true ↔ (g.succ n).Pairwise fun a c => ∀ x, ¬ (x ∈ S a ∧ x ∈ S c)) := by
    intro n hk
    refine pairwiseDisjoint_eq (val := val) (sym := sym) _ ?_
    intro c hc
    have hci := Graph.succ_mem_ids hL.wf hc
    exact ⟨hq.2 c (reachable_of_root hL.wf hL.graded.acyclic hL.root c hci), ⟨_, (hval c hci).2.1⟩, (hval c hci).2.2⟩
  obtain ⟨b, hb1, hb2⟩ := allDeterministic_eq hres g.sumNodes fun n hn => (mem_sumNodes hL.wf).1 hn
  refine ⟨b, ?_, ?_⟩
  · have h2 : (g.support m).2 = .ok (val r) := hq.1
    unfold isDeterministic
    revert h2 hb1
    generalize g.support m = X
    obtain ⟨x1, x2⟩ := X
    intro hb1 h2
    dsimp only at h2
    subst h2
    exact hb1
  · rw [hb2]
    exact forall_congr' fun n => by rw [mem_sumNodes hL.wf]

/-- C14, second part.  If `is_deterministic` answers `True`, then at every point at most one child of each sum unit has
positive likelihood. -/
theorem C14_one_child {g : Circuit} {r : Node} (hL : Layered g r) {sc : Node → Finset Var} (hs : Scoped g sc)
    (hp : ProductsNonempty g) {sym : Var → Bool} (ht : Typed g sym) (hv : ∀ n d, g.kind? n = some (.leaf d) → d.Valid)
    (m : Mem Event) (hdet : (g.isDeterministic m).2 = .ok true) (x : Var → ℝ) (f : Node → ℝ)
    (hf : CircuitValue g (fun d => leafDensity d (x d.var)) f) (n : Node) (hk : g.kind? n = some .sum) :
    (g.succ n).Pairwise fun a c => f a = 0 ∨ f c = 0 := by
  obtain ⟨S, hS⟩ := exists_possiblePoints hL.graded.acyclic
  obtain ⟨b, hb1, hb2⟩ := C14_is_deterministic hL hs hp ht hv hS m
  rw [hdet] at hb1
  injection hb1 with hb1
  have h := hb2.1 hb1.symm n hk
  have hnn := circuitValue_nonneg hL.wf hL.graded.acyclic hf fun n d h => by
    rw [← exp_logLik (hv n d h)]; exact LogP.exp_nonneg _
  refine (List.Pairwise.and_mem.1 h).imp ?_
  rintro a c ⟨hac, hcm, hd⟩
  have ha := Graph.succ_mem_ids hL.wf hac
  have hc := Graph.succ_mem_ids hL.wf hcm
  by_contra hne
  rw [not_or] at hne
  exact hd x ⟨possible_of_pos hL.wf hL.graded.acyclic hv hS hf a ha (lt_of_le_of_ne (hnn a ha) (Ne.symm hne.1)),
    possible_of_pos hL.wf hL.graded.acyclic hv hS hf c hc (lt_of_le_of_ne (hnn c hc) (Ne.symm hne.2))⟩

/-- C14, converse reading for circuits without zero weights: the answer is `False` exactly if two children of a sum unit both
have positive likelihood at some point. -/
theorem C14_not_deterministic {g : Circuit} {r : Node} (hL : Layered g r) {sc : Node → Finset Var} (hs : Scoped g sc)
    (hp : ProductsNonempty g) {sym : Var → Bool} (ht : Typed g sym) (hv : ∀ n d, g.kind? n = some (.leaf d) → d.Valid)
    (hpos : PositiveWeights g) (m : Mem Event) :
    (g.isDeterministic m).2 = .ok false ↔ ∃ n, g.kind? n = some .sum ∧ ¬ (g.succ n).Pairwise fun a c =>
      ¬ ∃ (x : Var → ℝ) (f : Node → ℝ), CircuitValue g (fun d => leafDensity d (x d.var)) f ∧ 0 < f a ∧ 0 < f c := by
  obtain ⟨S, hS⟩ := exists_possiblePoints hL.graded.acyclic
  obtain ⟨b, hb1, hb2⟩ := C14_is_deterministic hL hs hp ht hv hS m
  have hkey : ∀ n, g.kind? n = some .sum → ((g.succ n).Pairwise (fun a c => ∀ x, ¬ (x ∈ S a ∧ x ∈ S c)) ↔
      (g.succ n).Pairwise fun a c => ¬ ∃ (x : Var → ℝ) (f : Node → ℝ), CircuitValue g (fun d => leafDensity d (x d.var)) f ∧ 0 < f a ∧ 0 < f c) := by
    intro n _
    constructor
    · intro h
      refine (List.Pairwise.and_mem.1 h).imp ?_
      rintro a c ⟨hac, hcm, hd⟩ ⟨x, f, hf, h1, h2⟩
      exact hd x ⟨possible_of_pos hL.wf hL.graded.acyclic hv hS hf a (Graph.succ_mem_ids hL.wf hac) h1,
        possible_of_pos hL.wf hL.graded.acyclic hv hS hf c (Graph.succ_mem_ids hL.wf hcm) h2⟩
    · intro h
      refine (List.Pairwise.and_mem.1 h).imp ?_
      rintro a c ⟨hac, hcm, hd⟩ x ⟨h1, h2⟩
      obtain ⟨f, hf⟩ := exists_circuitValue hL.graded.acyclic (fun d => leafDensity d (x d.var))
      exact hd ⟨x, f, hf, pos_of_possible hL.wf hL.graded.acyclic hv hpos hS hf a (Graph.succ_mem_ids hL.wf hac) h1,
        pos_of_possible hL.wf hL.graded.acyclic hv hpos hS hf c (Graph.succ_mem_ids hL.wf hcm) h2⟩
  rw [hb1, Except.ok.injEq, ← Bool.not_eq_true, hb2, not_forall]
  refine exists_congr fun n => ?_
  rw [Classical.not_imp]
  exact and_congr_right fun h => not_congr (hkey n h)

theorem dag_products : ProductsNonempty Ex.dag := fun n h =>
  Ex.forall_kind (g := Ex.dag) (P := fun n k => k = .prod → Ex.dag.succ n ≠ []) (by simp [Ex.dag, succ, outEdges]) n _ h rfl

theorem dag_typed : Typed Ex.dag (fun _ => false) := fun n d h => by
  have := Ex.forall_kind (g := Ex.dag) (P := fun n k => ∀ d, k = .leaf d → ∃ v lo hi l r, d = .uniform v lo hi l r)
    (by simp [Ex.dag]) n _ h d rfl
  obtain ⟨v, lo, hi, l, r, rfl⟩ := this
  simp

/-- The hypotheses of C13 and C14 are met by `Ex.dag`, which shares a leaf and has positive weights. -/
example : Layered Ex.dag 0 ∧ Scoped Ex.dag Ex.dagScope ∧ ProductsNonempty Ex.dag ∧ Typed Ex.dag (fun _ => false) ∧
    (∀ n d, Ex.dag.kind? n = some (.leaf d) → d.Valid) ∧ PositiveWeights Ex.dag ∧ ∃ S, PossiblePoints Ex.dag S :=
  ⟨Ex.dag_layered, Ex.dag_scoped, dag_products, dag_typed, Ex.dag_valid, Ex.positive_of (by simp [Ex.dag, outEdges]),
    exists_possiblePoints Ex.dag_layered.graded.acyclic⟩

end PM.Props
