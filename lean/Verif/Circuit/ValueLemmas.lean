import Verif.Spec.Value

/-! Helper lemmas about circuit values; property theorems are in `Verif/Props`. -/

namespace PM

open Spec

namespace Graph

variable {D : Type}

theorem Acyclic.induct {g : Graph D} (ha : g.Acyclic) {P : Node → Prop} (h : ∀ n, (∀ c ∈ g.succ n, P c) → P n) :
    ∀ n, P n := by
  obtain ⟨rank, hr⟩ := ha
  suffices H : ∀ k n, rank n < k → P n from fun n => H _ n (Nat.lt_succ_self _)
  intro k
  induction k with
  | zero => intro n hn; omega
  | succ k ih =>
    intro n hn
    apply h
    intro c hc
    obtain ⟨e, he, hs, hd⟩ := mem_succ.1 hc
    have := hr e he
    rw [hs, hd] at this
    exact ih c (by omega)

theorem Acyclic.bounded {g : Graph D} (hw : g.WF) (ha : g.Acyclic) :
    ∃ rank : Node → Nat, (∀ e ∈ g.edges, rank e.dst < rank e.src) ∧ ∀ n, rank n ≤ g.nodes.length := by
  obtain ⟨rank, hr⟩ := ha
  refine ⟨fun n => g.ids.countP (fun k => decide (rank k < rank n)), ?_, ?_⟩
  · intro e he
    have h1 := hr e he
    have hm := hw.dstMem e he
    simp only
    clear hr
    have key : ∀ l : List Node, e.dst ∈ l → l.countP (fun k => decide (rank k < rank e.dst))
        < l.countP (fun k => decide (rank k < rank e.src)) := by
      intro l
      have mono : ∀ l : List Node, l.countP (fun k => decide (rank k < rank e.dst))
          ≤ l.countP (fun k => decide (rank k < rank e.src)) := by
        intro l
        apply List.countP_mono_left
        intro x _ hx
        simp only [decide_eq_true_eq] at hx ⊢
        omega
      induction l with
      | nil => simp
      | cons a l ih =>
        intro hmem
        simp only [List.countP_cons, decide_eq_true_eq]
        have hm := mono l
        by_cases hae : a = e.dst
        · subst hae; simp [h1]; omega
        · have := ih ((List.mem_cons.1 hmem).resolve_left (fun h => hae h.symm))
          split <;> split <;> omega
    exact key _ hm
  · intro n
    have := List.countP_le_length (p := fun k => decide (rank k < rank n)) (l := g.ids)
    simpa [ids] using this

theorem kind?_isSome {g : Graph D} {n : Node} : (g.kind? n).isSome ↔ n ∈ g.ids := by
  simp [kind?, ids, List.find?_isSome]

theorem mem_ids_of_kind? {g : Graph D} {n : Node} {k : Kind D} (h : g.kind? n = some k) : n ∈ g.ids :=
  kind?_isSome.1 (by simp [h])

theorem exists_kind? {g : Graph D} {n : Node} (h : n ∈ g.ids) : ∃ k, g.kind? n = some k :=
  Option.isSome_iff_exists.1 (kind?_isSome.2 h)

theorem succ_mem_ids {g : Graph D} (hw : g.WF) {n c : Node} (h : c ∈ g.succ n) : c ∈ g.ids := by
  obtain ⟨e, he, _, rfl⟩ := mem_succ.1 h
  exact hw.dstMem e he

theorem dst_mem_succ {g : Graph D} {n : Node} {e : Edge} (h : e ∈ g.outEdges n) : e.dst ∈ g.succ n :=
  List.mem_map.2 ⟨e, h, rfl⟩

end Graph

open Graph

variable {D : Type}

/-! ### Existence and uniqueness of circuit values -/

/-- The recursive formula with bounded depth. -/
noncomputable def valueFuel (g : Graph D) (ℓ : D → ℝ) : Nat → Node → ℝ
  | 0, _ => 0
  | k + 1, n =>
    match g.kind? n with
    | none => 0
    | some (.leaf d) => ℓ d
    | some .sum => ((g.outEdges n).map fun e => linWeight e * valueFuel g ℓ k e.dst).sum
    | some .prod => ((g.outEdges n).map fun e => valueFuel g ℓ k e.dst).prod

theorem valueFuel_stable {g : Graph D} {ℓ : D → ℝ} {rank : Node → Nat}
    (hr : ∀ e ∈ g.edges, rank e.dst < rank e.src) : ∀ k n, rank n < k →
      valueFuel g ℓ (k + 1) n = valueFuel g ℓ k n := by
  intro k
  induction k with
  | zero => intro n h; omega
  | succ k ih =>
    intro n hn
    have hch : ∀ e ∈ g.outEdges n, valueFuel g ℓ (k + 1) e.dst = valueFuel g ℓ k e.dst := by
      intro e he
      obtain ⟨he1, he2⟩ := mem_outEdges.1 he
      have := hr e he1
      rw [he2] at this
      exact ih _ (by omega)
    rw [valueFuel.eq_2 g ℓ n (k + 1), valueFuel.eq_2 g ℓ n k]
    have h1 : ((g.outEdges n).map fun e => linWeight e * valueFuel g ℓ (k + 1) e.dst)
        = (g.outEdges n).map fun e => linWeight e * valueFuel g ℓ k e.dst :=
      List.map_congr_left (fun e he => by rw [hch e he])
    have h2 : ((g.outEdges n).map fun e => valueFuel g ℓ (k + 1) e.dst)
        = (g.outEdges n).map fun e => valueFuel g ℓ k e.dst :=
      List.map_congr_left (fun e he => hch e he)
    rw [h1, h2]

theorem valueFuel_stable' {g : Graph D} {ℓ : D → ℝ} {rank : Node → Nat}
    (hr : ∀ e ∈ g.edges, rank e.dst < rank e.src) {k j : Nat} {n : Node} (h : rank n < k) (hj : k ≤ j) :
      valueFuel g ℓ j n = valueFuel g ℓ k n := by
  induction j, hj using Nat.le_induction with
  | base => rfl
  | succ j hj ih => rw [valueFuel_stable hr j n (by omega), ih]

/-- Every acyclic circuit has a value. -/
theorem exists_circuitValue {g : Graph D} (ha : g.Acyclic) (ℓ : D → ℝ) : ∃ f, CircuitValue g ℓ f := by
  obtain ⟨rank, hr⟩ := ha
  refine ⟨fun n => valueFuel g ℓ (rank n + 1) n, ?_, ?_, ?_⟩
  · intro n d h; simp [valueFuel, h]
  · intro n h
    simp only [valueFuel, h]
    congr 1
    apply List.map_congr_left
    intro e he
    obtain ⟨he1, he2⟩ := mem_outEdges.1 he
    have := hr e he1
    rw [he2] at this
    rw [valueFuel_stable' (ℓ := ℓ) hr (k := rank e.dst + 1) (j := rank n) (by omega) (by omega)]
    rfl
  · intro n h
    simp only [valueFuel, h]
    congr 1
    apply List.map_congr_left
    intro e he
    obtain ⟨he1, he2⟩ := mem_outEdges.1 he
    have := hr e he1
    rw [he2] at this
    exact valueFuel_stable' (ℓ := ℓ) hr (k := rank e.dst + 1) (j := rank n) (by omega) (by omega)

/-- ... and only one. -/
theorem circuitValue_unique {g : Graph D} (hw : g.WF) (ha : g.Acyclic) {ℓ : D → ℝ} {f f' : Node → ℝ}
    (h : CircuitValue g ℓ f) (h' : CircuitValue g ℓ f') : ∀ n ∈ g.ids, f n = f' n := by
  suffices H : ∀ n, n ∈ g.ids → f n = f' n from H
  refine ha.induct ?_
  intro n ih hn
  obtain ⟨k, hk⟩ := exists_kind? hn
  have hch : ∀ e ∈ g.outEdges n, f e.dst = f' e.dst := fun e he =>
    ih _ (dst_mem_succ he) (succ_mem_ids hw (dst_mem_succ he))
  cases k with
  | leaf d => rw [h.leaf n d hk, h'.leaf n d hk]
  | sum =>
    rw [h.sum n hk, h'.sum n hk]
    congr 1
    exact List.map_congr_left (fun e he => by rw [hch e he])
  | prod =>
    rw [h.prod n hk, h'.prod n hk]
    congr 1
    exact List.map_congr_left (fun e he => hch e he)

theorem linWeight_nonneg (e : Edge) : 0 ≤ linWeight e := by
  unfold linWeight; split
  · exact LogP.exp_nonneg _
  · exact le_rfl

theorem circuitValue_nonneg {g : Graph D} (hw : g.WF) (ha : g.Acyclic) {ℓ : D → ℝ} {f : Node → ℝ}
    (h : CircuitValue g ℓ f) (hℓ : ∀ n d, g.kind? n = some (.leaf d) → 0 ≤ ℓ d) : ∀ n ∈ g.ids, 0 ≤ f n := by
  suffices H : ∀ n, n ∈ g.ids → 0 ≤ f n from H
  refine ha.induct ?_
  intro n ih hn
  obtain ⟨k, hk⟩ := exists_kind? hn
  have hch : ∀ e ∈ g.outEdges n, 0 ≤ f e.dst := fun e he =>
    ih _ (dst_mem_succ he) (succ_mem_ids hw (dst_mem_succ he))
  cases k with
  | leaf d => rw [h.leaf n d hk]; exact hℓ n d hk
  | sum =>
    rw [h.sum n hk]
    apply List.sum_nonneg
    intro x hx
    obtain ⟨e, he, rfl⟩ := List.mem_map.1 hx
    exact mul_nonneg (linWeight_nonneg e) (hch e he)
  | prod =>
    rw [h.prod n hk]
    apply List.prod_nonneg
    intro x hx
    obtain ⟨e, he, rfl⟩ := List.mem_map.1 hx
    exact hch e he

/-! ### Scopes -/

theorem mapM_ok_map {α β : Type} {F : α → Except PyErr β} {f : α → β} {l : List α} (h : ∀ a ∈ l, F a = .ok (f a)) :
    l.mapM F = .ok (l.map f) := by
  induction l with
  | nil => rfl
  | cons a l ih =>
    rw [List.mapM_cons, h a (by simp), ih (fun b hb => h b (by simp [hb]))]
    rfl

theorem mem_foldr_union (l : List (Finset Var)) (v : Var) : v ∈ l.foldr (· ∪ ·) ∅ ↔ ∃ s ∈ l, v ∈ s := by
  induction l with
  | nil => simp
  | cons a l ih => simp [ih]

theorem varsOf_eq {g : Circuit} (hw : g.WF) {sc : Node → Finset Var} (hs : Scoped g sc) {rank : Node → Nat}
    (hr : ∀ e ∈ g.edges, rank e.dst < rank e.src) : ∀ k n, rank n < k → n ∈ g.ids → g.varsOf k n = .ok (sc n) := by
  intro k
  induction k with
  | zero => intro n h; omega
  | succ k ih =>
    intro n hn hm
    have hch : ∀ c ∈ g.succ n, g.varsOf k c = .ok (sc c) := by
      intro c hc
      obtain ⟨e, he, hs, hd⟩ := mem_succ.1 hc
      have := hr e he
      rw [hs, hd] at this
      exact ih c (by omega) (succ_mem_ids hw hc)
    obtain ⟨kd, hk⟩ := exists_kind? hm
    cases kd with
    | leaf d => simp [varsOf, hk, hs.leaf n d hk]
    | sum =>
      have hne := hs.sumNe n hk
      have hsum := hs.sum n hk
      cases hsu : g.succ n with
      | nil => exact absurd hsu hne
      | cons c cs =>
        have hc : c ∈ g.succ n := by simp [hsu]
        simp only [varsOf, hk, hsu]
        rw [hch c hc, hsum c hc]
    | prod =>
      simp only [varsOf, hk]
      rw [mapM_ok_map hch]
      have : ((g.succ n).map sc).foldr (· ∪ ·) ∅ = sc n := by
        ext v
        rw [mem_foldr_union, hs.prod n hk v]
        simp
      rw [← this]
      rfl

theorem circuitVars_eq {g : Circuit} (hw : g.WF) (ha : g.Acyclic) {sc : Node → Finset Var} (hs : Scoped g sc) {r : Node}
    (hr : g.root = .ok r) : g.circuitVars = .ok (sc r) := by
  obtain ⟨rank, hrank, hb⟩ := ha.bounded hw
  simp only [circuitVars, hr]
  exact varsOf_eq hw hs hrank _ _ (Nat.lt_succ_of_le (hb r)) (root_mem hr).1

theorem scope_mono {g : Circuit} (hw : g.WF) (hl : g.LeafTerminal) {sc : Node → Finset Var} (hs : Scoped g sc)
    {r n : Node} (hr : r ∈ g.ids) (h : g.Reachable r n) : sc n ⊆ sc r := by
  induction h with
  | refl => exact subset_rfl
  | @tail b c hb hc ih =>
    refine subset_trans ?_ ih
    obtain ⟨k, hk⟩ := exists_kind? (reachable_mem_ids hw hr hb)
    cases k with
    | leaf d => rw [hl _ _ hk] at hc; simp at hc
    | sum => exact (hs.sum _ hk c hc).subset
    | prod => intro v hv; exact (hs.prod _ hk v).2 ⟨c, hc, hv⟩

/-! ### The numeric passes -/

theorem exp_foldr_add (l : List LogP) : (l.foldr (· + ·) 0).exp = (l.map LogP.exp).prod := by
  induction l with
  | nil => simp
  | cons a l ih => simp [LogP.exp_add, ih]

theorem log_exp_getD {e : Edge} (h : e.weight.isSome) : (e.weight.getD 0).exp = linWeight e := by
  unfold linWeight
  cases hw : e.weight with
  | none => simp [hw] at h
  | some w => rfl

/-- Any rule that answers leaves with numbers makes `forward` compute the circuit value. -/
theorem forward_meaning {g : Circuit} {r : Node} (hL : Layered g r) {leaf : Leaf → Except PyErr ℝ} {ℓ : Leaf → ℝ}
    (hleaf : ∀ n d, g.kind? n = some (.leaf d) → leaf d = .ok (ℓ d)) {f : Node → ℝ} (hf : CircuitValue g ℓ f) :
    g.Meaning (forwardAlg leaf) r f := by
  intro n hn
  have hm := reachable_mem_ids hL.wf (root_mem hL.root).1 hn
  obtain ⟨k, hk⟩ := exists_kind? hm
  cases k with
  | leaf d => simp [evalUnit, hk, forwardAlg, hleaf n d hk, hf.leaf n d hk]
  | sum =>
    simp only [evalUnit, hk]
    rw [mapM_readWeight_ok (hL.weighted n hk), mapM_readResult_ok (val := f) (fun c _ => rfl)]
    change Except.ok _ = _
    rw [zip_map_out g n f, hf.sum n hk, List.map_map]
    congr 2
    apply List.map_congr_left
    intro e he
    simp [log_exp_getD (hL.weighted n hk e he)]
  | prod =>
    simp only [evalUnit, hk]
    rw [mapM_readResult_ok (val := f) (fun c _ => rfl)]
    change Except.ok _ = _
    rw [hf.prod n hk]
    simp [succ, Function.comp_def]

theorem logLik_meaning {g : Circuit} {r : Node} (hL : Layered g r) {sc : Node → Finset Var} (hs : Scoped g sc)
    (x : Var → ℝ) {f : Node → ℝ} (hf : CircuitValue g (fun d => (d.logLik (x d.var)).exp) f) :
    g.Meaning (logLikAlg (sc r) x) r (fun n => LogP.log (f n)) := by
  intro n hn
  have hri := (root_mem hL.root).1
  have hm := reachable_mem_ids hL.wf hri hn
  have hnn := circuitValue_nonneg hL.wf hL.graded.acyclic hf (fun n d _ => LogP.exp_nonneg _)
  obtain ⟨k, hk⟩ := exists_kind? hm
  cases k with
  | leaf d =>
    have hd : d.var ∈ sc r := scope_mono hL.wf hL.leaves hs hri hn (by simp [hs.leaf n d hk])
    simp [evalUnit, hk, logLikAlg, hd, hf.leaf n d hk]
  | sum =>
    simp only [evalUnit, hk]
    rw [mapM_readWeight_ok (hL.weighted n hk), mapM_readResult_ok (val := fun n => LogP.log (f n)) (fun c _ => rfl)]
    change (if _ = [] then _ else _ : Except PyErr LogP) = _
    rw [zip_map_out g n (fun n => LogP.log (f n))]
    have hne : ((g.outEdges n).map fun e => (e.weight.getD 0, LogP.log (f e.dst))) ≠ [] := by
      have := hs.sumNe n hk
      simpa [succ] using this
    rw [if_neg hne, hf.sum n hk, LogP.logsumexp, List.map_map, List.map_map]
    congr 3
    apply List.map_congr_left
    intro e he
    simp only [Function.comp]
    rw [LogP.exp_add, log_exp_getD (hL.weighted n hk e he),
      LogP.exp_log (hnn _ (succ_mem_ids hL.wf (dst_mem_succ he)))]
  | prod =>
    simp only [evalUnit, hk]
    rw [mapM_readResult_ok (val := fun n => LogP.log (f n)) (fun c _ => rfl)]
    change Except.ok _ = _
    congr 1
    apply LogP.exp_injective
    rw [exp_foldr_add, LogP.exp_log (hnn n hm), hf.prod n hk, List.map_map]
    simp only [succ, List.map_map]
    congr 1
    apply List.map_congr_left
    intro e he
    simp only [Function.comp]
    rw [LogP.exp_log (hnn _ (succ_mem_ids hL.wf (dst_mem_succ he)))]

end PM
