import Verif.Circuit.Induced

/-! Helper lemmas for C10 (`marginal`). -/

namespace PM.Graph

open Spec

variable {g : Circuit} {r : Node} {sc : Node → Finset Var} {vs : Finset Var}

/-- The unit has a variable that is kept. -/
def keeps (sc : Node → Finset Var) (vs : Finset Var) (n : Node) : Bool := decide ((sc n ∩ vs).Nonempty)

theorem keeps_iff {n : Node} : keeps sc vs n = true ↔ ∃ v ∈ sc n, v ∈ vs := by
  simp [keeps, Finset.Nonempty]

theorem scope_edge (hs : Scoped g sc) (hw : g.WF) (hl : g.LeafTerminal) {e : Edge} (he : e ∈ g.edges) :
    sc e.dst ⊆ sc e.src := by
  obtain ⟨k, hk⟩ := exists_kind? (hw.srcMem e he)
  have hc : e.dst ∈ g.succ e.src := mem_succ.2 ⟨e, he, rfl, rfl⟩
  cases k with
  | leaf d => rw [hl _ _ hk] at hc; cases hc
  | sum => rw [hs.sum _ hk _ hc]
  | prod => exact fun v hv => (hs.prod _ hk v).2 ⟨_, hc, hv⟩

theorem bottomUp_mem (hL : Layered g r) {n : Node} : n ∈ g.bottomUp r ↔ n ∈ g.ids := by
  have hri := (root_mem hL.root).1
  have : n ∈ g.bottomUp r ↔ n ∈ (g.layersFrom r).flatten := by
    unfold bottomUp
    simp only [List.mem_flatten, List.mem_reverse]
  rw [this, mem_layersFrom_iff hL.wf hL.graded hri]
  exact ⟨reachable_mem_ids hL.wf hri, reachable_of_root hL.wf hL.graded.acyclic hL.root n⟩

theorem bottomUp_getLast (hr : r ∈ g.ids) : (g.bottomUp r).getLast? = some r := by
  have h := layersFrom_head hr
  unfold bottomUp
  cases hl : g.layersFrom r with
  | nil => rw [hl] at h; cases h
  | cons l ls =>
    rw [hl] at h
    simp only [List.headD_cons] at h
    subst h
    simp

theorem bottomUp_order (hL : Layered g r) {depth : Node → Nat} (hd : ∀ e ∈ g.edges, depth e.dst = depth e.src + 1) :
    (g.bottomUp r).Nodup ∧ (g.bottomUp r).Pairwise (fun a b => depth b ≤ depth a) := by
  obtain ⟨_, hok⟩ := layersFrom_strat hL.wf hd (root_mem hL.root).1
  refine ⟨?_, hok.sorted⟩
  have := hok.nodup
  unfold bottomUp
  exact ((List.reverse_perm _).flatten.nodup_iff).2 this

theorem marginal_loop (hw : g.WF) (hl : g.LeafTerminal) (hs : Scoped g sc) {depth : Node → Nat}
    (hd : ∀ e ∈ g.edges, depth e.dst = depth e.src + 1) : ∀ (l : List Node) (b : Bool), (∀ n ∈ l, n ∈ g.ids) → l.Nodup →
    l.Pairwise (fun a b => depth b ≤ depth a) →
    l.foldlM (marginalUnit vs) (g.induced (fun n => decide (n ∈ l) || keeps sc vs n), b)
      = .ok (g.induced (keeps sc vs), (l.getLast?.map (keeps sc vs)).getD b) := by
  intro l
  induction l with
  | nil => intro b _ _ _; simp [pure, Except.pure]
  | cons n l ih =>
    intro b hmem hnd hp
    rw [List.nodup_cons] at hnd
    rw [List.pairwise_cons] at hp
    obtain ⟨k, hk⟩ := exists_kind? (hmem n (by simp))
    have hkn : (fun m => decide (m ∈ n :: l) || keeps sc vs m) n = true := by simp
    have hk' : (g.induced (fun m => decide (m ∈ n :: l) || keeps sc vs m)).kind? n = some k := by
      rw [kind?_induced, if_pos hkn, hk]
    have hyes : keeps sc vs n = true → g.induced (fun m => decide (m ∈ n :: l) || keeps sc vs m)
        = g.induced (fun m => decide (m ∈ l) || keeps sc vs m) := by
      intro h
      apply induced_congr hw
      intro m _
      by_cases hm : m = n
      · subst hm; simp [h]
      · simp [hm]
    have hno : keeps sc vs n = false → (g.induced (fun m => decide (m ∈ n :: l) || keeps sc vs m)).removeNode n
        = g.induced (fun m => decide (m ∈ l) || keeps sc vs m) := by
      intro h
      rw [removeNode_eq_induced, induced_induced]
      apply induced_congr hw
      intro m _
      by_cases hm : m = n
      · subst hm; simp [h, hnd.1]
      · simp [hm]
    have hstep : marginalUnit vs (g.induced (fun m => decide (m ∈ n :: l) || keeps sc vs m), b) n
        = .ok (g.induced (fun m => decide (m ∈ l) || keeps sc vs m), keeps sc vs n) := by
      have hinner : ∀ hkk : k = .sum ∨ k = .prod,
          (if (g.induced (fun m => decide (m ∈ n :: l) || keeps sc vs m)).succ n = [] then
            (.ok ((g.induced (fun m => decide (m ∈ n :: l) || keeps sc vs m)).removeNode n, false) : Except PyErr _)
            else .ok (g.induced (fun m => decide (m ∈ n :: l) || keeps sc vs m), true))
          = .ok (g.induced (fun m => decide (m ∈ l) || keeps sc vs m), keeps sc vs n) := by
        intro hkk
        have hsucc : (g.induced (fun m => decide (m ∈ n :: l) || keeps sc vs m)).succ n = (g.succ n).filter (keeps sc vs) := by
          rw [succ_induced hkn]
          apply List.filter_congr
          intro c hc
          obtain ⟨e, he, h1, h2⟩ := mem_succ.1 hc
          have hdep := hd e he
          have : c ∉ n :: l := by
            intro h
            rcases List.mem_cons.1 h with h | h
            · rw [h1, h2, h] at hdep; omega
            · have := hp.1 c h
              rw [h1, h2] at hdep; omega
          rw [decide_eq_false this]; rfl
        rw [hsucc]
        by_cases hkeep : keeps sc vs n = true
        · rw [if_neg, hyes hkeep, hkeep]
          obtain ⟨v, hv1, hv2⟩ := keeps_iff.1 hkeep
          rcases hkk with rfl | rfl
          · obtain ⟨c, hc⟩ := List.exists_mem_of_ne_nil _ (hs.sumNe n hk)
            have : c ∈ (g.succ n).filter (keeps sc vs) :=
              List.mem_filter.2 ⟨hc, keeps_iff.2 ⟨v, by rw [hs.sum n hk c hc]; exact hv1, hv2⟩⟩
            exact List.ne_nil_of_mem this
          · obtain ⟨c, hc, hvc⟩ := (hs.prod n hk v).1 hv1
            have : c ∈ (g.succ n).filter (keeps sc vs) := List.mem_filter.2 ⟨hc, keeps_iff.2 ⟨v, hvc, hv2⟩⟩
            exact List.ne_nil_of_mem this
        · have hkeep' := Bool.eq_false_iff.2 hkeep
          rw [if_pos, hno hkeep', hkeep']
          rw [List.filter_eq_nil_iff]
          intro c hc hkc
          obtain ⟨v, hv1, hv2⟩ := keeps_iff.1 hkc
          obtain ⟨e, he, h1, h2⟩ := mem_succ.1 hc
          exact hkeep (keeps_iff.2 ⟨v, h1 ▸ scope_edge hs hw hl he (h2 ▸ hv1), hv2⟩)
      unfold marginalUnit
      simp only [hk']
      cases k with
      | leaf d =>
        have hsc := hs.leaf n d hk
        have hkd : keeps sc vs n = decide (d.var ∈ vs) := by
          rw [Bool.eq_iff_iff, keeps_iff, hsc]; simp
        simp only
        split
        · rename_i h
          have : keeps sc vs n = true := by rw [hkd]; simpa using h
          rw [hyes this, this]
        · rename_i h
          have : keeps sc vs n = false := by rw [hkd]; simpa using h
          rw [hno this, this]
      | sum => exact hinner (.inl rfl)
      | prod => exact hinner (.inr rfl)
    rw [List.foldlM_cons, hstep]
    show List.foldlM (marginalUnit vs) _ l = _
    rw [ih _ (fun m hm => hmem m (by simp [hm])) hnd.2 hp.2]
    cases l with
    | nil => simp
    | cons a l => rw [List.getLast?_cons_cons]; simp [List.getLast?_eq_some_getLast]

/-! ### The circuit restricted to the units with a kept variable -/

theorem restrict_layered (hL : Layered g r) (hs : Scoped g sc) (hk : keeps sc vs r) :
    Layered (g.induced (keeps sc vs)) r where
  wf := hL.wf.induced _
  graded := hL.graded.induced _
  leaves := hL.leaves.induced _
  weighted := by
    intro n h e he
    obtain ⟨h1, h2⟩ := kind?_of_induced h
    rw [outEdges_induced h2] at he
    exact hL.weighted n h1 e (List.mem_filter.1 he).1
  root := by
    refine root_induced hL.root hL.wf hk ?_
    intro n hn hkn hne
    cases hin : g.inEdges n with
    | nil => exact absurd (root_unique hL.root hn hin) hne
    | cons e l =>
      have he := mem_inEdges.1 (show e ∈ g.inEdges n by simp [hin])
      refine ⟨e, he.1, he.2, ?_⟩
      obtain ⟨v, hv1, hv2⟩ := keeps_iff.1 hkn
      exact keeps_iff.2 ⟨v, scope_edge hs hL.wf hL.leaves he.1 (he.2 ▸ hv1), hv2⟩

theorem outEdges_restrict_sum (hs : Scoped g sc) {n : Node} (hk : g.kind? n = some .sum) (hn : keeps sc vs n) :
    (g.induced (keeps sc vs)).outEdges n = g.outEdges n := by
  rw [outEdges_induced hn, List.filter_eq_self]
  intro e he
  obtain ⟨v, hv1, hv2⟩ := keeps_iff.1 hn
  exact keeps_iff.2 ⟨v, by rw [hs.sum n hk e.dst (dst_mem_succ he)]; exact hv1, hv2⟩

theorem restrict_scoped (hs : Scoped g sc) : Scoped (g.induced (keeps sc vs)) (fun n => sc n ∩ vs) where
  leaf n d h := by
    obtain ⟨h1, h2⟩ := kind?_of_induced h
    obtain ⟨v, hv1, hv2⟩ := keeps_iff.1 h2
    have := hs.leaf n d h1
    rw [this] at hv1 ⊢
    rw [Finset.mem_singleton] at hv1
    subst hv1
    exact Finset.inter_eq_left.2 (by simpa using hv2)
  sumNe n h := by
    obtain ⟨h1, h2⟩ := kind?_of_induced h
    simp only [succ, outEdges_restrict_sum hs h1 h2]
    exact hs.sumNe n h1
  sum n h c hc := by
    obtain ⟨h1, h2⟩ := kind?_of_induced h
    rw [succ_induced h2] at hc
    show sc c ∩ vs = sc n ∩ vs
    rw [hs.sum n h1 c (List.mem_filter.1 hc).1]
  prod n h v := by
    obtain ⟨h1, h2⟩ := kind?_of_induced h
    rw [succ_induced h2, Finset.mem_inter, hs.prod n h1 v]
    constructor
    · rintro ⟨⟨c, hc, hvc⟩, hv⟩
      exact ⟨c, List.mem_filter.2 ⟨hc, keeps_iff.2 ⟨v, hvc, hv⟩⟩, Finset.mem_inter.2 ⟨hvc, hv⟩⟩
    · rintro ⟨c, hc, hvc⟩
      rw [Finset.mem_inter] at hvc
      exact ⟨⟨c, (List.mem_filter.1 hc).1, hvc.1⟩, hvc.2⟩

theorem restrict_decomposable (hdec : Decomposable g sc) : Decomposable (g.induced (keeps sc vs)) (fun n => sc n ∩ vs) := by
  intro n h
  obtain ⟨h1, h2⟩ := kind?_of_induced h
  rw [succ_induced h2]
  refine ((hdec n h1).sublist List.filter_sublist).imp ?_
  intro a b hab
  exact Finset.disjoint_of_subset_left Finset.inter_subset_left
    (Finset.disjoint_of_subset_right Finset.inter_subset_left hab)

theorem restrict_normalized (hs : Scoped g sc) (hn : NormalizedSums g) : NormalizedSums (g.induced (keeps sc vs)) := by
  intro n h
  obtain ⟨h1, h2⟩ := kind?_of_induced h
  rw [outEdges_restrict_sum hs h1 h2]
  exact hn n h1

theorem restrict_positive (hs : Scoped g sc) (hn : PositiveWeights g) : PositiveWeights (g.induced (keeps sc vs)) := by
  intro n h
  obtain ⟨h1, h2⟩ := kind?_of_induced h
  rw [outEdges_restrict_sum hs h1 h2]
  exact hn n h1

theorem restrict_tree {keep : Node → Bool} (h : TreeShaped g) : TreeShaped (g.induced keep) :=
  fun e he e' he' => h e (mem_edges_induced.1 he).1 e' (mem_edges_induced.1 he').1

/-- Units without a kept variable have value one, if their leaves have. -/
theorem value_one (hL : Layered g r) (hs : Scoped g sc) (hn : NormalizedSums g) {ℓ : Leaf → ℝ} {f : Node → ℝ}
    (hf : CircuitValue g ℓ f) (hℓ : ∀ n d, g.kind? n = some (.leaf d) → d.var ∉ vs → ℓ d = 1) :
    ∀ n, n ∈ g.ids → keeps sc vs n = false → f n = 1 := by
  refine hL.graded.acyclic.induct (P := fun n => n ∈ g.ids → keeps sc vs n = false → f n = 1) ?_
  intro n ih hn' hkn
  have hchild : ∀ c ∈ g.succ n, f c = 1 := by
    intro c hc
    refine ih c hc (succ_mem_ids hL.wf hc) ?_
    rw [Bool.eq_false_iff] at hkn ⊢
    intro h
    apply hkn
    obtain ⟨v, hv1, hv2⟩ := keeps_iff.1 h
    obtain ⟨e, he, h1, h2⟩ := mem_succ.1 hc
    exact keeps_iff.2 ⟨v, h1 ▸ scope_edge hs hL.wf hL.leaves he (h2 ▸ hv1), hv2⟩
  obtain ⟨k, hk⟩ := exists_kind? hn'
  cases k with
  | leaf d =>
    rw [hf.leaf n d hk]
    refine hℓ n d hk ?_
    intro h
    rw [Bool.eq_false_iff] at hkn
    exact hkn (keeps_iff.2 ⟨d.var, by rw [hs.leaf n d hk]; simp, h⟩)
  | sum =>
    rw [hf.sum n hk, ← hn n hk]
    congr 1
    apply List.map_congr_left
    intro e he
    rw [hchild _ (dst_mem_succ he), mul_one]
  | prod =>
    rw [hf.prod n hk]
    apply List.prod_eq_one
    intro x hx
    obtain ⟨e, he, rfl⟩ := List.mem_map.1 hx
    exact hchild _ (dst_mem_succ he)

theorem prod_filter_one {l : List Edge} {f : Node → ℝ} {p : Node → Bool} (h : ∀ e ∈ l, p e.dst = false → f e.dst = 1) :
    ((l.filter fun e => p e.dst).map fun e => f e.dst).prod = (l.map fun e => f e.dst).prod := by
  induction l with
  | nil => rfl
  | cons e l ih =>
    have ih' := ih fun e' he' => h e' (by simp [he'])
    cases hp : p e.dst with
    | true => rw [List.filter_cons_of_pos (by simpa using hp)]; simp [ih']
    | false =>
      rw [List.filter_cons_of_neg (by simpa using hp)]
      simp [ih', h e (by simp) hp]

/-- A valuation that is one at the leaves that are dropped is a valuation of the restricted circuit. -/
theorem restrict_value (hL : Layered g r) (hs : Scoped g sc) (hn : NormalizedSums g) {ℓ : Leaf → ℝ} {f : Node → ℝ}
    (hf : CircuitValue g ℓ f) (hℓ : ∀ n d, g.kind? n = some (.leaf d) → d.var ∉ vs → ℓ d = 1) :
    CircuitValue (g.induced (keeps sc vs)) ℓ f where
  leaf n d h := hf.leaf n d (kind?_of_induced h).1
  sum n h := by
    obtain ⟨h1, h2⟩ := kind?_of_induced h
    rw [outEdges_restrict_sum hs h1 h2]
    exact hf.sum n h1
  prod n h := by
    obtain ⟨h1, h2⟩ := kind?_of_induced h
    rw [outEdges_induced h2, hf.prod n h1, prod_filter_one]
    intro e he hk
    exact value_one hL hs hn hf hℓ e.dst (hL.wf.dstMem e (mem_outEdges.1 he).1) hk

/-- `marginal` up to the simplification: `None` if no variable is kept, otherwise the restricted circuit simplified. -/
theorem marginal_eq (hL : Layered g r) (hs : Scoped g sc) :
    g.marginalInPlace vs = if keeps sc vs r then ((g.induced (keeps sc vs)).simplify).map some else .ok none := by
  obtain ⟨depth, hd⟩ := hL.graded
  obtain ⟨hnd, hp⟩ := bottomUp_order hL hd
  have hri := (root_mem hL.root).1
  have h := marginal_loop (vs := vs) hL.wf hL.leaves hs hd (g.bottomUp r) false
    (fun n hn => (bottomUp_mem hL).1 hn) hnd hp
  rw [induced_all hL.wf (fun n hn => by simp [(bottomUp_mem hL).2 hn]), bottomUp_getLast hri] at h
  unfold marginalInPlace
  rw [hL.root]
  simp only [bind, Except.bind]
  rw [h]
  simp only [Option.map_some, Option.getD_some]
  split
  · rename_i hk
    have hL' := restrict_layered hL hs hk
    rw [removeUnreachable_eq hL'.wf hL'.graded hL'.root]
    cases (g.induced (keeps sc vs)).simplify <;> rfl
  · rfl

end PM.Graph
