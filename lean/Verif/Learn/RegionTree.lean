import Verif.Learn.RegionGraphLemmas
import Mathlib.Data.List.GetD

/-! The shape of random region graphs: trees in which the children of a partition are all leaves or all inner regions. -/

namespace PM.Learn
open Spec RegionGraph

/-- Every node but the first one is the target of exactly one edge, from an older node. -/
structure TreeEdges (g : RegionGraph) : Prop where
  nonempty : 0 < g.nodes.length
  targets : g.edges.map Prod.snd = List.range' 1 (g.nodes.length - 1)
  older : ∀ e ∈ g.edges, e.1 < e.2

theorem TreeEdges.attach {g : RegionGraph} (h : TreeEdges g) {x : ℕ} (hx : x < g.nodes.length) (y : RKind) : TreeEdges (g.attach x y) := by
  have h0 := h.nonempty
  refine ⟨by simp [RegionGraph.attach], ?_, ?_⟩
  · simp only [RegionGraph.attach, List.map_append, List.map_cons, List.map_nil, List.length_append, List.length_cons, List.length_nil, h.targets]
    have : g.nodes.length + (0 + 1) - 1 = (g.nodes.length - 1) + 1 := by omega
    rw [this, List.range'_concat]
    congr 2
    omega
  · intro e he
    simp only [RegionGraph.attach, List.mem_append, List.mem_singleton] at he
    rcases he with he | rfl
    · exact h.older e he
    · exact hx

theorem TreeEdges.lt {g : RegionGraph} (h : TreeEdges g) {n c : ℕ} (hc : c ∈ g.children n) : n < c ∧ c < g.nodes.length := by
  obtain ⟨e, he, rfl⟩ := List.mem_map.1 hc
  rw [List.mem_filter, beq_iff_eq] at he
  obtain ⟨he, rfl⟩ := he
  have h1 : e.2 ∈ g.edges.map Prod.snd := List.mem_map_of_mem he
  rw [h.targets, List.mem_range'_1] at h1
  have h2 := h.older e he
  exact ⟨h2, by omega⟩

/-- A region with one variable and without partition, or a region with a partition. -/
def ChildOk (g : RegionGraph) (leaf : Bool) (c : ℕ) : Prop :=
  match leaf with
  | true => ∃ v, IsRegion g c {v} ∧ g.children c = []
  | false => (∃ W, IsRegion g c W) ∧ g.children c ≠ []

/-- A finished partition. -/
def Done (g : RegionGraph) (p : ℕ) : Prop := g.children p ≠ [] ∧ ∃ leaf, ∀ c ∈ g.children p, ChildOk g leaf c

theorem ChildOk.region {g : RegionGraph} {leaf : Bool} {c : ℕ} (h : ChildOk g leaf c) : ∃ W, IsRegion g c W := by
  cases leaf with
  | true => exact ⟨_, h.choose_spec.1⟩
  | false => exact h.1

theorem ChildOk.attach {g : RegionGraph} {leaf : Bool} {c : ℕ} (h : ChildOk g leaf c) {x : ℕ} (hx : leaf = true → c ≠ x) (y : RKind) :
    ChildOk (g.attach x y) leaf c := by
  cases leaf with
  | true =>
    obtain ⟨v, h1, h2⟩ := h
    exact ⟨v, h1.attach _ _, by rw [children_attach, if_neg (hx rfl), h2]; rfl⟩
  | false =>
    obtain ⟨⟨W, h1⟩, h2⟩ := h
    exact ⟨⟨W, h1.attach _ _⟩, by rw [children_attach]; simp [h2]⟩

/-- Attaching to a node that is no child of the partition, or to a partition, keeps it finished. -/
theorem Done.attach {g : RegionGraph} {p : ℕ} (h : Done g p) {x : ℕ} (hp : p ≠ x) (hx : ∀ c ∈ g.children p, ∀ W, IsRegion g c W → c ≠ x)
    (y : RKind) : Done (g.attach x y) p := by
  obtain ⟨h1, leaf, h2⟩ := h
  have hc : (g.attach x y).children p = g.children p := by rw [children_attach, if_neg hp, List.append_nil]
  refine ⟨by rw [hc]; exact h1, leaf, ?_⟩
  rw [hc]
  intro c hc
  obtain ⟨W, hW⟩ := (h2 c hc).region
  exact (h2 c hc).attach (fun _ => hx c hc W hW) y

/-- The shape while the partition `p` is being worked on. -/
structure Shaping (V : Finset Var) (g : RegionGraph) (q : List Pending) (p : ℕ) (leaf : Bool) : Prop where
  tree : TreeEdges g
  part : IsPartition g p
  sub : ∀ R W, IsRegion g R W → W ⊆ V
  regions : ∀ R W, IsRegion g R W → ∀ c ∈ g.children R, IsPartition g c
  mine : ∀ c ∈ g.children p, ChildOk g leaf c
  waiting : ∀ it ∈ q, IsPartition g it.part
  done : ∀ n, IsPartition g n → n ≠ p → n ∉ q.map Pending.part → Done g n

/-- The shape between the rounds. -/
structure Shaped (V : Finset Var) (g : RegionGraph) (q : List Pending) : Prop where
  tree : TreeEdges g
  sub : ∀ R W, IsRegion g R W → W ⊆ V
  regions : ∀ R W, IsRegion g R W → ∀ c ∈ g.children R, IsPartition g c
  done : ∀ n, IsPartition g n → n ∉ q.map Pending.part → Done g n

theorem not_both {g : RegionGraph} {n : ℕ} {W : Finset Var} (h1 : IsRegion g n W) (h2 : IsPartition g n) : False := by
  rw [IsRegion, h2] at h1
  cases h1

theorem isRegion_attach {g : RegionGraph} {x n : ℕ} {y : RKind} {W : Finset Var} (h : IsRegion (g.attach x y) n W) :
    IsRegion g n W ∨ (n = g.nodes.length ∧ y = .region W) := by
  have h1 := h.lt
  rw [length_attach] at h1
  by_cases hn : n = g.nodes.length
  · right
    subst hn
    rw [IsRegion, attach_new] at h
    injection h with h
    exact ⟨rfl, h⟩
  · left
    rwa [IsRegion, attach_node _ _ _ (by omega)] at h

theorem isPartition_attach {g : RegionGraph} {x n : ℕ} {y : RKind} (h : IsPartition (g.attach x y) n) :
    IsPartition g n ∨ (n = g.nodes.length ∧ y = .partition) := by
  have h1 := h.lt
  rw [length_attach] at h1
  by_cases hn : n = g.nodes.length
  · right
    subst hn
    rw [IsPartition, attach_new] at h
    injection h with h
    exact ⟨rfl, h⟩
  · left
    rwa [IsPartition, attach_node _ _ _ (by omega)] at h

theorem TreeEdges.children_new {g : RegionGraph} (h : TreeEdges g) {n : ℕ} (hn : g.nodes.length ≤ n) : g.children n = [] := by
  rw [List.eq_nil_iff_forall_not_mem]
  intro c hc
  have := h.lt hc
  omega

theorem Shaping.leaf {V : Finset Var} {g : RegionGraph} {q : List Pending} {p : ℕ} (h : Shaping V g q p true) {v : Var} (hv : v ∈ V) :
    Shaping V (g.attach p (.region {v})) q p true := by
  have hp := h.part.lt
  refine ⟨h.tree.attach hp _, h.part.attach _ _, ?_, ?_, ?_, fun it hi => (h.waiting it hi).attach _ _, ?_⟩
  · intro R W hR
    rcases isRegion_attach hR with hR | ⟨rfl, hy⟩
    · exact h.sub R W hR
    · injection hy with hy
      subst hy
      simpa using hv
  · intro R W hR c hc
    rw [children_attach] at hc
    rcases isRegion_attach hR with hR | ⟨rfl, hy⟩
    · have hRp : R ≠ p := fun he => not_both hR (he ▸ h.part)
      rw [if_neg hRp, List.append_nil] at hc
      exact (h.regions R W hR c hc).attach _ _
    · rw [if_neg (by omega), h.tree.children_new le_rfl] at hc
      simp at hc
  · intro c hc
    rw [children_attach, if_pos rfl, List.mem_append, List.mem_singleton] at hc
    rcases hc with hc | rfl
    · obtain ⟨W, hW⟩ := (h.mine c hc).region
      exact (h.mine c hc).attach (fun _ he => not_both hW (he ▸ h.part)) _
    · refine ⟨v, attach_new _ _ _, ?_⟩
      rw [children_attach, if_neg (by omega), h.tree.children_new le_rfl]
      rfl
  · intro n hn hne hq
    rcases isPartition_attach hn with hn | ⟨_, hy⟩
    · exact (h.done n hn hne hq).attach hne (fun c hc W hW he => not_both hW (he ▸ h.part)) _
    · cases hy

theorem Shaping.child {V : Finset Var} {g : RegionGraph} {q : List Pending} {p : ℕ} (h : Shaping V g q p false) (d : ℕ) {W : Finset Var}
    (hW : W ⊆ V) : Shaping V (addRegion p d (g, q) W).1 (addRegion p d (g, q) W).2 p false := by
  have hp := h.part.lt
  set g1 := g.attach p (.region W) with hg1
  have hl1 : g1.nodes.length = g.nodes.length + 1 := length_attach _ _ _
  have htree1 : TreeEdges g1 := h.tree.attach hp _
  have hreg1 : IsRegion g1 g.nodes.length W := attach_new _ _ _
  have hpart1 : IsPartition g1 p := h.part.attach _ _
  have hlt : ∀ n c, c ∈ g.children n → c < g.nodes.length := fun n c hc => (h.tree.lt hc).2
  show Shaping V (g1.attach g.nodes.length .partition) (q ++ [⟨g.nodes.length, W, d, g.nodes.length + 1⟩]) p false
  refine ⟨htree1.attach (by omega) _, hpart1.attach _ _, ?_, ?_, ?_, ?_, ?_⟩
  · intro R W' hR
    rcases isRegion_attach hR with hR | ⟨_, hy⟩
    · rcases isRegion_attach hR with hR | ⟨_, hy⟩
      · exact h.sub R W' hR
      · injection hy with hy
        exact hy ▸ hW
    · cases hy
  · intro R W' hR c hc
    rw [children_attach, List.mem_append] at hc
    rcases hc with hc | hc
    · rw [hg1, children_attach, List.mem_append] at hc
      rcases isRegion_attach hR with hR | ⟨_, hy⟩
      · rcases hc with hc | hc
        · rcases isRegion_attach hR with hR | ⟨rfl, _⟩
          · exact ((h.regions R W' hR c hc).attach _ _).attach _ _
          · rw [h.tree.children_new le_rfl] at hc
            cases hc
        · by_cases hRp : R = p
          · exact absurd hpart1 (fun h' => not_both hR (hRp ▸ h'))
          · rw [if_neg hRp] at hc
            cases hc
      · cases hy
    · by_cases hRn : R = g.nodes.length
      · rw [if_pos hRn, List.mem_singleton] at hc
        rw [hc]
        exact attach_new _ _ _
      · rw [if_neg hRn] at hc
        cases hc
  · intro c hc
    rw [children_attach, if_neg (by omega), List.append_nil, hg1, children_attach, if_pos rfl, List.mem_append, List.mem_singleton] at hc
    rcases hc with hc | rfl
    · exact ((h.mine c hc).attach (by simp) _).attach (by simp) _
    · refine ⟨⟨W, hreg1.attach _ _⟩, ?_⟩
      rw [children_attach, if_pos rfl]
      simp
  · intro it hi
    rcases List.mem_append.1 hi with hi | hi
    · exact ((h.waiting it hi).attach _ _).attach _ _
    · rw [List.mem_singleton.1 hi]
      show IsPartition _ (g.nodes.length + 1)
      rw [← hl1]
      exact attach_new _ _ _
  · intro n hn hne hq
    rw [List.map_append, List.mem_append, not_or] at hq
    rcases isPartition_attach hn with hn | ⟨rfl, _⟩
    · rcases isPartition_attach hn with hn | ⟨_, hy⟩
      · have h1 := (h.done n hn hne hq.1).attach (x := p) hne (fun c hc W hW he => not_both hW (he ▸ h.part)) (.region W)
        refine h1.attach hn.lt.ne ?_ _
        intro c hc W' _ he
        rw [children_attach, if_neg hne, List.append_nil] at hc
        have := hlt n c hc
        omega
      · cases hy
    · exact absurd (by simp [hl1]) hq.2

theorem Shaping.leaves {V : Finset Var} {p : ℕ} {q : List Pending} : ∀ (vs : List Var) {g : RegionGraph}, (∀ v ∈ vs, v ∈ V) →
    Shaping V g q p true → Shaping V (addLeaves g p vs) q p true
  | [], g, _, h => by simpa [addLeaves] using h
  | v :: vs, g, hv, h => by
    have := Shaping.leaves vs (fun v' hv' => hv v' (List.mem_cons_of_mem _ hv')) (h.leaf (hv v (List.mem_cons_self ..)))
    simpa [addLeaves] using this

theorem Shaping.inner {V : Finset Var} {p : ℕ} (d : ℕ) : ∀ (Ws : List (Finset Var)) {g : RegionGraph} {q : List Pending}, (∀ W ∈ Ws, W ⊆ V) →
    Shaping V g q p false → Shaping V (Ws.foldl (addRegion p d) (g, q)).1 (Ws.foldl (addRegion p d) (g, q)).2 p false
  | [], g, q, _, h => by simpa using h
  | W :: Ws, g, q, hW, h => by
    have := Shaping.inner d Ws (fun W' hW' => hW W' (List.mem_cons_of_mem _ hW')) (h.child d (hW W (List.mem_cons_self ..)))
    simpa using this

theorem Shaped.start {V : Finset Var} {g : RegionGraph} {it : Pending} {q : List Pending} (h : Shaped V g (it :: q))
    (hB : Between g (it :: q)) (leaf : Bool) : Shaping V g q it.part leaf := by
  have hw := hB.waiting it (by simp)
  refine ⟨h.tree, hw.part, h.sub, h.regions, ?_, fun i hi => (hB.waiting i (List.mem_cons_of_mem _ hi)).part, ?_⟩
  · rw [hw.children]
    simp
  · intro n hn hne hq
    exact h.done n hn (by simp only [List.map_cons, List.mem_cons, not_or]; exact ⟨hne, hq⟩)

theorem Shaping.finish {V : Finset Var} {g : RegionGraph} {q : List Pending} {p : ℕ} {leaf : Bool} (h : Shaping V g q p leaf)
    (hne : g.children p ≠ []) : Shaped V g q := by
  refine ⟨h.tree, h.sub, h.regions, fun n hn hq => ?_⟩
  by_cases hnp : n = p
  · subst hnp
    exact ⟨hne, leaf, h.mine⟩
  · exact h.done n hn hnp hq

theorem splitSizes_size {α : Type} : ∀ (ns : List ℕ) (l : List α), ns.sum ≤ l.length → (splitSizes ns l).map List.length = ns
  | [], l, h => rfl
  | n :: ns, l, h => by
    rw [List.sum_cons] at h
    rw [splitSizes, List.map_cons, splitSizes_size ns _ (by rw [List.length_drop]; omega), List.length_take, Nat.min_eq_left (by omega)]

/-- The parts of a random partition have at least the rounded down size. -/
theorem randomPartition_size {shuffle : List ℕ → List ℕ} (hs : ∀ l, (shuffle l).Perm l) (V : Finset Var) {k : ℕ} (hk : k ≠ 0)
    {Vs : List (Finset Var)} (h : randomPartition shuffle V k = .ok Vs) : ∀ W ∈ Vs, V.card / k ≤ W.card := by
  intro W hW
  have hperm := hs (List.range V.card)
  set l := shuffle (List.range V.card) with hl
  have hlen : l.length = V.card := by rw [hperm.length_eq, List.length_range]
  simp only [randomPartition, arraySplit, if_neg hk, bind, Except.bind] at h
  injection h with h
  subst h
  obtain ⟨s, hs', rfl⟩ := List.mem_map.1 hW
  rw [← hl, hlen] at hs'
  set ns := List.replicate (V.card % k) (V.card / k + 1) ++ List.replicate (k - V.card % k) (V.card / k) with hns
  have hsum : ns.sum = l.length := by
    have h1 := Nat.mod_lt V.card (Nat.pos_of_ne_zero hk)
    have h2 := Nat.mod_add_div V.card k
    rw [hlen, hns, List.sum_append, List.sum_replicate, List.sum_replicate, smul_eq_mul, smul_eq_mul]
    have h3 : k = V.card % k + (k - V.card % k) := by omega
    have h4 : k * (V.card / k) = (V.card % k) * (V.card / k) + (k - V.card % k) * (V.card / k) := by
      conv_lhs => rw [h3]
      rw [Nat.add_mul]
      have : V.card % k + (k - V.card % k) = k := by omega
      rw [this]
    rw [Nat.mul_add]
    omega
  have hsz : s.length ∈ ns := by
    rw [← splitSizes_size ns l hsum.le]
    exact List.mem_map_of_mem hs'
  have hge : V.card / k ≤ s.length := by
    rw [hns, List.mem_append, List.mem_replicate, List.mem_replicate] at hsz
    omega
  have hfl : (splitSizes ns l).flatten = l := splitSizes_flatten ns l hsum.ge
  have hnd : s.Nodup := (List.nodup_flatten.1 (by rw [hfl]; exact hperm.nodup_iff.2 List.nodup_range)).1 s hs'
  have hmem : ∀ i ∈ s, i < V.card := by
    intro i hi
    have : i ∈ l := by rw [← hfl]; exact List.mem_flatten.2 ⟨s, hs', hi⟩
    exact List.mem_range.1 (hperm.mem_iff.1 this)
  refine hge.trans ?_
  have hsort : (V.sort (· ≤ ·)).length = V.card := Finset.length_sort _
  have : (s.filterMap fun i => (V.sort (· ≤ ·))[i]?) = s.map fun i => (V.sort (· ≤ ·)).getD i 0 := by
    rw [← List.filterMap_eq_map]
    apply List.filterMap_congr
    intro i hi
    have := hmem i hi
    simp [hsort, this]
  rw [this, List.toFinset_card_of_nodup, List.length_map]
  refine (List.nodup_map_iff_inj_on hnd).2 ?_
  intro i hi j hj hij
  have h1 := hmem i hi
  have h2 := hmem j hj
  rw [List.getD_eq_getElem _ _ (by omega), List.getD_eq_getElem _ _ (by omega)] at hij
  exact (List.Nodup.getElem_inj_iff (Finset.sort_nodup _ _)).1 hij

theorem subset_of_union {Vs : List (Finset Var)} {V W : Finset Var} (h : Vs.foldr (· ∪ ·) ∅ = V) (hW : W ∈ Vs) : W ⊆ V := by
  subst h
  induction Vs with
  | nil => cases hW
  | cons U Vs ih =>
    rw [List.foldr_cons]
    rcases List.mem_cons.1 hW with rfl | hW
    · exact Finset.subset_union_left
    · exact (ih hW).trans Finset.subset_union_right

/-- All waiting regions are large enough to be split as often as needed. -/
def Large (k : ℕ) (q : List Pending) : Prop := ∀ it ∈ q, 2 * k ^ it.depth ≤ it.vars.card

theorem large_regions (p d k : ℕ) : ∀ (Ws : List (Finset Var)) (s : RegionGraph × List Pending), Large k s.2 →
    (∀ W ∈ Ws, 2 * k ^ d ≤ W.card) → Large k (Ws.foldl (addRegion p d) s).2
  | [], s, h, _ => h
  | W :: Ws, s, h, hW => by
    refine large_regions p d k Ws _ ?_ fun W' hW' => hW W' (List.mem_cons_of_mem _ hW')
    intro it hi
    simp only [addRegion, List.mem_append, List.mem_singleton] at hi
    rcases hi with hi | rfl
    · exact h it hi
    · exact hW W (List.mem_cons_self ..)

theorem Working.children_ne {g : RegionGraph} {q : List Pending} {p R : ℕ} {V : Finset Var} {Vs : List (Finset Var)}
    (h : Working g q p R V Vs) (hne : Vs ≠ []) : g.children p ≠ [] := by
  intro he
  have := h.children
  rw [he] at this
  exact hne (List.forall₂_nil_left_iff.1 this)

/-- If the waiting regions are large, the loop keeps the shape. -/
theorem splitLoop_shape {shuffles : ℕ → List ℕ → List ℕ} (hs : ∀ n l, (shuffles n l).Perm l) {k : ℕ} (hk : k ≠ 0) {V : Finset Var} :
    ∀ (fuel : ℕ) (g : RegionGraph) (q : List Pending), (q.map fun it => rounds k it.depth).sum ≤ fuel → Between g q → Shaped V g q → Large k q →
    (∀ it ∈ q, it.vars ⊆ V) → ∀ g', splitLoop shuffles k fuel g q = .ok g' → Shaped V g' [] := by
  intro fuel
  induction fuel with
  | zero =>
    intro g q hf hB hS hL hV g' h
    cases q with
    | nil => injection h with h; subst h; exact hS
    | cons it q => cases h
  | succ fuel ih =>
    intro g q hf hB hS hL hV g' h
    cases q with
    | nil => injection h with h; subst h; exact hS
    | cons it q =>
      simp only [List.map_cons, List.sum_cons] at hf
      have hpos := rounds_pos k it.depth
      have hcard := hL it (List.mem_cons_self ..)
      have hkp : 0 < k ^ it.depth := Nat.pow_pos (Nat.pos_of_ne_zero hk)
      have hc : it.vars.card ≠ 1 := by omega
      have hW := hB.start
      have hLq : Large k q := fun i hi => hL i (List.mem_cons_of_mem _ hi)
      have hVq : ∀ i ∈ q, i.vars ⊆ V := fun i hi => hV i (List.mem_cons_of_mem _ hi)
      have hVit := hV it (List.mem_cons_self ..)
      rw [splitLoop, if_neg hc] at h
      cases hd : it.depth with
      | zero =>
        rw [hd] at h
        simp only at h
        have hsort : it.vars.sort (· ≤ ·) ≠ [] := by
          intro he
          have := Finset.length_sort (· ≤ ·) (s := it.vars)
          rw [he] at this
          simp at this
          omega
        have hW1 := hW.leaves (it.vars.sort (· ≤ ·))
        have hS1 := (hS.start hB true).leaves (it.vars.sort (· ≤ ·)) (fun v hv => hVit ((Finset.mem_sort _).1 hv))
        refine ih _ q (by omega) (hW1.finish (by
              rw [if_neg hc, List.nil_append]
              refine ⟨singles_disjoint (Finset.sort_nodup _ _), ?_⟩
              rw [singles_union]
              simp)) (hS1.finish (hW1.children_ne (by simpa using hsort))) hLq hVq g' h
      | succ d =>
        obtain ⟨Vs, hV1, hV2, hV3, hV4⟩ := randomPartition_spec (hs g.nodes.length) it.vars hk
        rw [hd] at h
        simp only [hV1, bind, Except.bind] at h
        have hW1 := hW.regions d Vs
        have hsub : ∀ W ∈ Vs, W ⊆ V := fun W hW' => (subset_of_union hV3 hW').trans hVit
        have hS1 := (hS.start hB false).inner d Vs hsub
        have hVne : Vs ≠ [] := by
          intro he
          rw [he] at hV4
          exact hk hV4.symm
        refine ih _ _ (by
              rw [queue_addRegions, hV4]
              rw [hd, rounds] at hf
              show (q.map fun it => rounds k it.depth).sum + _ ≤ _
              omega)
          (hW1.finish (by rw [if_neg hc, List.nil_append]; exact ⟨hV2, hV3⟩)) (hS1.finish (hW1.children_ne (by simpa using hVne)))
          (large_regions _ _ _ Vs (g, q) hLq ?_) ?_ g' h
        · intro W hW'
          refine le_trans ?_ (randomPartition_size (hs g.nodes.length) it.vars hk hV1 W hW')
          rw [Nat.le_div_iff_mul_le (Nat.pos_of_ne_zero hk)]
          rw [hd, pow_succ] at hcard
          linarith
        · have : ∀ (Ws : List (Finset Var)) (s : RegionGraph × List Pending), (∀ it ∈ s.2, it.vars ⊆ V) → (∀ W ∈ Ws, W ⊆ V) →
              ∀ i ∈ (Ws.foldl (addRegion it.part d) s).2, i.vars ⊆ V := by
            intro Ws
            induction Ws with
            | nil => intro s h _; exact h
            | cons W Ws ih =>
              intro s h hW'
              refine ih _ ?_ fun W' hW'' => hW' W' (List.mem_cons_of_mem _ hW'')
              intro i hi
              simp only [addRegion, List.mem_append, List.mem_singleton] at hi
              rcases hi with hi | rfl
              · exact h i hi
              · exact hW' W (List.mem_cons_self ..)
          exact this Vs (g, q) hVq hsub

theorem recursiveSplit_shape {shuffles : ℕ → List ℕ → List ℕ} (hs : ∀ n l, (shuffles n l).Perm l) {k : ℕ} (hk : k ≠ 0) {depth : ℕ}
    {g : RegionGraph} (hB : Between g []) {V : Finset Var} (hS : Shaped V g []) (hV : 2 * k ^ depth ≤ V.card) (h0 : IsRegion g 0 V)
    {g' : RegionGraph} (h : recursiveSplit shuffles k depth V g 0 = .ok g') : Shaped V g' [] := by
  have hnew : IsPartition (g.attach 0 .partition) g.nodes.length := attach_new _ _ _
  refine splitLoop_shape hs hk _ _ _ (by simp) ?_ ?_ ?_ ?_ g' h
  · refine ⟨attach_bounded hB.bounded h0.lt _, ?_, by simp, ?_⟩
    · intro it hi
      rw [List.mem_singleton.1 hi]
      refine ⟨h0.attach _ _, hnew, ?_, ?_⟩
      · show (g.attach 0 .partition).parents g.nodes.length = [0]
        rw [parents_attach, if_pos rfl, parents_new hB.bounded le_rfl]; rfl
      · show (g.attach 0 .partition).children g.nodes.length = []
        rw [children_attach, if_neg h0.lt.ne', children_new hB.bounded le_rfl]; rfl
    · intro n hn
      rcases isPartition_attach hn with hn | ⟨rfl, _⟩
      · right
        rcases hB.others n hn with h' | h'
        · cases h'
        · exact h'.attach (x := 0) hn (fun he => not_both h0 (he ▸ hn)) _
      · left; simp
  · refine ⟨hS.tree.attach h0.lt _, ?_, ?_, ?_⟩
    · intro R W hR
      rcases isRegion_attach hR with hR | ⟨_, hy⟩
      · exact hS.sub R W hR
      · cases hy
    · intro R W hR c hc
      rcases isRegion_attach hR with hR | ⟨_, hy⟩
      · rw [children_attach, List.mem_append] at hc
        rcases hc with hc | hc
        · exact (hS.regions R W hR c hc).attach _ _
        · by_cases hR0 : R = 0
          · rw [if_pos hR0, List.mem_singleton] at hc
            exact hc ▸ hnew
          · rw [if_neg hR0] at hc
            cases hc
      · cases hy
    · intro n hn hq
      rcases isPartition_attach hn with hn | ⟨rfl, _⟩
      · refine (hS.done n hn (by simp)).attach (x := 0) (fun he => not_both h0 (he ▸ hn)) ?_ _
        intro c hc W _ he
        have := (hS.tree.lt hc).1
        omega
      · exact absurd (by simp) hq
  · intro it hi
    rw [List.mem_singleton.1 hi]
    exact hV
  · intro it hi
    rw [List.mem_singleton.1 hi]

theorem mem_addLeaves (p : ℕ) {e : ℕ × ℕ} : ∀ (vs : List Var) (g : RegionGraph), e ∈ g.edges → e ∈ (addLeaves g p vs).edges
  | [], _, h => h
  | v :: vs, g, h => mem_addLeaves p vs (g.attach p (.region {v})) (List.mem_append_left _ h)

theorem mem_addRegions (p d : ℕ) {e : ℕ × ℕ} : ∀ (Ws : List (Finset Var)) (s : RegionGraph × List Pending), e ∈ s.1.edges →
    e ∈ (Ws.foldl (addRegion p d) s).1.edges
  | [], _, h => h
  | _ :: Ws, _, h => mem_addRegions p d Ws _ (List.mem_append_left _ (List.mem_append_left _ h))

theorem mem_splitLoop {shuffles : ℕ → List ℕ → List ℕ} {k : ℕ} {e : ℕ × ℕ} : ∀ (fuel : ℕ) (g : RegionGraph) (q : List Pending) (g' : RegionGraph),
    splitLoop shuffles k fuel g q = .ok g' → e ∈ g.edges → e ∈ g'.edges
  | 0, g, [], g', h, he => by injection h with h; subst h; exact he
  | 0, g, it :: q, g', h, he => by cases h
  | fuel + 1, g, [], g', h, he => by injection h with h; subst h; exact he
  | fuel + 1, g, it :: q, g', h, he => by
    rw [splitLoop] at h
    split at h
    · exact mem_splitLoop fuel g q g' h he
    · split at h
      · exact mem_splitLoop fuel _ q g' h (mem_addLeaves _ _ _ he)
      · simp only [bind, Except.bind] at h
        split at h
        · cases h
        · exact mem_splitLoop fuel _ _ g' h (mem_addRegions _ _ _ _ he)

theorem create_shape {shuffles : ℕ → List ℕ → List ℕ} (hs : ∀ n l, (shuffles n l).Perm l) {k : ℕ} (hk : k ≠ 0) {depth : ℕ} {V : Finset Var}
    (hV : 2 * k ^ depth ≤ V.card) (l : List ℕ) : ∀ g, Between g [] → IsRegion g 0 V → Shaped V g [] → (g.children 0 ≠ [] ∨ l ≠ []) →
    ∃ g', l.foldlM (fun g _ => recursiveSplit shuffles k depth V g 0) g = .ok g' ∧ Between g' [] ∧ IsRegion g' 0 V ∧ Shaped V g' [] ∧
      g'.children 0 ≠ [] := by
  induction l with
  | nil =>
    intro g hB h0 hS hne
    exact ⟨g, rfl, hB, h0, hS, by simpa using hne⟩
  | cons a l ih =>
    intro g hB h0 hS _
    obtain ⟨g1, h1, h2, h3⟩ := recursiveSplit_spec hs hk depth hB h0
    have h01 : IsRegion g1 0 V := by
      obtain ⟨t, ht⟩ := h3
      rw [IsRegion, ← ht, List.getElem?_append_left h0.lt]
      exact h0
    obtain ⟨g', h4, h5⟩ := ih g1 h2 h01 (recursiveSplit_shape hs hk hB hS hV h0 h1) (Or.inl (by
      have he : (0, g.nodes.length) ∈ g1.edges := mem_splitLoop _ _ _ _ h1 (by simp [RegionGraph.attach])
      have : g.nodes.length ∈ g1.children 0 := List.mem_map.2 ⟨_, List.mem_filter.2 ⟨he, rfl⟩, rfl⟩
      exact List.ne_nil_of_mem this))
    exact ⟨g', by rw [List.foldlM_cons, h1]; exact h4, h5⟩

end PM.Learn
