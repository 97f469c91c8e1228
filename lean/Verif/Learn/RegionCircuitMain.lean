import Verif.Learn.RegionCircuitLemmas

/-! Random region graphs become circuits. -/

namespace PM.Learn
open Spec RegionGraph PM.Jax

/-! ### The order of the nodes -/

theorem TreeEdges.nodup {g : RegionGraph} (h : TreeEdges g) : (g.edges.map Prod.snd).Nodup := by
  rw [h.targets]
  exact List.nodup_range'

theorem TreeEdges.parent_unique {g : RegionGraph} (h : TreeEdges g) {n m c : ℕ} (hn : c ∈ g.children n) (hm : c ∈ g.children m) : n = m := by
  obtain ⟨e, he, rfl⟩ := List.mem_map.1 hn
  obtain ⟨e', he', hee⟩ := List.mem_map.1 hm
  rw [List.mem_filter, beq_iff_eq] at he he'
  have := List.inj_on_of_nodup_map h.nodup he.1 he'.1 hee.symm
  rw [← he.2, ← he'.2, this]

theorem TreeEdges.children_nodup {g : RegionGraph} (h : TreeEdges g) (n : ℕ) : (g.children n).Nodup :=
  List.Nodup.sublist (List.Sublist.map _ List.filter_sublist) h.nodup

theorem TreeEdges.parents_zero {g : RegionGraph} (h : TreeEdges g) : g.parents 0 = [] := by
  rw [RegionGraph.parents, List.map_eq_nil_iff, List.filter_eq_nil_iff]
  intro e he
  have := h.older e he
  simp
  omega

theorem TreeEdges.parents_ne {g : RegionGraph} (h : TreeEdges g) {n : ℕ} (hn : n ≠ 0) (hl : n < g.nodes.length) : g.parents n ≠ [] := by
  have h1 : n ∈ g.edges.map Prod.snd := by
    rw [h.targets, List.mem_range'_1]
    omega
  obtain ⟨e, he, rfl⟩ := List.mem_map.1 h1
  exact List.ne_nil_of_mem (List.mem_map.2 ⟨e, List.mem_filter.2 ⟨he, by simp⟩, rfl⟩)

theorem TreeEdges.root {g : RegionGraph} (h : TreeEdges g) : g.root = .ok 0 := by
  have : (List.range g.nodes.length).filter (fun n => (g.parents n).length == 0) = [0] := by
    obtain ⟨m, hm⟩ : ∃ m, g.nodes.length = m + 1 := ⟨g.nodes.length - 1, by have := h.nonempty; omega⟩
    rw [hm, List.range_succ_eq_map, List.filter_cons, if_pos (by rw [h.parents_zero]; rfl)]
    congr 1
    rw [List.filter_eq_nil_iff]
    intro n hn
    obtain ⟨i, hi, rfl⟩ := List.mem_map.1 hn
    rw [List.mem_range] at hi
    have := h.parents_ne (n := i.succ) (by omega) (by omega)
    simpa using this
  rw [RegionGraph.root, this]

theorem bfsFold {v : List ℕ} : ∀ (cs acc : List ℕ), (acc ++ cs).Nodup → (∀ c ∈ cs, c ∉ v) →
    cs.foldl (fun (acc : List ℕ × List ℕ) c => if c ∈ acc.2 then acc else (acc.1 ++ [c], acc.2 ++ [c])) (acc, v ++ acc)
      = (acc ++ cs, v ++ (acc ++ cs))
  | [], acc, _, _ => by simp
  | c :: cs, acc, hn, hv => by
    have hc : c ∉ v ++ acc := by
      rw [List.mem_append, not_or]
      refine ⟨hv c (List.mem_cons_self ..), fun hca => ?_⟩
      exact (List.nodup_append.1 hn).2.2 c hca c (List.mem_cons_self ..) rfl
    rw [List.foldl_cons, if_neg hc]
    have := bfsFold (v := v) cs (acc ++ [c]) (by simpa using hn) fun c' hc' => hv c' (List.mem_cons_of_mem _ hc')
    simpa using this

theorem bfsNext_eq' {g : RegionGraph} {v l : List ℕ} (hn : (l.flatMap g.children).Nodup) (hv : ∀ c ∈ l.flatMap g.children, c ∉ v) :
    g.bfsNext v l = (l.flatMap g.children, v ++ l.flatMap g.children) := by
  have := bfsFold (v := v) (l.flatMap g.children) [] (by simpa using hn) hv
  simpa [RegionGraph.bfsNext] using this

/-- Every node comes after its children. -/
def ChildrenFirst (g : RegionGraph) (ns : List ℕ) : Prop := ∀ pre n post, ns = pre ++ n :: post → ∀ c ∈ g.children n, c ∈ pre

theorem flatMap_children_nodup {g : RegionGraph} (hT : TreeEdges g) : ∀ {l : List ℕ}, l.Nodup → (l.flatMap g.children).Nodup
  | [], _ => by simp
  | n :: l, h => by
    rw [List.nodup_cons] at h
    rw [List.flatMap_cons, List.nodup_append]
    refine ⟨hT.children_nodup n, flatMap_children_nodup hT h.2, ?_⟩
    intro a ha b hb hab
    subst hab
    obtain ⟨m, hm, hb⟩ := List.mem_flatMap.1 hb
    exact h.1 (hT.parent_unique ha hb ▸ hm)

theorem bfs_order {g : RegionGraph} (hT : TreeEdges g) : ∀ (fuel : ℕ) (E l : List ℕ) (b : ℕ), g.nodes.length ≤ b + fuel → (∀ n ∈ l, b ≤ n) →
    (∀ n ∈ l, n < g.nodes.length) → l.Nodup → (∀ n ∈ l, n ∉ E) → (∀ c ∈ E ++ l, c = 0 ∨ ∃ u ∈ E, c ∈ g.children u) →
    ChildrenFirst g (g.bfsLoop fuel (E ++ l) l).reverse.flatten ∧ (∀ n ∈ (g.bfsLoop fuel (E ++ l) l).reverse.flatten, n < g.nodes.length) ∧
      ∀ n ∈ l, n ∈ (g.bfsLoop fuel (E ++ l) l).reverse.flatten := by
  intro fuel
  induction fuel with
  | zero =>
    intro E l b hb hl hlt _ _ _
    refine ⟨?_, by simp [bfsLoop], ?_⟩
    · intro pre n post h
      simp [bfsLoop] at h
    · intro n hn
      have := hl n hn
      have := hlt n hn
      omega
  | succ fuel ih =>
    intro E l b hb hl hlt hnd hdis hpar
    cases l with
    | nil =>
      refine ⟨?_, by simp [bfsLoop], by simp⟩
      intro pre n post h
      simp [bfsLoop] at h
    | cons x l =>
      set l0 := x :: l with hl0
      set l' := l0.flatMap g.children with hl'
      have hnext : g.bfsNext (E ++ l0) l0 = (l', (E ++ l0) ++ l') := by
        apply bfsNext_eq' (flatMap_children_nodup hT hnd)
        intro c hc hcv
        obtain ⟨n, hn, hcn⟩ := List.mem_flatMap.1 hc
        rcases hpar c hcv with h0 | ⟨u, hu, hcu⟩
        · have := (hT.lt hcn).1
          omega
        · exact hdis n hn (hT.parent_unique hcn hcu ▸ hu)
      have hstep : g.bfsLoop (fuel + 1) (E ++ l0) l0 = l0 :: g.bfsLoop fuel ((E ++ l0) ++ l') l' := by
        rw [hl0, bfsLoop, ← hl0, hnext]
      have hl'mem : ∀ c ∈ l', ∃ n ∈ l0, c ∈ g.children n := fun c hc => List.mem_flatMap.1 hc
      obtain ⟨h1, h2, h3⟩ := ih (E ++ l0) l' (b + 1) (by omega) (by
          intro c hc
          obtain ⟨n, hn, hcn⟩ := hl'mem c hc
          have := (hT.lt hcn).1
          have := hl n hn
          omega) (by
          intro c hc
          obtain ⟨n, hn, hcn⟩ := hl'mem c hc
          exact (hT.lt hcn).2) (flatMap_children_nodup hT hnd) (by
          intro c hc hcv
          obtain ⟨n, hn, hcn⟩ := hl'mem c hc
          rcases hpar c hcv with h0 | ⟨u, hu, hcu⟩
          · have := (hT.lt hcn).1
            omega
          · exact hdis n hn (hT.parent_unique hcn hcu ▸ hu)) (by
          intro c hc
          rcases List.mem_append.1 hc with hc | hc
          · rcases hpar c hc with h0 | ⟨u, hu, hcu⟩
            · exact Or.inl h0
            · exact Or.inr ⟨u, List.mem_append_left _ hu, hcu⟩
          · obtain ⟨n, hn, hcn⟩ := hl'mem c hc
            exact Or.inr ⟨n, List.mem_append_right _ hn, hcn⟩)
      rw [hstep, List.reverse_cons, List.flatten_append, List.flatten_singleton]
      set A := (g.bfsLoop fuel ((E ++ l0) ++ l') l').reverse.flatten with hA
      refine ⟨?_, ?_, ?_⟩
      · intro pre n post h c hc
        rcases List.append_eq_append_iff.1 h with ⟨t, ht1, ht2⟩ | ⟨t, ht1, ht2⟩
        · -- `pre = A ++ t`
          rw [ht1]
          refine List.mem_append_left _ (h3 c (List.mem_flatMap.2 ⟨n, ?_, hc⟩))
          rw [ht2]
          simp
        · cases t with
          | nil =>
            rw [List.append_nil] at ht1
            rw [← ht1]
            refine h3 c (List.mem_flatMap.2 ⟨n, ?_, hc⟩)
            rw [List.nil_append] at ht2
            rw [← ht2]
            simp
          | cons a t =>
            rw [List.cons_append] at ht2
            injection ht2 with e1 e2
            subst e1
            exact h1 pre n t ht1 c hc
      · intro n hn
        rcases List.mem_append.1 hn with hn | hn
        · exact h2 n hn
        · exact hlt n hn
      · intro n hn
        exact List.mem_append_right _ hn

theorem bottomUp_order {g : RegionGraph} (hT : TreeEdges g) :
    ChildrenFirst g (g.bottomUp 0) ∧ (∀ n ∈ g.bottomUp 0, n < g.nodes.length) ∧ 0 ∈ g.bottomUp 0 := by
  obtain ⟨h1, h2, h3⟩ := bfs_order hT g.nodes.length [] [0] 0 (by simp) (by simp) (by simpa using hT.nonempty) (by simp) (by simp) (by simp)
  exact ⟨h1, h2, h3 0 (by simp)⟩

/-! ### The layers of the nodes -/

/-- The number of nodes of the layer of a region. -/
def regionUnits (g : RegionGraph) (u : Units) (n : ℕ) : ℕ := if g.children n = [] then u.input else if n = 0 then u.classes else u.sum

/-- The layer that a node gets. -/
def GoodNode (g : RegionGraph) (types : ℕ → VarType) (idx : Var → ℕ) (u : Units) (n : ℕ) (L : Layer) : Prop :=
  (∀ W, IsRegion g n W → GoodLayer types (W.image idx) (regionUnits g u n) L) ∧
    ∀ R W, IsPartition g n → n ∈ g.children R → IsRegion g R W → ∃ m, 0 < m ∧ GoodLayer types (W.image idx) m L

theorem childLayers_ok {layers : ℕ → Option Layer} {P : ℕ → Layer → Prop} : ∀ {cs : List ℕ}, (∀ c ∈ cs, ∃ L, layers c = some L ∧ P c L) →
    ∃ Ls, childLayers layers cs = .ok Ls ∧ List.Forall₂ P cs Ls
  | [], _ => ⟨[], rfl, .nil⟩
  | c :: cs, h => by
    obtain ⟨L, h1, h2⟩ := h c (List.mem_cons_self ..)
    obtain ⟨Ls, h3, h4⟩ := childLayers_ok fun c' hc' => h c' (List.mem_cons_of_mem _ hc')
    refine ⟨L :: Ls, ?_, .cons h2 h4⟩
    unfold childLayers at h3 ⊢
    rw [List.mapM_cons, h1, h3]
    rfl

theorem mem_parents {g : RegionGraph} {n c : ℕ} : n ∈ g.parents c ↔ c ∈ g.children n := by
  simp only [RegionGraph.parents, RegionGraph.children, List.mem_map, List.mem_filter, beq_iff_eq]
  constructor
  · rintro ⟨e, ⟨he, rfl⟩, rfl⟩
    exact ⟨e, ⟨he, rfl⟩, rfl⟩
  · rintro ⟨e, ⟨he, rfl⟩, rfl⟩
    exact ⟨e, ⟨he, rfl⟩, rfl⟩

/-- Regions without children have one variable. -/
theorem leaf_region {V : Finset Var} {g : RegionGraph} (hS : Shaped V g []) (h0 : g.children 0 ≠ []) {n : ℕ} {W : Finset Var}
    (hn : IsRegion g n W) (hc : g.children n = []) : ∃ v, W = {v} := by
  have hn0 : n ≠ 0 := fun h => h0 (h ▸ hc)
  obtain ⟨m, hm⟩ := List.exists_mem_of_ne_nil _ (hS.tree.parents_ne hn0 hn.lt)
  rw [mem_parents] at hm
  have hml := hS.tree.lt hm
  have hmp : IsPartition g m := by
    have hlt : m < g.nodes.length := by omega
    cases hk : g.nodes[m] with
    | region U =>
      have hU : IsRegion g m U := by rw [IsRegion, List.getElem?_eq_getElem hlt, hk]
      exact absurd (hS.regions m U hU n hm) fun h => not_both hn h
    | partition => rw [IsPartition, List.getElem?_eq_getElem hlt, hk]
  obtain ⟨_, leaf, hl⟩ := hS.done m hmp (by simp)
  have := hl n hm
  cases leaf with
  | true =>
    obtain ⟨v, hv, _⟩ := this
    rw [IsRegion] at hn hv
    rw [hn] at hv
    injection hv with hv
    injection hv with hv
    exact ⟨v, hv⟩
  | false => exact absurd hc this.2

theorem unionOf_image (idx : Var → ℕ) : ∀ (Vs : List (Finset Var)), unionOf (Vs.map (Finset.image idx)) = (Vs.foldr (· ∪ ·) ∅).image idx
  | [] => by simp [unionOf]
  | W :: Vs => by
    have := unionOf_image idx Vs
    rw [unionOf] at this ⊢
    rw [List.map_cons, List.foldr_cons, this, List.foldr_cons, Finset.image_union]

theorem subset_foldr {Vs : List (Finset Var)} : ∀ {W : Finset Var}, W ∈ Vs → W ⊆ Vs.foldr (· ∪ ·) ∅ := by
  induction Vs with
  | nil => intro W h; cases h
  | cons U Vs ih =>
    intro W h
    rw [List.foldr_cons]
    rcases List.mem_cons.1 h with rfl | h
    · exact Finset.subset_union_left
    · exact (ih h).trans Finset.subset_union_right

theorem disjoint_image {V : Finset Var} {idx : Var → ℕ} (hinj : Set.InjOn idx V) {Vs : List (Finset Var)} (hsub : ∀ W ∈ Vs, W ⊆ V)
    (h : Vs.Pairwise Disjoint) : (Vs.map (Finset.image idx)).Pairwise Disjoint := by
  rw [List.pairwise_map]
  refine List.Pairwise.imp_of_mem ?_ h
  intro A B hA hB hAB
  rw [Finset.disjoint_left] at hAB ⊢
  intro i hi hi'
  obtain ⟨a, ha, rfl⟩ := Finset.mem_image.1 hi
  obtain ⟨b, hb, hab⟩ := Finset.mem_image.1 hi'
  have := hinj (Finset.mem_coe.2 (hsub B hB hb)) (Finset.mem_coe.2 (hsub A hA ha)) hab
  subst this
  exact hAB ha hb

theorem idx_inj (V : Finset Var) : Set.InjOn (fun v => (V.sort (· ≤ ·)).idxOf v) V := by
  intro a ha b _ hab
  exact (List.idxOf_inj ((Finset.mem_sort (· ≤ ·)).2 (Finset.mem_coe.1 ha))).1 hab

theorem nodeLayer_good {V : Finset Var} {kinds : Var → VarKind} {u : Units} {d : Draws} (hd : UnitDraws d) (hk : ∀ v ∈ V, Supported (kinds v))
    (hin : 0 < u.input) (hsum : 0 < u.sum) {g : RegionGraph} (hB : Between g []) (hS : Shaped V g []) (h0 : g.children 0 ≠ [])
    {layers : ℕ → Option Layer} {n : ℕ} (hn : n < g.nodes.length)
    (hlayers : ∀ c ∈ g.children n, ∃ L, layers c = some L ∧
      GoodNode g (columnTypes V kinds) (fun v => (V.sort (· ≤ ·)).idxOf v) u c L) :
    ∃ L, nodeLayer g V kinds u d layers n = .ok L ∧ GoodNode g (columnTypes V kinds) (fun v => (V.sort (· ≤ ·)).idxOf v) u n L := by
  set idx : Var → ℕ := fun v => (V.sort (· ≤ ·)).idxOf v with hidx
  obtain ⟨Ls, hLs, hF⟩ := childLayers_ok hlayers
  cases hnode : g.nodes[n] with
  | region W =>
    have hR : IsRegion g n W := by rw [IsRegion, List.getElem?_eq_getElem hn, hnode]
    have hone : ∀ W', IsRegion g n W' → W' = W := by
      intro W' h
      rw [IsRegion, hR] at h
      injection h with h
      injection h with h
      exact h.symm
    suffices hs : ∃ L, nodeLayer g V kinds u d layers n = .ok L ∧ GoodLayer (columnTypes V kinds) (W.image idx) (regionUnits g u n) L by
      obtain ⟨L, h1, h2⟩ := hs
      refine ⟨L, h1, ?_, ?_⟩
      · intro W' hW'
        rw [hone W' hW']
        exact h2
      · intro _ _ hp
        exact (not_both hR hp).elim
    unfold nodeLayer
    rw [hR]
    by_cases hc : g.children n = []
    · obtain ⟨v, rfl⟩ := leaf_region hS h0 hR hc
      have hv : v ∈ V := hS.sub n _ hR (Finset.mem_singleton_self v)
      obtain ⟨L, h1, h2⟩ := inputLayer_good (kinds := kinds) u hd hv (hk v hv)
      refine ⟨L, by simp only [hc, List.length_nil, if_true]; exact h1, ?_⟩
      rw [regionUnits, if_pos hc, Finset.image_singleton]
      exact h2
    · have hlen : ¬ (g.children n).length = 0 := by simpa using hc
      simp only [if_neg hlen, hLs, bind, Except.bind]
      have hunits : (if (g.parents n).length = 0 then u.classes else u.sum) = regionUnits g u n := by
        rw [regionUnits, if_neg hc]
        by_cases hn0 : n = 0
        · subst hn0
          rw [hS.tree.parents_zero]
          simp
        · rw [if_neg hn0, if_neg]
          have := hS.tree.parents_ne hn0 hn
          simpa using this
      rw [hunits]
      have hne : Ls ≠ [] := by
        rintro rfl
        exact hlen hF.length_eq
      apply sumLayer_good hd _ hne
      intro L hL
      obtain ⟨k, hk', rfl⟩ := List.getElem_of_mem hL
      have hk2 : k < (g.children n).length := by rw [hF.length_eq]; exact hk'
      have hgood := (List.forall₂_iff_get.1 hF).2 k hk2 hk'
      have hmem : (g.children n).get ⟨k, hk2⟩ ∈ g.children n := List.get_mem _ _
      exact hgood.2 n W (hS.regions n W hR _ hmem) hmem hR
  | partition =>
    have hP : IsPartition g n := by rw [IsPartition, List.getElem?_eq_getElem hn, hnode]
    obtain ⟨hcne, leaf, hleaf⟩ := hS.done n hP (by simp)
    rcases hB.others n hP with h | ⟨R, W, hpar, hRW, hif⟩
    · cases h
    have hpart : Partitions g n W := by
      by_cases h1 : W.card = 1
      · rw [if_pos h1] at hif
        exact absurd hif hcne
      · rwa [if_neg h1] at hif
    obtain ⟨Vs, hVs, hdis, hunion⟩ := hpart
    set m := if leaf then u.input else u.sum with hm
    have hm0 : 0 < m := by
      rw [hm]
      split <;> assumption
    have hunits : ∀ c ∈ g.children n, regionUnits g u c = m := by
      intro c hc
      have h1 := hleaf c hc
      have h2 : c ≠ 0 := by have := (hS.tree.lt hc).1; omega
      cases leaf with
      | true =>
        obtain ⟨v, _, h3⟩ := h1
        rw [regionUnits, if_pos h3]
        rfl
      | false =>
        rw [regionUnits, if_neg h1.2, if_neg h2]
        rfl
    have hpair : List.Forall₂ (fun L S => GoodLayer (columnTypes V kinds) S m L) Ls (Vs.map (Finset.image idx)) := by
      rw [List.forall₂_iff_get]
      refine ⟨by rw [List.length_map, ← hVs.length_eq, hF.length_eq], ?_⟩
      intro k h1 h2
      have hk2 : k < (g.children n).length := by rw [hF.length_eq]; exact h1
      have hk3 : k < Vs.length := by simpa using h2
      have hgood := (List.forall₂_iff_get.1 hF).2 k hk2 h1
      have hreg := (List.forall₂_iff_get.1 hVs).2 k hk2 hk3
      have := hgood.1 _ hreg
      rw [hunits _ (List.get_mem _ _)] at this
      simpa using this
    have hne : Ls ≠ [] := by
      rintro rfl
      have := hF.length_eq
      exact hcne (List.length_eq_zero_iff.1 this)
    have hWV := hS.sub R W hRW
    obtain ⟨L, h1, h2⟩ := productLayer_good hne hpair
      (disjoint_image (idx_inj V) (fun A hA => ((subset_foldr hA).trans (hunion ▸ Finset.Subset.refl _)).trans hWV) hdis)
    rw [unionOf_image, hunion] at h2
    refine ⟨L, ?_, ?_, ?_⟩
    · unfold nodeLayer
      rw [hP]
      simp only [hLs, bind, Except.bind]
      exact h1
    · intro W' hW'
      exact (not_both hW' hP).elim
    · intro R' W' _ hmem hR'
      rw [← mem_parents, hpar, List.mem_singleton] at hmem
      subst hmem
      rw [IsRegion] at hRW hR'
      rw [hRW] at hR'
      injection hR' with hR'
      injection hR' with hR'
      subst hR'
      exact ⟨m, hm0, h2⟩

theorem assignLayers_good {V : Finset Var} {kinds : Var → VarKind} {u : Units} {d : Draws} (hd : UnitDraws d)
    (hk : ∀ v ∈ V, Supported (kinds v)) (hin : 0 < u.input) (hsum : 0 < u.sum) {g : RegionGraph} (hB : Between g []) (hS : Shaped V g [])
    (h0 : g.children 0 ≠ []) {order : List ℕ} (hfirst : ChildrenFirst g order) (hlt : ∀ n ∈ order, n < g.nodes.length) :
    ∀ (ns pre : List ℕ) (layers : ℕ → Option Layer), order = pre ++ ns →
      (∀ n ∈ pre, ∃ L, layers n = some L ∧ GoodNode g (columnTypes V kinds) (fun v => (V.sort (· ≤ ·)).idxOf v) u n L) →
      ∃ layers', assignLayers g V kinds u d ns layers = .ok layers' ∧
        ∀ n ∈ order, ∃ L, layers' n = some L ∧ GoodNode g (columnTypes V kinds) (fun v => (V.sort (· ≤ ·)).idxOf v) u n L
  | [], pre, layers, ho, h => ⟨layers, rfl, by rw [ho, List.append_nil]; exact h⟩
  | n :: ns, pre, layers, ho, h => by
    obtain ⟨L, h1, h2⟩ := nodeLayer_good hd hk hin hsum hB hS h0 (layers := layers) (n := n) (hlt n (by rw [ho]; simp))
      fun c hc => h c (hfirst pre n ns ho c hc)
    obtain ⟨layers', h3, h4⟩ := assignLayers_good hd hk hin hsum hB hS h0 hfirst hlt ns (pre ++ [n]) (Function.update layers n (some L))
      (by rw [ho]; simp) (by
        intro m hm
        by_cases hmn : m = n
        · subst hmn
          exact ⟨L, by rw [Function.update_self], h2⟩
        · rw [Function.update_of_ne hmn]
          rcases List.mem_append.1 hm with hm | hm
          · exact h m hm
          · exact absurd (List.mem_singleton.1 hm) hmn)
    refine ⟨layers', ?_, h4⟩
    rw [assignLayers]
    simp only [h1, bind, Except.bind]
    exact h3

theorem image_idx (V : Finset Var) : V.image (fun v => (V.sort (· ≤ ·)).idxOf v) = Finset.range V.card := by
  apply Finset.eq_of_subset_of_card_le
  · intro i hi
    obtain ⟨v, hv, rfl⟩ := Finset.mem_image.1 hi
    rw [Finset.mem_range, ← Finset.length_sort (· ≤ ·)]
    exact List.idxOf_lt_length_iff.2 ((Finset.mem_sort _).2 hv)
  · rw [Finset.card_range, Finset.card_image_of_injOn (idx_inj V)]

theorem regionCircuit_good {V : Finset Var} {kinds : Var → VarKind} {u : Units} {d : Draws} (hd : UnitDraws d)
    (hk : ∀ v ∈ V, Supported (kinds v)) (hin : 0 < u.input) (hsum : 0 < u.sum) {g : RegionGraph} (hB : Between g []) (hS : Shaped V g [])
    (h0 : g.children 0 ≠ []) (hroot : IsRegion g 0 V) :
    ∃ L, regionCircuit g V kinds u d = .ok ⟨V.sort (· ≤ ·), L⟩ ∧ GoodLayer (columnTypes V kinds) (Finset.range V.card) u.classes L := by
  obtain ⟨h1, h2, h3⟩ := bottomUp_order hS.tree
  obtain ⟨layers, h4, h5⟩ := assignLayers_good hd hk hin hsum hB hS h0 h1 h2 (g.bottomUp 0) [] (fun _ => none) rfl (by simp)
  obtain ⟨L, h6, h7⟩ := h5 0 h3
  refine ⟨L, ?_, ?_⟩
  · unfold regionCircuit
    simp only [hS.tree.root, bind, Except.bind, h4, h6]
  · have := h7.1 V hroot
    rw [image_idx, regionUnits, if_neg h0, if_pos rfl] at this
    exact this

end PM.Learn
