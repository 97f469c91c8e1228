import Verif.Spec.RegionGraph
import Mathlib.Data.List.Perm.Basic

/-! Helper lemmas about region graphs. -/

namespace PM.Learn

open Spec RegionGraph

theorem splitSizes_flatten {α : Type} : ∀ (ns : List ℕ) (l : List α), l.length ≤ ns.sum → (splitSizes ns l).flatten = l
  | [], l, h => by
    have : l = [] := List.length_eq_zero_iff.1 (by simpa using h)
    simp [splitSizes, this]
  | n :: ns, l, h => by
    rw [splitSizes, List.flatten_cons, splitSizes_flatten ns, List.take_append_drop]
    rw [List.length_drop]
    rw [List.sum_cons] at h
    omega

theorem length_splitSizes {α : Type} : ∀ (ns : List ℕ) (l : List α), (splitSizes ns l).length = ns.length
  | [], _ => rfl
  | n :: ns, l => by simp [splitSizes, length_splitSizes ns]

theorem arraySplit_spec {α : Type} (l : List α) {k : ℕ} (hk : k ≠ 0) :
    ∃ ps, arraySplit l k = .ok ps ∧ ps.flatten = l ∧ ps.length = k := by
  refine ⟨_, if_neg hk, splitSizes_flatten _ _ ?_, ?_⟩
  · have h1 := Nat.mod_lt l.length (Nat.pos_of_ne_zero hk)
    have h2 := Nat.mod_add_div l.length k
    simp only [List.sum_append, List.sum_replicate, smul_eq_mul]
    have h3 : l.length % k * (l.length / k + 1) + (k - l.length % k) * (l.length / k) = l.length % k + k * (l.length / k) := by
      have : k = l.length % k + (k - l.length % k) := by omega
      conv_rhs => rw [this]
      rw [Nat.add_mul, Nat.mul_add]
      have h4 : (l.length % k + (k - l.length % k)) = k := by omega
      rw [h4]
      ring_nf
    omega
  · rw [length_splitSizes]
    have h1 := Nat.mod_lt l.length (Nat.pos_of_ne_zero hk)
    simp
    omega

theorem foldr_union_eq {α : Type} [DecidableEq α] : ∀ (ls : List (List α)), (ls.map List.toFinset).foldr (· ∪ ·) ∅ = ls.flatten.toFinset
  | [] => by simp
  | l :: ls => by rw [List.map_cons, List.foldr_cons, foldr_union_eq ls, List.flatten_cons, List.toFinset_append]

/-- A random partition: `k` disjoint sets that make up the variables. -/
theorem randomPartition_spec {shuffle : List ℕ → List ℕ} (hs : ∀ l, (shuffle l).Perm l) (V : Finset Var) {k : ℕ} (hk : k ≠ 0) :
    ∃ Vs, randomPartition shuffle V k = .ok Vs ∧ Vs.Pairwise Disjoint ∧ Vs.foldr (· ∪ ·) ∅ = V ∧ Vs.length = k := by
  obtain ⟨ps, h1, h2, h3⟩ := arraySplit_spec (shuffle (List.range V.card)) hk
  set get : ℕ → Option Var := fun i => (V.sort (· ≤ ·))[i]? with hget
  have hfl : (ps.map (List.filterMap get)).flatten = (shuffle (List.range V.card)).filterMap get := by
    rw [← h2]
    clear h1 h2 h3
    induction ps with
    | nil => rfl
    | cons p ps ih => rw [List.map_cons, List.flatten_cons, ih, List.flatten_cons, List.filterMap_append]
  have hall : (List.range V.card).filterMap get = V.sort (· ≤ ·) := by
    apply List.ext_getElem?
    intro i
    have hcard : (V.sort (· ≤ ·)).length = V.card := Finset.length_sort _
    have : (List.range V.card).filterMap get = (List.range V.card).attach.map fun i => (V.sort (· ≤ ·))[i.1]'(by
        have := List.mem_range.1 i.2; omega) := by
      rw [← List.filterMap_eq_map]
      conv_lhs => rw [← List.attach_map_subtype_val (List.range V.card)]
      rw [List.filterMap_map]
      apply List.filterMap_congr
      intro x _
      simp only [hget, Function.comp]
      exact List.getElem?_eq_getElem _
    rw [this]
    rcases Nat.lt_or_ge i V.card with h | h
    · simp [h, hcard]
    · rw [List.getElem?_eq_none (by simpa using h), List.getElem?_eq_none (by omega)]
  have hperm : ((ps.map (List.filterMap get)).flatten).Perm (V.sort (· ≤ ·)) := by
    rw [hfl, ← hall]
    exact (hs _).filterMap get
  have hnd : ((ps.map (List.filterMap get)).flatten).Nodup := hperm.nodup_iff.2 (Finset.sort_nodup _ _)
  refine ⟨(ps.map (List.filterMap get)).map List.toFinset, ?_, ?_, ?_, by simp [h3]⟩
  · unfold randomPartition
    rw [h1]
    simp only [bind, Except.bind, List.map_map]
    rfl
  · rw [List.pairwise_map]
    refine (List.nodup_flatten.1 hnd).2.imp ?_
    intro a b hab
    rw [Finset.disjoint_left]
    intro x hx hx'
    exact hab (List.mem_toFinset.1 hx) (List.mem_toFinset.1 hx')
  · rw [foldr_union_eq]
    ext x
    rw [List.mem_toFinset, hperm.mem_iff, Finset.mem_sort]

/-- All endpoints of edges are nodes. -/
def Bounded (g : RegionGraph) : Prop := ∀ e ∈ g.edges, e.1 < g.nodes.length ∧ e.2 < g.nodes.length

theorem attach_bounded {g : RegionGraph} (hb : Bounded g) {x : ℕ} (hx : x < g.nodes.length) (y : RKind) : Bounded (g.attach x y) := by
  intro e he
  have he' : e ∈ g.edges ++ [(x, g.nodes.length)] := he
  have hl : (g.attach x y).nodes.length = g.nodes.length + 1 := by simp [attach]
  rw [hl]
  rcases List.mem_append.1 he' with he | he
  · have := hb e he; omega
  · rw [List.mem_singleton.1 he]; exact ⟨by simp only; omega, by simp⟩

theorem length_attach (g : RegionGraph) (x : ℕ) (y : RKind) : (g.attach x y).nodes.length = g.nodes.length + 1 := by simp [attach]

theorem attach_node (g : RegionGraph) (x : ℕ) (y : RKind) {n : ℕ} (h : n < g.nodes.length) : (g.attach x y).nodes[n]? = g.nodes[n]? :=
  List.getElem?_append_left h

theorem attach_new (g : RegionGraph) (x : ℕ) (y : RKind) : (g.attach x y).nodes[g.nodes.length]? = some y := by simp [attach]

theorem children_attach (g : RegionGraph) (x : ℕ) (y : RKind) (n : ℕ) :
    (g.attach x y).children n = g.children n ++ if n = x then [g.nodes.length] else [] := by
  unfold children attach
  rw [List.filter_append, List.map_append]
  by_cases h : n = x
  · simp [h]
  · rw [if_neg h]; simp [Ne.symm h]

theorem parents_attach (g : RegionGraph) (x : ℕ) (y : RKind) (n : ℕ) :
    (g.attach x y).parents n = g.parents n ++ if n = g.nodes.length then [x] else [] := by
  unfold parents attach
  rw [List.filter_append, List.map_append]
  by_cases h : n = g.nodes.length
  · simp [h]
  · rw [if_neg h]; simp [Ne.symm h]

theorem children_new {g : RegionGraph} (hb : Bounded g) {n : ℕ} (h : g.nodes.length ≤ n) : g.children n = [] := by
  unfold children
  rw [List.map_eq_nil_iff, List.filter_eq_nil_iff]
  intro e he
  have := (hb e he).1
  simp; omega

theorem parents_new {g : RegionGraph} (hb : Bounded g) {n : ℕ} (h : g.nodes.length ≤ n) : g.parents n = [] := by
  unfold parents
  rw [List.map_eq_nil_iff, List.filter_eq_nil_iff]
  intro e he
  have := (hb e he).2
  simp; omega

/-- A finished partition node: one parent, a region; its children partition the region, except that a region with one variable is
not split. -/
def Finished (g : RegionGraph) (p : ℕ) : Prop :=
  ∃ R V, g.parents p = [R] ∧ IsRegion g R V ∧ if V.card = 1 then g.children p = [] else Partitions g p V

/-- A partition node that waits in the queue. -/
structure Waiting (g : RegionGraph) (it : Pending) : Prop where
  region : IsRegion g it.region it.vars
  part : IsPartition g it.part
  parents : g.parents it.part = [it.region]
  children : g.children it.part = []

theorem _root_.PM.Spec.IsRegion.lt {g : RegionGraph} {n : ℕ} {V : Finset Var} (h : IsRegion g n V) : n < g.nodes.length := by
  by_contra hc
  rw [IsRegion, List.getElem?_eq_none (by omega)] at h
  cases h

theorem _root_.PM.Spec.IsPartition.lt {g : RegionGraph} {n : ℕ} (h : IsPartition g n) : n < g.nodes.length := by
  by_contra hc
  rw [IsPartition, List.getElem?_eq_none (by omega)] at h
  cases h

theorem _root_.PM.Spec.IsRegion.attach {g : RegionGraph} {n : ℕ} {V : Finset Var} (h : IsRegion g n V) (x : ℕ) (y : RKind) : IsRegion (g.attach x y) n V := by
  rw [IsRegion, attach_node _ _ _ h.lt]; exact h

theorem _root_.PM.Spec.IsPartition.attach {g : RegionGraph} {n : ℕ} (h : IsPartition g n) (x : ℕ) (y : RKind) : IsPartition (g.attach x y) n := by
  rw [IsPartition, attach_node _ _ _ h.lt]; exact h

theorem Waiting.attach {g : RegionGraph} {it : Pending} (h : Waiting g it) {x : ℕ} (hx : it.part ≠ x) (y : RKind) : Waiting (g.attach x y) it where
  region := h.region.attach x y
  part := h.part.attach x y
  parents := by rw [parents_attach, if_neg h.part.lt.ne, List.append_nil, h.parents]
  children := by rw [children_attach, if_neg hx, List.append_nil, h.children]

theorem forall₂_attach {g : RegionGraph} {x : ℕ} {y : RKind} {l : List ℕ} {Vs : List (Finset Var)} (h : List.Forall₂ (IsRegion g) l Vs) :
    List.Forall₂ (IsRegion (g.attach x y)) l Vs := h.imp fun _ _ h => h.attach x y

theorem Finished.attach {g : RegionGraph} {p : ℕ} (hp : IsPartition g p) (h : Finished g p) {x : ℕ} (hx : p ≠ x) (y : RKind) :
    Finished (g.attach x y) p := by
  obtain ⟨R, V, h1, h2, h3⟩ := h
  have hc : (g.attach x y).children p = g.children p := by rw [children_attach, if_neg hx, List.append_nil]
  refine ⟨R, V, by rw [parents_attach, if_neg hp.lt.ne, List.append_nil, h1], h2.attach x y, ?_⟩
  split at h3
  · rename_i hv
    rw [if_pos hv, hc, h3]
  · rename_i hv
    rw [if_neg hv]
    obtain ⟨Vs, h4, h5, h6⟩ := h3
    exact ⟨Vs, by rw [hc]; exact forall₂_attach h4, h5, h6⟩

/-- The state of the loop: all partition nodes wait in the queue or are finished, apart from `p`, which is being worked on and
has the children `Vs` so far. -/
structure Working (g : RegionGraph) (q : List Pending) (p R : ℕ) (V : Finset Var) (Vs : List (Finset Var)) : Prop where
  bounded : Bounded g
  waiting : ∀ it ∈ q, Waiting g it
  nodup : (q.map Pending.part).Nodup
  fresh : p ∉ q.map Pending.part
  part : IsPartition g p
  parents : g.parents p = [R]
  region : IsRegion g R V
  children : List.Forall₂ (IsRegion g) (g.children p) Vs
  others : ∀ n, IsPartition g n → n ≠ p → n ∈ q.map Pending.part ∨ Finished g n

/-- Between the rounds. -/
structure Between (g : RegionGraph) (q : List Pending) : Prop where
  bounded : Bounded g
  waiting : ∀ it ∈ q, Waiting g it
  nodup : (q.map Pending.part).Nodup
  others : ∀ n, IsPartition g n → n ∈ q.map Pending.part ∨ Finished g n

theorem Between.start {g : RegionGraph} {it : Pending} {q : List Pending} (h : Between g (it :: q)) :
    Working g q it.part it.region it.vars [] := by
  have hw := h.waiting it (by simp)
  obtain ⟨hn1, hn2⟩ := List.nodup_cons.1 h.nodup
  exact ⟨h.bounded, fun i hi => h.waiting i (List.mem_cons_of_mem _ hi), hn2, hn1, hw.part, hw.parents, hw.region,
    by rw [hw.children]; exact List.Forall₂.nil, fun n hn hne => by
      rcases h.others n hn with h' | h'
      · rcases List.mem_cons.1 h' with h' | h'
        · exact absurd h' hne
        · exact Or.inl h'
      · exact Or.inr h'⟩

theorem Working.finish {g : RegionGraph} {q : List Pending} {p R : ℕ} {V : Finset Var} {Vs : List (Finset Var)}
    (h : Working g q p R V Vs) (hf : if V.card = 1 then Vs = [] else Vs.Pairwise Disjoint ∧ Vs.foldr (· ∪ ·) ∅ = V) : Between g q := by
  refine ⟨h.bounded, h.waiting, h.nodup, fun n hn => ?_⟩
  by_cases hne : n = p
  · subst hne
    refine Or.inr ⟨R, V, h.parents, h.region, ?_⟩
    split at hf
    · rename_i hv
      rw [if_pos hv]
      have := h.children
      rw [hf] at this
      exact List.forall₂_nil_right_iff.1 this
    · rename_i hv
      rw [if_neg hv]
      exact ⟨Vs, h.children, hf⟩
  · exact h.others n hn hne

/-- One more child region, without partition node. -/
theorem Working.leaf {g : RegionGraph} {q : List Pending} {p R : ℕ} {V : Finset Var} {Vs : List (Finset Var)}
    (h : Working g q p R V Vs) (W : Finset Var) : Working (g.attach p (.region W)) q p R V (Vs ++ [W]) where
  bounded := attach_bounded h.bounded h.part.lt _
  waiting it hi := (h.waiting it hi).attach (x := p) (fun he => h.fresh (he ▸ List.mem_map_of_mem hi)) _
  nodup := h.nodup
  fresh := h.fresh
  part := h.part.attach _ _
  parents := by rw [parents_attach, if_neg h.part.lt.ne, List.append_nil, h.parents]
  region := h.region.attach _ _
  children := by
    rw [children_attach, if_pos rfl]
    exact List.rel_append (forall₂_attach h.children) (List.Forall₂.cons (attach_new g p _) List.Forall₂.nil)
  others n hn hne := by
    have hlt : n < g.nodes.length := by
      have h1 := hn.lt
      rw [length_attach] at h1
      by_contra hc
      have : n = g.nodes.length := by omega
      rw [IsPartition, this, attach_new] at hn
      cases hn
    have hn' : IsPartition g n := by rwa [IsPartition, attach_node _ _ _ hlt] at hn
    rcases h.others n hn' hne with h' | h'
    · exact Or.inl h'
    · exact Or.inr (h'.attach hn' hne _)

/-- The new region gets a partition node that waits. -/
theorem Working.child {g : RegionGraph} {q : List Pending} {p R : ℕ} {V : Finset Var} {Vs : List (Finset Var)}
    (h : Working g q p R V Vs) (d : ℕ) (W : Finset Var) :
    Working (addRegion p d (g, q) W).1 (addRegion p d (g, q) W).2 p R V (Vs ++ [W]) := by
  have h1 := h.leaf W
  set g1 := g.attach p (.region W) with hg1
  have hl1 : g1.nodes.length = g.nodes.length + 1 := length_attach _ _ _
  have hx : g.nodes.length < g1.nodes.length := by omega
  have hp : p < g.nodes.length := h.part.lt
  have hreg : IsRegion g1 g.nodes.length W := attach_new _ _ _
  have hnew : IsPartition (g1.attach g.nodes.length .partition) g1.nodes.length := attach_new _ _ _
  show Working (g1.attach g.nodes.length .partition) (q ++ [⟨g.nodes.length, W, d, g.nodes.length + 1⟩]) p R V (Vs ++ [W])
  have hold : ∀ n, IsPartition g1 n → n ≠ g.nodes.length := by
    rintro n hn rfl
    rw [IsPartition, hg1, attach_new] at hn
    cases hn
  refine ⟨attach_bounded h1.bounded hx _, ?_, ?_, ?_, h1.part.attach _ _, ?_, h1.region.attach _ _, ?_, ?_⟩
  · intro it hi
    rcases List.mem_append.1 hi with hi | hi
    · exact (h1.waiting it hi).attach (hold _ (h1.waiting it hi).part) _
    · rw [List.mem_singleton.1 hi]
      refine ⟨hreg.attach _ _, ?_, ?_, ?_⟩
      · show IsPartition _ (g.nodes.length + 1)
        rw [← hl1]; exact hnew
      · show (g1.attach g.nodes.length .partition).parents (g.nodes.length + 1) = [g.nodes.length]
        rw [parents_attach, if_pos hl1.symm, parents_new h1.bounded (by omega)]; rfl
      · show (g1.attach g.nodes.length .partition).children (g.nodes.length + 1) = []
        rw [children_attach, if_neg (by omega), children_new h1.bounded (by omega)]; rfl
  · rw [List.map_append]
    refine List.nodup_append.2 ⟨h1.nodup, by simp, ?_⟩
    intro a ha b hb
    obtain ⟨it, hi, rfl⟩ := List.mem_map.1 ha
    have := (h1.waiting it hi).part.lt
    have hb' : b = g.nodes.length + 1 := by simpa using hb
    omega
  · rw [List.map_append, List.mem_append]
    rintro (h' | h')
    · exact h.fresh h'
    · have : p = g.nodes.length + 1 := by simpa using h'
      omega
  · rw [parents_attach, if_neg (by omega), List.append_nil, h1.parents]
  · rw [children_attach, if_neg (by omega), List.append_nil]
    exact forall₂_attach h1.children
  · intro n hn hne
    by_cases hn1 : n = g1.nodes.length
    · left
      rw [List.map_append, List.mem_append]
      right
      simp; omega
    · have hlt : n < g1.nodes.length := by
        have := hn.lt
        rw [length_attach] at this
        omega
      have hn' : IsPartition g1 n := by rwa [IsPartition, attach_node _ _ _ hlt] at hn
      rcases h1.others n hn' hne with h' | h'
      · left
        rw [List.map_append, List.mem_append]
        exact Or.inl h'
      · exact Or.inr (h'.attach hn' (hold n hn') _)

theorem Working.leaves {p R : ℕ} {V : Finset Var} : ∀ (vs : List Var) {g : RegionGraph} {q : List Pending} {Vs : List (Finset Var)},
    Working g q p R V Vs → Working (addLeaves g p vs) q p R V (Vs ++ vs.map fun v => {v})
  | [], g, q, Vs, h => by simpa [addLeaves] using h
  | v :: vs, g, q, Vs, h => by
    have := Working.leaves vs (h.leaf {v})
    simpa [addLeaves] using this

theorem Working.regions {p R : ℕ} {V : Finset Var} (d : ℕ) : ∀ (Ws : List (Finset Var)) {g : RegionGraph} {q : List Pending} {Vs : List (Finset Var)},
    Working g q p R V Vs →
    Working (Ws.foldl (addRegion p d) (g, q)).1 (Ws.foldl (addRegion p d) (g, q)).2 p R V (Vs ++ Ws)
  | [], g, q, Vs, h => by simpa using h
  | W :: Ws, g, q, Vs, h => by
    have := Working.regions d Ws (h.child d W)
    simpa using this

theorem nodes_addLeaves (p : ℕ) : ∀ (vs : List Var) (g : RegionGraph), g.nodes <+: (addLeaves g p vs).nodes
  | [], g => by simp [addLeaves]
  | v :: vs, g => by
    have := nodes_addLeaves p vs (g.attach p (.region {v}))
    exact (List.prefix_append g.nodes _).trans this

theorem nodes_addRegions (p d : ℕ) : ∀ (Ws : List (Finset Var)) (s : RegionGraph × List Pending),
    s.1.nodes <+: (Ws.foldl (addRegion p d) s).1.nodes
  | [], s => by simp
  | W :: Ws, s => by
    refine List.IsPrefix.trans ?_ (nodes_addRegions p d Ws _)
    show s.1.nodes <+: ((s.1.nodes ++ [_]) ++ [_])
    rw [List.append_assoc]
    exact List.prefix_append _ _

theorem queue_addRegions (p d k : ℕ) : ∀ (Ws : List (Finset Var)) (s : RegionGraph × List Pending),
    ((Ws.foldl (addRegion p d) s).2.map fun it => rounds k it.depth).sum = (s.2.map fun it => rounds k it.depth).sum + Ws.length * rounds k d
  | [], s => by simp
  | W :: Ws, s => by
    rw [List.foldl_cons, queue_addRegions p d k Ws]
    simp [addRegion]
    ring

theorem rounds_pos (k d : ℕ) : 0 < rounds k d := by cases d <;> simp [rounds]

theorem singles_disjoint {l : List Var} (h : l.Nodup) : (l.map fun v => ({v} : Finset Var)).Pairwise Disjoint := by
  rw [List.pairwise_map]
  exact h.imp fun h => Finset.disjoint_singleton.2 h

theorem singles_union : ∀ l : List Var, (l.map fun v => ({v} : Finset Var)).foldr (· ∪ ·) ∅ = l.toFinset
  | [] => by simp
  | v :: l => by rw [List.map_cons, List.foldr_cons, singles_union l, List.toFinset_cons, Finset.insert_eq]

/-- The loop stops within the allowed number of rounds and leaves only finished partition nodes. -/
theorem splitLoop_spec {shuffles : ℕ → List ℕ → List ℕ} (hs : ∀ n l, (shuffles n l).Perm l) {k : ℕ} (hk : k ≠ 0) :
    ∀ (fuel : ℕ) (g : RegionGraph) (q : List Pending), (q.map fun it => rounds k it.depth).sum ≤ fuel → Between g q →
    ∃ g', splitLoop shuffles k fuel g q = .ok g' ∧ Between g' [] ∧ g.nodes <+: g'.nodes := by
  intro fuel
  induction fuel with
  | zero =>
    intro g q hf hB
    cases q with
    | nil => exact ⟨g, rfl, hB, List.prefix_rfl⟩
    | cons it q =>
      have := rounds_pos k it.depth
      simp only [List.map_cons, List.sum_cons] at hf
      omega
  | succ fuel ih =>
    intro g q hf hB
    cases q with
    | nil => exact ⟨g, rfl, hB, List.prefix_rfl⟩
    | cons it q =>
      simp only [List.map_cons, List.sum_cons] at hf
      have hW := hB.start
      have hpos := rounds_pos k it.depth
      rw [splitLoop]
      by_cases hc : it.vars.card = 1
      · rw [if_pos hc]
        exact ih g q (by omega) (hW.finish (by rw [if_pos hc]))
      · rw [if_neg hc]
        cases hd : it.depth with
        | zero =>
          simp only
          obtain ⟨g', h1, h2, h3⟩ := ih (addLeaves g it.part (it.vars.sort (· ≤ ·))) q (by omega)
            ((hW.leaves (it.vars.sort (· ≤ ·))).finish (by
              rw [if_neg hc, List.nil_append]
              refine ⟨singles_disjoint (Finset.sort_nodup _ _), ?_⟩
              rw [singles_union]
              simp))
          exact ⟨g', h1, h2, (nodes_addLeaves _ _ _).trans h3⟩
        | succ d =>
          obtain ⟨Vs, hV1, hV2, hV3, hV4⟩ := randomPartition_spec (hs g.nodes.length) it.vars hk
          simp only [hV1, bind, Except.bind]
          obtain ⟨g', h1, h2, h3⟩ := ih (Vs.foldl (addRegion it.part d) (g, q)).1 (Vs.foldl (addRegion it.part d) (g, q)).2
            (by
              rw [queue_addRegions, hV4]
              rw [hd, rounds] at hf
              show (q.map fun it => rounds k it.depth).sum + _ ≤ _
              omega)
            ((hW.regions d Vs).finish (by rw [if_neg hc, List.nil_append]; exact ⟨hV2, hV3⟩))
          exact ⟨g', h1, h2, (nodes_addRegions _ _ Vs (g, q)).trans h3⟩

theorem recursiveSplit_spec {shuffles : ℕ → List ℕ → List ℕ} (hs : ∀ n l, (shuffles n l).Perm l) {k : ℕ} (hk : k ≠ 0) (depth : ℕ)
    {g : RegionGraph} (hB : Between g []) {x : ℕ} {V : Finset Var} (hx : IsRegion g x V) :
    ∃ g', recursiveSplit shuffles k depth V g x = .ok g' ∧ Between g' [] ∧ g.nodes <+: g'.nodes := by
  have hnew : IsPartition (g.attach x .partition) g.nodes.length := attach_new _ _ _
  obtain ⟨g', h1, h2, h3⟩ := splitLoop_spec hs hk (rounds k depth) (g.attach x .partition) [⟨x, V, depth, g.nodes.length⟩] (by simp) (by
    refine ⟨attach_bounded hB.bounded hx.lt _, ?_, by simp, ?_⟩
    · intro it hi
      rw [List.mem_singleton.1 hi]
      refine ⟨hx.attach _ _, hnew, ?_, ?_⟩
      · show (g.attach x .partition).parents g.nodes.length = [x]
        rw [parents_attach, if_pos rfl, parents_new hB.bounded le_rfl]; rfl
      · show (g.attach x .partition).children g.nodes.length = []
        rw [children_attach, if_neg hx.lt.ne', children_new hB.bounded le_rfl]; rfl
    · intro n hn
      by_cases hne : n = g.nodes.length
      · left; simp [hne]
      · right
        have hlt : n < g.nodes.length := by
          have := hn.lt
          rw [length_attach] at this
          omega
        have hn' : IsPartition g n := by rwa [IsPartition, attach_node _ _ _ hlt] at hn
        rcases hB.others n hn' with h' | h'
        · cases h'
        · refine h'.attach hn' ?_ _
          rintro rfl
          rw [IsRegion, hn'] at hx
          cases hx)
  exact ⟨g', h1, h2, (List.prefix_append g.nodes _).trans h3⟩

theorem create_spec {shuffles : ℕ → List ℕ → List ℕ} (hs : ∀ n l, (shuffles n l).Perm l) {k : ℕ} (hk : k ≠ 0) (depth : ℕ) (V : Finset Var)
    (l : List ℕ) : ∀ g, Between g [] → IsRegion g 0 V →
    ∃ g', l.foldlM (fun g _ => recursiveSplit shuffles k depth V g 0) g = .ok g' ∧ Between g' [] ∧ IsRegion g' 0 V := by
  induction l with
  | nil => intro g hB h0; exact ⟨g, rfl, hB, h0⟩
  | cons a l ih =>
    intro g hB h0
    obtain ⟨g1, h1, h2, h3⟩ := recursiveSplit_spec hs hk depth hB h0
    have h01 : IsRegion g1 0 V := by
      obtain ⟨t, ht⟩ := h3
      rw [IsRegion, ← ht, List.getElem?_append_left h0.lt]
      exact h0
    obtain ⟨g', h4, h5⟩ := ih g1 h2 h01
    refine ⟨g', ?_, h5⟩
    rw [List.foldlM_cons, h1]
    exact h4

end PM.Learn
