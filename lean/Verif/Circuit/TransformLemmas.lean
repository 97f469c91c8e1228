import Verif.Circuit.Transform
import Verif.Circuit.CondTree
import Verif.Circuit.ValueLemmas

/-! Helper lemmas for changes of all leaf distributions. -/

namespace PM.Graph

open Spec

theorem setLeaf_eq {g : Circuit} (hw : g.WF) {n : Node} {d d' : Leaf} (hk : g.kind? n = some (.leaf d)) :
    g.setLeaf n d' = g.mapLeavesOn (fun _ => d') (· == n) := by
  unfold setLeaf mapLeavesOn
  congr 1
  apply List.map_congr_left
  intro p hp
  by_cases h : p.1 = n
  · have := kind?_of_mem_nodes hw hp
    rw [h, hk] at this
    injection this with this
    simp [h, ← this, Kind.mapLeaf]
  · simp [h]

theorem mapLeavesOn_wf {D : Type} {g : Graph D} (hw : g.WF) (f : D → D) (S : Node → Bool) : (g.mapLeavesOn f S).WF := by
  refine ⟨?_, hw.edgeNodup, ?_, ?_⟩
  · rw [ids_mapLeavesOn]; exact hw.nodup
  · rw [ids_mapLeavesOn]; exact hw.srcMem
  · rw [ids_mapLeavesOn]; exact hw.dstMem

theorem foldlM_changeLeaf {φ : Leaf → Except PyErr Leaf} {ψ : Leaf → Leaf} {g : Circuit} (hw : g.WF) : ∀ (l : List Node) (S : Node → Bool),
    l.Nodup → (∀ n ∈ l, S n = false ∧ ∃ d, g.kind? n = some (.leaf d) ∧ φ d = .ok (ψ d)) →
    l.foldlM (changeLeaf φ) (g.mapLeavesOn ψ S) = .ok (g.mapLeavesOn ψ (fun n => S n || decide (n ∈ l)))
  | [], S, _, _ => by
    have : (fun n => S n || decide (n ∈ ([] : List Node))) = S := by funext n; simp
    rw [this]; rfl
  | n :: l, S, hn, h => by
    obtain ⟨hS, d, hk, hφ⟩ := h n (by simp)
    obtain ⟨hn1, hn2⟩ := List.nodup_cons.1 hn
    have hk' : (g.mapLeavesOn ψ S).kind? n = some (.leaf d) := by rw [kind?_mapLeavesOn, hk]; simp [hS]
    have hstep : changeLeaf φ (g.mapLeavesOn ψ S) n = .ok (g.mapLeavesOn ψ (fun k => S k || k == n)) := by
      unfold changeLeaf
      rw [hk']
      simp only [hφ, bind, Except.bind]
      rw [setLeaf_eq (mapLeavesOn_wf hw ψ S) hk']
      congr 1
      unfold mapLeavesOn
      simp only [List.map_map]
      congr 1
      apply List.map_congr_left
      intro p hp
      simp only [Function.comp]
      by_cases hpn : p.1 = n
      · have := kind?_of_mem_nodes hw hp
        rw [hpn, hk] at this
        injection this with this
        simp [hpn, hS, ← this, Kind.mapLeaf]
      · simp [hpn]
    rw [List.foldlM_cons, hstep]
    simp only [bind, Except.bind]
    rw [foldlM_changeLeaf hw l _ hn2]
    · congr 2
      funext k
      rcases Decidable.em (k = n) with h | h
      · simp [h]
      · have : (k == n) = false := by simpa using h
        simp [h, this]
    · intro k hkl
      obtain ⟨h1, h2⟩ := h k (List.mem_cons_of_mem _ hkl)
      refine ⟨?_, h2⟩
      have : k ≠ n := fun he => hn1 (he ▸ hkl)
      simp [h1, this]

theorem leavesOf_nodup {g : Circuit} {r : Node} (hL : Layered g r) : (g.leavesOf r).Nodup := by
  obtain ⟨depth, hd⟩ := hL.graded
  have := (layersFrom_strat hL.wf hd (root_mem hL.root).1).2.nodup
  unfold leavesOf
  split
  · simp
  · exact (this.filter _).filter _

theorem mem_leavesOf {g : Circuit} {r : Node} (hL : Layered g r) (hr : ∀ d, g.kind? r ≠ some (.leaf d)) {n : Node} :
    n ∈ g.leavesOf r ↔ ∃ d, g.kind? n = some (.leaf d) := by
  have hr' : g.isLeafUnit r = false := by
    unfold isLeafUnit
    cases h : g.kind? r with
    | none => rfl
    | some k => cases k with
      | leaf d => exact absurd h (hr d)
      | sum => rfl
      | prod => rfl
  have hiff : g.isLeafUnit n = true ↔ ∃ d, g.kind? n = some (.leaf d) := by
    unfold isLeafUnit
    cases h : g.kind? n with
    | none => simp
    | some k => cases k <;> simp
  unfold leavesOf
  rw [hr']
  simp only [Bool.false_eq_true, if_false, List.mem_filter, hiff, descendants]
  constructor
  · exact fun h => h.2
  · rintro ⟨d, hk⟩
    have hn : n ∈ g.ids := mem_ids_of_kind? hk
    refine ⟨⟨(mem_layersFrom_iff hL.wf hL.graded (root_mem hL.root).1).2 (reachable_of_root hL.wf hL.graded.acyclic hL.root n hn), ?_⟩, d, hk⟩
    have : n ≠ r := fun h => hr d (h ▸ hk)
    simpa using this

/-- If every leaf can be changed, the loop changes every leaf once. -/
theorem changeLeaves_eq {φ : Leaf → Except PyErr Leaf} {ψ : Leaf → Leaf} {g : Circuit} {r : Node} (hL : Layered g r)
    (hr : ∀ d, g.kind? r ≠ some (.leaf d)) (h : ∀ n d, g.kind? n = some (.leaf d) → φ d = .ok (ψ d)) :
    g.changeLeaves φ = .ok (g.mapLeavesOn ψ fun _ => true) := by
  unfold changeLeaves
  rw [hL.root]
  simp only [bind, Except.bind]
  have h0 : g = g.mapLeavesOn ψ (fun _ => false) := by
    unfold mapLeavesOn
    simp
  conv_lhs => rw [h0]
  have hl : (g.mapLeavesOn ψ fun _ => false).leavesOf r = g.leavesOf r := by rw [← h0]
  rw [hl, foldlM_changeLeaf hL.wf _ _ (leavesOf_nodup hL)]
  · congr 1
    unfold mapLeavesOn
    congr 1
    apply List.map_congr_left
    intro p hp
    have hk := kind?_of_mem_nodes hL.wf hp
    by_cases hm : p.1 ∈ g.leavesOf r
    · simp [hm]
    · cases hp2 : p.2 with
      | leaf d => exact absurd ((mem_leavesOf hL hr).2 ⟨d, by rw [hk, hp2]⟩) hm
      | sum => simp [Kind.mapLeaf]
      | prod => simp [Kind.mapLeaf]
  · intro n hn
    obtain ⟨d, hd⟩ := (mem_leavesOf hL hr).1 hn
    exact ⟨rfl, d, hd, h n d hd⟩

theorem kind?_mapLeaves {g : Circuit} (ψ : Leaf → Leaf) (n : Node) :
    (g.mapLeavesOn ψ fun _ => true).kind? n = (g.kind? n).map (Kind.mapLeaf ψ) := by
  rw [kind?_mapLeavesOn]; simp

theorem kind?_mapLeaves_leaf {g : Circuit} {ψ : Leaf → Leaf} {n : Node} {d' : Leaf} :
    (g.mapLeavesOn ψ fun _ => true).kind? n = some (.leaf d') ↔ ∃ d, g.kind? n = some (.leaf d) ∧ ψ d = d' := by
  rw [kind?_mapLeaves]
  cases h : g.kind? n with
  | none => simp
  | some k => cases k <;> simp [Kind.mapLeaf]

theorem kind?_mapLeaves_sum {g : Circuit} {ψ : Leaf → Leaf} {n : Node} :
    (g.mapLeavesOn ψ fun _ => true).kind? n = some .sum ↔ g.kind? n = some .sum := by
  rw [kind?_mapLeaves]
  cases h : g.kind? n with
  | none => simp
  | some k => cases k <;> simp [Kind.mapLeaf]

theorem kind?_mapLeaves_prod {g : Circuit} {ψ : Leaf → Leaf} {n : Node} :
    (g.mapLeavesOn ψ fun _ => true).kind? n = some .prod ↔ g.kind? n = some .prod := by
  rw [kind?_mapLeaves]
  cases h : g.kind? n with
  | none => simp
  | some k => cases k <;> simp [Kind.mapLeaf]

theorem mapLeaves_layered {g : Circuit} {r : Node} (hL : Layered g r) (ψ : Leaf → Leaf) :
    Layered (g.mapLeavesOn ψ fun _ => true) r where
  wf := mapLeavesOn_wf hL.wf ψ _
  graded := hL.graded
  leaves := fun n d h => by
    obtain ⟨d', h', _⟩ := kind?_mapLeaves_leaf.1 h
    exact hL.leaves n d' h'
  weighted := fun n h => hL.weighted n (kind?_mapLeaves_sum.1 h)
  root := by
    have := hL.root
    unfold root at this ⊢
    rw [ids_mapLeavesOn]
    exact this

theorem mapLeaves_scoped {g : Circuit} {sc : Node → Finset Var} (hs : Scoped g sc) {ψ : Leaf → Leaf}
    (hψ : ∀ n d, g.kind? n = some (.leaf d) → (ψ d).var = d.var) : Scoped (g.mapLeavesOn ψ fun _ => true) sc where
  leaf n d h := by
    obtain ⟨d', h', rfl⟩ := kind?_mapLeaves_leaf.1 h
    rw [hs.leaf n d' h', hψ n d' h']
  sumNe n h := hs.sumNe n (kind?_mapLeaves_sum.1 h)
  sum n h := hs.sum n (kind?_mapLeaves_sum.1 h)
  prod n h := hs.prod n (kind?_mapLeaves_prod.1 h)

theorem mapLeaves_value {g : Circuit} {ψ : Leaf → Leaf} {ℓ ℓ' : Leaf → ℝ} {f : Node → ℝ} (hf : CircuitValue g ℓ f)
    (h : ∀ n d, g.kind? n = some (.leaf d) → ℓ' (ψ d) = ℓ d) : CircuitValue (g.mapLeavesOn ψ fun _ => true) ℓ' f where
  leaf n d hk := by
    obtain ⟨d', h', rfl⟩ := kind?_mapLeaves_leaf.1 hk
    rw [hf.leaf n d' h', h n d' h']
  sum n hk := hf.sum n (kind?_mapLeaves_sum.1 hk)
  prod n hk := hf.prod n (kind?_mapLeaves_prod.1 hk)

theorem bottomUp_congr {D D' : Type} {g : Graph D} {g' : Graph D'} (hi : g'.ids = g.ids) (he : g'.edges = g.edges) (r : Node) :
    g'.bottomUp r = g.bottomUp r := by
  have hsucc : g'.succ = g.succ := by funext n; unfold succ outEdges; rw [he]
  have hnext : g'.bfsNext = g.bfsNext := by funext v l; unfold bfsNext; rw [hsucc]
  have hloop : ∀ k v l, g'.bfsLoop k v l = g.bfsLoop k v l := by
    intro k
    induction k with
    | zero => intro v l; rfl
    | succ k ih =>
      intro v l
      cases l with
      | nil => rfl
      | cons a l => simp only [bfsLoop, hnext, ih]
  have hlen : g'.nodes.length = g.nodes.length := by
    have := congrArg List.length hi
    simpa [ids] using this
  unfold bottomUp layersFrom
  rw [hloop, hlen]

/-- A query with rules that agree with the old rules on the changed leaves runs exactly as before. -/
theorem query_mapLeaves {V : Type} {g : Circuit} {ψ : Leaf → Leaf} {A A' : Alg Leaf V}
    (hl : ∀ n d, g.kind? n = some (.leaf d) → A'.leaf (ψ d) = A.leaf d) (hs : A'.sum = A.sum) (hp : A'.prod = A.prod) (m : Mem V) :
    (g.mapLeavesOn ψ fun _ => true).query A' m = g.query A m := by
  have hev : ∀ m n, (g.mapLeavesOn ψ fun _ => true).evalUnit A' m n = g.evalUnit A m n := by
    intro m n
    unfold evalUnit
    rw [kind?_mapLeaves]
    cases h : g.kind? n with
    | none => rfl
    | some k =>
      cases k with
      | leaf d => exact hl n d h
      | sum => simp only [Option.map_some, Kind.mapLeaf, hs]; rfl
      | prod => simp only [Option.map_some, Kind.mapLeaf, hp]; rfl
  have hloop : ∀ l m, (g.mapLeavesOn ψ fun _ => true).passLoop A' l m = g.passLoop A l m := by
    intro l
    induction l with
    | nil => intro m; rfl
    | cons n l ih =>
      intro m
      simp only [passLoop, hev, ih]
  have hroot : (g.mapLeavesOn ψ fun _ => true).root = g.root := by
    unfold root
    rw [ids_mapLeavesOn]
    rfl
  unfold query
  rw [hroot]
  cases g.root with
  | error e => rfl
  | ok r => simp only [hloop, bottomUp_congr (ids_mapLeavesOn g ψ _) rfl]

end PM.Graph
