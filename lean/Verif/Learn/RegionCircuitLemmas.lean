import Verif.Learn.RegionTree
import Verif.Spec.RegionCircuit
import Verif.Jax.LayerMassMain

/-! Helper lemmas about the layered circuits of region graphs. -/

namespace PM.Learn
open Spec RegionGraph PM.Jax

/-! ### Layers -/

/-- A layer with `n` nodes over the variables `S`. -/
structure GoodLayer (types : ℕ → VarType) (S : Finset ℕ) (n : ℕ) (L : Layer) : Prop where
  regular : Regular L
  smooth : SmoothLayer L
  decomposable : DecomposableLayer L
  typed : TypedInputs types L
  number : L.numberOfNodes = n
  scopes : ∀ s ∈ nodeScopes L, s = S
  vars : L.variables = S.sort (· ≤ ·)

theorem unionOf_const {S : Finset ℕ} : ∀ {l : List (Finset ℕ)}, l ≠ [] → (∀ s ∈ l, s = S) → unionOf l = S
  | [], h, _ => absurd rfl h
  | [s], _, h => by simp [unionOf, h s (List.mem_singleton.2 rfl)]
  | s :: t :: l, _, h => by
    have := unionOf_const (S := S) (l := t :: l) (by simp) fun s' hs' => h s' (List.mem_cons_of_mem _ hs')
    rw [unionOf, List.foldr_cons]
    rw [unionOf] at this
    rw [this, h s (List.mem_cons_self ..), Finset.union_self]

theorem nodeScopes_length (L : Layer) : (nodeScopes L).length = L.numberOfNodes := by
  cases L <;> simp [nodeScopes, Layer.numberOfNodes]

theorem uniqueSorted_eq (l : List ℕ) : uniqueSorted l = l.toFinset.sort (· ≤ ·) := by
  apply List.Perm.eq_of_pairwise' (r := (· ≤ ·))
  · exact List.pairwise_insertionSort _ _
  · exact Finset.pairwise_sort _ _
  · unfold uniqueSorted
    rw [List.perm_ext_iff_of_nodup ((List.perm_insertionSort _ _).nodup_iff.2 (List.nodup_dedup l)) (Finset.sort_nodup _ _)]
    intro a
    rw [(List.perm_insertionSort _ _).mem_iff, List.mem_dedup, Finset.mem_sort, List.mem_toFinset]

theorem between_pos {lo hi u : ℝ} (h0 : 0 < lo) (h1 : lo ≤ hi) (h2 : 0 ≤ u) : 0 < between lo hi u := by
  have := mul_nonneg h2 (sub_nonneg.2 h1)
  rw [between]
  linarith

theorem log_ne {x : ℝ} (h : 0 < x) : LogP.log x ≠ .negInf := by
  rw [Ne, LogP.log_eq_negInf h.le]
  exact h.ne'

theorem inputLayer_good {V : Finset Var} {kinds : Var → VarKind} (u : Units) {d : Draws} (hd : UnitDraws d) {v : Var} (hv : v ∈ V)
    (hk : Supported (kinds v)) :
    ∃ L, inputLayer V kinds u d {v} = .ok L ∧ GoodLayer (columnTypes V kinds) {(V.sort (· ≤ ·)).idxOf v} u.input L := by
  have hi : (V.sort (· ≤ ·)).idxOf v < (V.sort (· ≤ ·)).length := List.idxOf_lt_length_iff.2 ((Finset.mem_sort _).2 hv)
  have ht : columnTypes V kinds ((V.sort (· ≤ ·)).idxOf v) = kindType (kinds v) := by
    rw [columnTypes, List.getD_eq_getElem _ _ hi, List.getElem_idxOf]
  unfold inputLayer
  rw [Finset.sort_singleton]
  simp only [not_true_eq_false, if_false, hv]
  cases hkv : kinds v with
  | continuous =>
    refine ⟨_, rfl, .input _ _, .input _ _, .input _ _, .input _ _ ?_, by simp [Layer.numberOfNodes], ?_, by simp [Layer.variables]⟩
    · intro f hf
      obtain ⟨i, _, rfl⟩ := List.mem_map.1 hf
      rw [ht, hkv]
      simp only [kindType, NodeFits]
      norm_num
    · intro s hs
      simp only [nodeScopes, List.map_map, List.mem_map] at hs
      obtain ⟨_, _, rfl⟩ := hs
      rfl
  | symbolic n =>
    refine ⟨_, rfl, .input _ _, .input _ _, .input _ _, .input _ _ ?_, by simp [Layer.numberOfNodes], ?_, by simp [Layer.variables]⟩
    · intro f hf
      obtain ⟨i, _, rfl⟩ := List.mem_map.1 hf
      rw [ht, hkv]
      have hn : 0 < n := by rw [hkv] at hk; exact hk
      refine ⟨by simp, _, List.mem_map.2 ⟨0, List.mem_range.2 hn, rfl⟩, log_ne (between_pos (by norm_num) (by norm_num) (hd.2 ..).1)⟩
    · intro s hs
      simp only [nodeScopes, List.map_map, List.mem_map] at hs
      obtain ⟨_, _, rfl⟩ := hs
      rfl
  | integer => rw [hkv] at hk; cases hk

theorem sumLayer_good {types : ℕ → VarType} {S : Finset ℕ} {d : Draws} (hd : UnitDraws d) (units : ℕ) {cs : List Layer} (hne : cs ≠ [])
    (h : ∀ c ∈ cs, ∃ n, 0 < n ∧ GoodLayer types S n c) : ∃ L, sumLayer d units cs = .ok L ∧ GoodLayer types S units L := by
  set ws := cs.map fun c => (List.range units).map fun i => (List.range c.numberOfNodes).map fun j =>
    LogP.log (between 0.1 1 (d.matrix units c.numberOfNodes i j)) with hws
  have hvars : (Layer.denseSum ws cs).variables = S.sort (· ≤ ·) := by
    cases cs with
    | nil => exact absurd rfl hne
    | cons c cs =>
      obtain ⟨n, _, hc⟩ := h c (List.mem_cons_self ..)
      exact hc.vars
  have hnum : (Layer.denseSum ws cs).numberOfNodes = units := by
    cases cs with
    | nil => exact absurd rfl hne
    | cons c cs => simp [Layer.numberOfNodes, hws]
  have hscopes : ∀ s ∈ nodeScopes (.denseSum ws cs), s = S := by
    intro s hs
    rw [nodeScopes, hnum] at hs
    obtain ⟨i, hi, rfl⟩ := List.mem_map.1 hs
    rw [List.mem_range] at hi
    apply unionOf_const
    · cases cs with
      | nil => exact absurd rfl hne
      | cons c cs =>
        obtain ⟨n, hn, hc⟩ := h c (List.mem_cons_self ..)
        have h1 : 0 < ((List.range c.numberOfNodes).map fun j => LogP.log (between 0.1 1 (d.matrix units c.numberOfNodes i j))).length := by
          simp [hc.number, hn]
        have h2 : 0 < (nodeScopes c).length := by rw [nodeScopes_length, hc.number]; exact hn
        simp only [hws, List.map_cons, layerScopes, List.zip_cons_cons, List.flatMap_cons]
        rw [getD_range_map _ hi]
        intro he
        have := congrArg List.length he
        simp only [List.length_append, List.length_map, List.length_zip, List.length_nil] at this
        rw [List.length_map] at h1
        omega
    · intro s hs
      obtain ⟨p, hp, hs⟩ := List.mem_flatMap.1 hs
      obtain ⟨q, hq, rfl⟩ := List.mem_map.1 hs
      have h2 := (List.of_mem_zip hp).2
      rw [layerScopes_eq'] at h2
      obtain ⟨c, hc, hpc⟩ := List.mem_map.1 h2
      obtain ⟨n, _, hg⟩ := h c hc
      exact hg.scopes _ (hpc ▸ (List.of_mem_zip hq).2)
  refine ⟨.denseSum ws cs, ?_, ?_, ?_, .denseSum _ _ fun c hc => ?_, .denseSum _ _ fun c hc => ?_, hnum, hscopes, hvars⟩
  · have : (cs.all fun c => c.variables == (Layer.denseSum ws cs).variables) = true := by
      rw [List.all_eq_true]
      intro c hc
      obtain ⟨n, _, hg⟩ := h c hc
      rw [hvars, hg.vars, beq_self_eq_true]
    rw [sumLayer]
    exact if_pos this
  · refine .denseSum _ _ units (fun c hc => ?_) (by simpa [hws] using hne) ?_ ?_
    · obtain ⟨n, _, hg⟩ := h c hc
      exact hg.regular
    · rw [hws, List.forall₂_map_left_iff, List.forall₂_same]
      intro c _
      refine ⟨by simp, fun row hrow => ?_⟩
      obtain ⟨i, _, rfl⟩ := List.mem_map.1 hrow
      simp
    · intro i hi
      obtain ⟨c, hc⟩ := List.exists_mem_of_ne_nil _ hne
      obtain ⟨n, hn, hg⟩ := h c hc
      refine ⟨_, List.mem_map_of_mem hc, LogP.log (between 0.1 1 (d.matrix units c.numberOfNodes i 0)), ?_,
        log_ne (between_pos (by norm_num) (by norm_num) (hd.2 ..).1)⟩
      rw [getD_range_map _ hi]
      exact List.mem_map.2 ⟨0, List.mem_range.2 (by rw [hg.number]; exact hn), rfl⟩
  · refine .denseSum _ _ (fun c hc => ?_) ?_
    · obtain ⟨n, _, hg⟩ := h c hc
      exact hg.smooth
    · intro T hT s hs s' hs'
      rw [layerScopes_eq'] at hT
      obtain ⟨c, hc, rfl⟩ := List.mem_map.1 hT
      obtain ⟨n, _, hg⟩ := h c hc
      rw [hg.scopes s hs, hscopes s' hs']
  · obtain ⟨n, _, hg⟩ := h c hc
    exact hg.decomposable
  · obtain ⟨n, _, hg⟩ := h c hc
    exact hg.typed

theorem diagonal_filter {n j : ℕ} (hj : j < n) : (((List.range n).map fun i => (i, i)).filter fun e => e.1 == j) = [(j, j)] := by
  rw [List.filter_map]
  have : (List.range n).filter ((fun e : ℕ × ℕ => e.1 == j) ∘ fun k => (k, k)) = [j] := by
    have := List.filter_eq (l := List.range n) j
    simp only [Function.comp_def]
    rw [show (fun x : ℕ => x == j) = fun x => decide (x = j) from rfl]
    rw [this, List.count_eq_one_of_mem List.nodup_range (List.mem_range.2 hj)]
    rfl
  rw [this]
  rfl

theorem productLayer_good {types : ℕ → VarType} {n : ℕ} {cs : List Layer} (hne : cs ≠ []) {Ss : List (Finset ℕ)}
    (h : List.Forall₂ (fun c S => GoodLayer types S n c) cs Ss) (hd : Ss.Pairwise Disjoint) :
    ∃ L, productLayer cs = .ok L ∧ GoodLayer types (unionOf Ss) n L := by
  have hall : ∀ c ∈ cs, ∃ S, GoodLayer types S n c := by
    intro c hc
    obtain ⟨k, hk, rfl⟩ := List.getElem_of_mem hc
    exact ⟨_, (List.forall₂_iff_get.1 h).2 k hk (by rw [← h.length_eq]; exact hk)⟩
  set es := cs.map fun _ => (List.range n).map fun i => (i, i) with hes
  have hnodes : ∀ i < n, ((es.zip (layerScopes cs)).flatMap fun p => (p.1.filter fun e => e.1 == i).map fun e => p.2.getD e.2 ∅) = Ss := by
    intro i hi
    have : ∀ {cs : List Layer} {Ss : List (Finset ℕ)}, List.Forall₂ (fun c S => GoodLayer types S n c) cs Ss →
        (((cs.map fun _ => (List.range n).map fun i => (i, i)).zip (layerScopes cs)).flatMap fun p =>
          (p.1.filter fun e => e.1 == i).map fun e => p.2.getD e.2 ∅) = Ss := by
      intro cs Ss h
      induction h with
      | nil => rfl
      | cons hc _ ih =>
        simp only [List.map_cons, layerScopes, List.zip_cons_cons, List.flatMap_cons]
        rw [ih, diagonal_filter hi]
        simp only [List.map_cons, List.map_nil, List.singleton_append]
        congr 1
        apply hc.scopes
        rw [List.getD_eq_getElem _ _ (by rw [nodeScopes_length, hc.number]; exact hi)]
        exact List.getElem_mem _
    exact this h
  have hscopes : ∀ s ∈ nodeScopes (.product n es cs), s = unionOf Ss := by
    intro s hs
    rw [nodeScopes] at hs
    obtain ⟨i, hi, rfl⟩ := List.mem_map.1 hs
    rw [hnodes i (List.mem_range.1 hi)]
  refine ⟨.product n es cs, ?_, .product _ _ _ ?_ ?_, .product _ _ _ ?_, .product _ _ _ ?_ ?_, .product _ _ _ ?_, rfl, hscopes, ?_⟩
  · have : (cs.map Layer.numberOfNodes).dedup = [n] := by
      have h1 : cs.map Layer.numberOfNodes = List.replicate cs.length n := by
        rw [List.eq_replicate_iff]
        refine ⟨by simp, fun b hb => ?_⟩
        obtain ⟨c, hc, rfl⟩ := List.mem_map.1 hb
        obtain ⟨S, hS⟩ := hall c hc
        exact hS.number
      rw [h1]
      exact List.replicate_dedup (by simpa using hne)
    rw [productLayer, this]
  · intro c hc
    obtain ⟨S, hS⟩ := hall c hc
    exact hS.regular
  · rw [hes, List.forall₂_map_left_iff, List.forall₂_same]
    intro c hc p hp
    obtain ⟨S, hS⟩ := hall c hc
    obtain ⟨i, hi, rfl⟩ := List.mem_map.1 hp
    rw [List.mem_range] at hi
    exact ⟨hi, by rw [hS.number]; exact hi⟩
  · intro c hc
    obtain ⟨S, hS⟩ := hall c hc
    exact hS.smooth
  · intro c hc
    obtain ⟨S, hS⟩ := hall c hc
    exact hS.decomposable
  · intro i hi
    rw [hnodes i hi]
    exact hd
  · intro c hc
    obtain ⟨S, hS⟩ := hall c hc
    exact hS.typed
  · rw [Layer.variables, uniqueSorted_eq]
    congr 1
    have : ∀ {cs : List Layer} {Ss : List (Finset ℕ)}, List.Forall₂ (fun c S => GoodLayer types S n c) cs Ss →
        (allVariables cs).toFinset = unionOf Ss := by
      intro cs Ss h
      induction h with
      | nil => rfl
      | cons hc _ ih =>
        rw [allVariables, List.toFinset_append, ih, hc.vars, Finset.sort_toFinset]
        rfl
    exact this h

end PM.Learn
