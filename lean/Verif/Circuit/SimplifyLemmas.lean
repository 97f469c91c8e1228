import Verif.Circuit.Simplify
import Verif.Circuit.NormalizeLemmas
import Verif.Spec.Sharing

/-! Helper lemmas about in-place edits; property theorems are in `Verif/Props`. -/

namespace PM

open Spec

namespace Graph

variable {D : Type}

theorem filter_eq_single {α : Type} {l : List α} {a : α} {P : α → Bool} (hn : l.Nodup) (ha : a ∈ l)
    (hP : ∀ b ∈ l, P b = true ↔ b = a) : l.filter P = [a] := by
  rw [← List.perm_singleton]
  rw [List.perm_ext_iff_of_nodup (hn.filter _) (by simp)]
  intro b
  simp only [List.mem_filter, List.mem_singleton]
  constructor
  · rintro ⟨h1, h2⟩; exact (hP b h1).1 h2
  · rintro rfl; exact ⟨ha, (hP b ha).2 rfl⟩

theorem WF.edges_nodup {g : Graph D} (hw : g.WF) : g.edges.Nodup := hw.edgeNodup.of_map

theorem WF.edge_ext {g : Graph D} (hw : g.WF) {e e' : Edge} (he : e ∈ g.edges) (he' : e' ∈ g.edges)
    (h1 : e.src = e'.src) (h2 : e.dst = e'.dst) : e = e' := by
  have := hw.edgeNodup
  exact List.inj_on_of_nodup_map this he he' (by simp [h1, h2])

/-- `ep` is the only edge into `x`, and the children of `x` have no other parent. -/
structure Private (g : Graph D) (ep : Edge) (x : Node) : Prop where
  mem : ep ∈ g.edges
  dst : ep.dst = x
  only : ∀ e ∈ g.edges, e.dst = x → e = ep
  own : ∀ e ∈ g.edges, e.src = x → ∀ e' ∈ g.edges, e'.dst = e.dst → e' = e

theorem kind?_removeNode {g : Graph D} {n k : Node} :
    (g.removeNode n).kind? k = if k = n then none else g.kind? k := by
  unfold removeNode kind?
  simp only [List.find?_filter]
  split
  · rename_i h
    subst h
    have : g.nodes.find? (fun a => !(a.1 == k) && (a.1 == k)) = none := by
      rw [List.find?_eq_none]; intro x _; cases (x.1 == k) <;> simp
    rw [show (fun a : Node × Kind D => decide ((!(a.1 == k)) = true ∧ (a.1 == k) = true))
      = (fun a => !(a.1 == k) && (a.1 == k)) by funext a; cases (a.1 == k) <;> simp]
    rw [this]; rfl
  · rename_i h
    congr 2
    funext a
    by_cases ha : a.1 = k
    · subst ha; simp [h]
    · simp [ha]

/-- Remove unit `x` and give its children to `p`, with weights given by `h`. -/
def splice (g : Graph D) (x p : Node) (h : Edge → Option LogP) : Graph D :=
  { nodes := g.nodes.filter (fun q => !(q.1 == x))
    edges := g.edges.filter (fun e => !(e.src == x) && !(e.dst == x)) ++
      (g.outEdges x).map fun e => ⟨p, e.dst, h e⟩ }

theorem kind?_splice {g : Graph D} {x p k : Node} {h : Edge → Option LogP} :
    (g.splice x p h).kind? k = if k = x then none else g.kind? k := by
  rw [← kind?_removeNode]; rfl

theorem ids_splice {g : Graph D} {x p k : Node} {h : Edge → Option LogP} :
    k ∈ (g.splice x p h).ids ↔ k ∈ g.ids ∧ k ≠ x := by
  simp only [splice, ids, List.mem_map, List.mem_filter, Bool.not_eq_true', beq_eq_false_iff_ne]
  constructor
  · rintro ⟨q, ⟨h1, h2⟩, rfl⟩; exact ⟨⟨q, h1, rfl⟩, h2⟩
  · rintro ⟨⟨q, h1, rfl⟩, h2⟩; exact ⟨q, ⟨h1, h2⟩, rfl⟩

theorem mem_edges_splice {g : Graph D} {x p : Node} {h : Edge → Option LogP} {e : Edge} :
    e ∈ (g.splice x p h).edges ↔
      (e ∈ g.edges ∧ e.src ≠ x ∧ e.dst ≠ x) ∨ ∃ e' ∈ g.edges, e'.src = x ∧ e = ⟨p, e'.dst, h e'⟩ := by
  simp only [splice, List.mem_append, List.mem_filter, List.mem_map, mem_outEdges, Bool.and_eq_true, Bool.not_eq_true',
    beq_eq_false_iff_ne]
  constructor
  · rintro (h1 | ⟨e', ⟨h1, h2⟩, rfl⟩)
    · exact .inl h1
    · exact .inr ⟨e', h1, h2, rfl⟩
  · rintro (h1 | ⟨e', h1, h2, rfl⟩)
    · exact .inl h1
    · exact .inr ⟨e', ⟨h1, h2⟩, rfl⟩

theorem outEdges_splice {g : Graph D} {x p k : Node} {h : Edge → Option LogP} (hk : k ≠ x) :
    (g.splice x p h).outEdges k = (g.outEdges k).filter (fun e => !(e.dst == x)) ++
      if k = p then (g.outEdges x).map (fun e => ⟨p, e.dst, h e⟩) else [] := by
  simp only [splice, outEdges, List.filter_append, List.filter_filter]
  congr 1
  · apply List.filter_congr
    intro e _
    by_cases he : e.src = k
    · subst he; simp [hk]
    · rw [beq_eq_false_iff_ne.2 he, Bool.false_and, Bool.and_false]
  · split
    · rename_i h'
      subst h'
      rw [List.filter_eq_self.2]
      intro e he
      obtain ⟨e', _, rfl⟩ := List.mem_map.1 he
      simp
    · rename_i h'
      rw [List.filter_eq_nil_iff]
      intro e he
      obtain ⟨e', _, rfl⟩ := List.mem_map.1 he
      simpa using Ne.symm h'

/-- The weight of an edge as `simplify` treats it: the edge of a single-child unit counts as one. -/
noncomputable def effW (g : Graph D) (e : Edge) : ℝ := if (g.succ e.src).length = 1 then 1 else linWeight e

/-- Values with these weights. -/
structure EffValue (g : Graph D) (ℓ : D → ℝ) (f : Node → ℝ) : Prop where
  leaf : ∀ n d, g.kind? n = some (.leaf d) → f n = ℓ d
  sum : ∀ n, g.kind? n = some .sum → f n = ((g.outEdges n).map fun e => g.effW e * f e.dst).sum
  prod : ∀ n, g.kind? n = some .prod → f n = ((g.outEdges n).map fun e => f e.dst).prod

/-- Every sum unit has a single child or weights that sum to one. -/
def EffNorm (g : Graph D) : Prop := ∀ n, g.kind? n = some .sum → ((g.outEdges n).map g.effW).sum = 1

theorem effW_eq {g : Graph D} (hn : NormalizedSums g) {n : Node} (hk : g.kind? n = some .sum) {e : Edge}
    (he : e ∈ g.outEdges n) : g.effW e = linWeight e := by
  unfold effW
  split
  · rename_i h
    have h1 := hn n hk
    obtain ⟨_, rfl⟩ := mem_outEdges.1 he
    simp only [succ, List.length_map] at h
    obtain ⟨e₀, h0⟩ := List.length_eq_one_iff.1 h
    rw [h0, List.mem_singleton] at he
    rw [h0] at h1
    subst he
    simpa using h1.symm
  · rfl

theorem NormalizedSums.eff {g : Graph D} (hn : NormalizedSums g) : g.EffNorm := by
  intro n hk
  rw [← hn n hk]
  congr 1
  exact List.map_congr_left fun e he => effW_eq hn hk he

theorem CircuitValue.eff {g : Graph D} (hn : NormalizedSums g) {ℓ : D → ℝ} {f : Node → ℝ} (hf : CircuitValue g ℓ f) :
    g.EffValue ℓ f := by
  refine ⟨hf.leaf, fun n hk => ?_, hf.prod⟩
  rw [hf.sum n hk]
  congr 1
  exact List.map_congr_left fun e he => by rw [effW_eq hn hk he]

theorem EffValue.circuitValue {g : Graph D} (hn : NormalizedSums g) {ℓ : D → ℝ} {f : Node → ℝ} (hf : g.EffValue ℓ f) :
    CircuitValue g ℓ f := by
  refine ⟨hf.leaf, fun n hk => ?_, hf.prod⟩
  rw [hf.sum n hk]
  congr 1
  exact List.map_congr_left fun e he => by rw [effW_eq hn hk he]

/-- Invariant of `simplify`.  `depth` is the depth in the circuit before `simplify`. -/
structure RwInv (depth : Node → Nat) (g : Graph D) : Prop where
  wf : g.WF
  shared : SafeSharing g
  desc : ∀ e ∈ g.edges, depth e.src < depth e.dst
  leaves : g.LeafTerminal
  pos : PositiveWeights g
  norm : g.EffNorm

theorem RwInv.acyclic {depth : Node → Nat} {g : Graph D} (h : RwInv depth g) : g.Acyclic := by
  have hd := h.desc
  have hbound : ∃ M, ∀ e ∈ g.edges, depth e.dst ≤ M := by
    clear hd
    induction g.edges with
    | nil => exact ⟨0, by simp⟩
    | cons e es ih =>
      obtain ⟨M, hM⟩ := ih
      refine ⟨max M (depth e.dst), ?_⟩
      intro e' he'
      rcases List.mem_cons.1 he' with rfl | h
      · exact le_max_right _ _
      · exact (hM e' h).trans (le_max_left _ _)
  obtain ⟨M, hM⟩ := hbound
  refine ⟨fun n => M - depth n, fun e he => ?_⟩
  have h1 := hd e he
  have h2 := hM e he
  simp only
  omega

section Splice

variable {g : Graph D} {depth : Node → Nat} {x : Node} {ep : Edge} {h : Edge → Option LogP} {q : Edge → ℝ}

/-- The out-edges of the parent after splicing, up to order. -/
theorem outEdges_parent_perm (hw : g.WF) (hP : Private g ep x) :
    (g.outEdges ep.src).Perm (ep :: (g.outEdges ep.src).filter (fun e => !(e.dst == x))) := by
  have h1 : (g.outEdges ep.src).filter (fun e => e.dst == x) = [ep] := by
    apply filter_eq_single (hw.edges_nodup.filter _) (mem_outEdges.2 ⟨hP.mem, rfl⟩)
    intro b hb
    change b ∈ g.outEdges ep.src at hb
    rw [mem_outEdges] at hb
    constructor
    · intro hb'
      exact hP.only b hb.1 (by simpa using hb')
    · rintro rfl; simpa using hP.dst
  have h2 := List.filter_append_perm (fun e : Edge => e.dst == x) (g.outEdges ep.src)
  rw [h1] at h2
  exact h2.symm

theorem outEdges_other (hP : Private g ep x) {k : Node} (hk : k ≠ ep.src) :
    (g.outEdges k).filter (fun e => !(e.dst == x)) = g.outEdges k := by
  rw [List.filter_eq_self]
  intro e he
  rw [mem_outEdges] at he
  simp only [Bool.not_eq_true', beq_eq_false_iff_ne]
  intro hd
  exact hk (he.2 ▸ congrArg Edge.src (hP.only e he.1 hd))

theorem effW_splice_parent (hlen : ((g.splice x ep.src h).succ ep.src).length = 1 ↔ (g.succ ep.src).length = 1) {e : Edge}
    (he : e.src = ep.src) : (g.splice x ep.src h).effW e = g.effW e := by
  unfold effW
  rw [he]
  simp only [hlen]

theorem effW_splice_other (hP : Private g ep x) {n : Node} {e : Edge} (he : e.src = n) (hnx : n ≠ x) (hnp : n ≠ ep.src) :
    (g.splice x ep.src h).effW e = g.effW e := by
  unfold effW
  have : (g.splice x ep.src h).succ e.src = g.succ e.src := by
    rw [he]
    simp only [succ, outEdges_splice hnx, if_neg hnp, outEdges_other hP hnp, List.append_nil]
  rw [this]

theorem splice_value (hw : g.WF) (hP : Private g ep x)
    (hq : ((g.outEdges x).map q).sum = 1)
    (hval : ∀ ℓ f, g.EffValue ℓ f → f x = ((g.outEdges x).map fun e => q e * f e.dst).sum)
    (hlen : ((g.splice x ep.src h).succ ep.src).length = 1 ↔ (g.succ ep.src).length = 1)
    (hs : g.kind? ep.src = some .sum → ∀ e ∈ g.outEdges x,
      (g.splice x ep.src h).effW ⟨ep.src, e.dst, h e⟩ = g.effW ep * q e)
    (hp : g.kind? ep.src = some .prod → ∃ e₀, g.outEdges x = [e₀]) {ℓ : D → ℝ} {f : Node → ℝ}
    (hf : g.EffValue ℓ f) : (g.splice x ep.src h).EffValue ℓ f := by
  have hk : ∀ {n k}, (g.splice x ep.src h).kind? n = some k → n ≠ x ∧ g.kind? n = some k := by
    intro n k hn
    rw [kind?_splice] at hn
    split at hn
    · cases hn
    · exact ⟨by assumption, hn⟩
  refine ⟨?_, ?_, ?_⟩
  · intro n d hn; exact hf.leaf n d (hk hn).2
  · intro n hn
    obtain ⟨hnx, hn⟩ := hk hn
    rw [outEdges_splice hnx, hf.sum n hn]
    by_cases hnp : n = ep.src
    · rw [if_pos hnp]
      subst hnp
      rw [((outEdges_parent_perm hw hP).map _).sum_eq, List.map_append, List.sum_append, List.map_cons,
        List.sum_cons, add_comm]
      congr 1
      · congr 1
        apply List.map_congr_left
        intro e he
        rw [effW_splice_parent hlen (mem_outEdges.1 (List.mem_of_mem_filter he)).2]
      · rw [hP.dst, hval ℓ f hf, List.map_map, ← List.sum_map_mul_left]
        congr 1
        apply List.map_congr_left
        intro e he
        simp only [Function.comp]
        rw [hs hn e he]; ring
    · rw [if_neg hnp, outEdges_other hP hnp, List.append_nil]
      congr 1
      apply List.map_congr_left
      intro e he
      rw [effW_splice_other hP (mem_outEdges.1 he).2 hnx hnp]
  · intro n hn
    obtain ⟨hnx, hn⟩ := hk hn
    rw [outEdges_splice hnx, hf.prod n hn]
    by_cases hnp : n = ep.src
    · rw [if_pos hnp]
      subst hnp
      rw [((outEdges_parent_perm hw hP).map _).prod_eq, List.map_append, List.prod_append, List.map_cons,
        List.prod_cons, mul_comm]
      congr 1
      obtain ⟨e₀, he₀⟩ := hp hn
      have hv := hval ℓ f hf
      rw [he₀] at hq hv ⊢
      simp only [List.map_cons, List.map_nil, List.sum_cons, List.sum_nil, add_zero] at hq hv
      simp [hP.dst, hv, hq]
    · rw [if_neg hnp, outEdges_other hP hnp, List.append_nil]

theorem length_succ_splice (hw : g.WF) (hP : Private g ep x) (hne : g.outEdges x ≠ []) {k : Node} (hk : k ≠ x) :
    (g.succ k).length ≤ ((g.splice x ep.src h).succ k).length := by
  simp only [succ, List.length_map, outEdges_splice hk, List.length_append]
  by_cases hkp : k = ep.src
  · subst hkp
    rw [(outEdges_parent_perm hw hP).length_eq]
    have := List.length_pos_iff.2 hne
    simp only [List.length_cons, if_true, List.length_map]
    omega
  · rw [outEdges_other hP hkp]; omega

theorem length_parent_splice (hw : g.WF) (hP : Private g ep x) (hpx : ep.src ≠ x) :
    ((g.splice x ep.src h).succ ep.src).length + 1 = (g.succ ep.src).length + (g.succ x).length := by
  simp only [succ, List.length_map, outEdges_splice hpx, List.length_append, if_true]
  rw [(outEdges_parent_perm hw hP).length_eq]
  simp only [List.length_cons]
  omega

theorem succ_other_splice (hP : Private g ep x) {k : Node} (hkx : k ≠ x) (hkp : k ≠ ep.src) :
    (g.splice x ep.src h).succ k = g.succ k := by
  simp only [succ, outEdges_splice hkx, if_neg hkp, outEdges_other hP hkp, List.append_nil]

theorem splice_inv (hI : RwInv depth g) (hP : Private g ep x)
    (hAB : (∃ e₀, g.outEdges x = [e₀]) ∨ g.kind? x = some .sum)
    (hq : ((g.outEdges x).map q).sum = 1)
    (hfin : g.kind? ep.src = some .sum → ∀ e ∈ g.outEdges x, ∃ y, h e = some (.fin y))
    (hlen : ((g.splice x ep.src h).succ ep.src).length = 1 ↔ (g.succ ep.src).length = 1)
    (hs : g.kind? ep.src = some .sum → ∀ e ∈ g.outEdges x,
      (g.splice x ep.src h).effW ⟨ep.src, e.dst, h e⟩ = g.effW ep * q e) :
    RwInv depth (g.splice x ep.src h) := by
  obtain ⟨hw, hsh, hd, hl, hp, hn⟩ := hI
  have hep := hP.mem
  have hx := hP.dst
  have hne : g.outEdges x ≠ [] := by intro h0; rw [h0] at hq; simp at hq
  have hpx : ep.src ≠ x := fun h => by have := hd ep hep; rw [hx, h] at this; omega
  have hkind : ∀ {n k}, (g.splice x ep.src h).kind? n = some k → n ≠ x ∧ g.kind? n = some k := by
    intro n k hn
    rw [kind?_splice] at hn
    split at hn
    · cases hn
    · exact ⟨by assumption, hn⟩
  have hnox : ∀ e ∈ g.edges, e.src = x → e.dst ≠ x := by
    intro e he h1 h2
    have := hd e he
    rw [h1, h2] at this; omega
  refine ⟨⟨?_, ?_, ?_, ?_⟩, ?_, ?_, ?_, ?_, ?_⟩
  · have := hw.nodup
    unfold ids at this ⊢
    exact this.sublist (List.Sublist.map _ List.filter_sublist)
  · -- distinct pairs
    have hnd := hw.edgeNodup
    simp only [splice, List.map_append, List.map_map]
    rw [List.nodup_append]
    refine ⟨hnd.sublist (List.Sublist.map _ List.filter_sublist), ?_, ?_⟩
    · rw [List.nodup_map_iff_inj_on (show (g.outEdges x).Nodup from hw.edges_nodup.filter _)]
      intro a ha b hb hab
      rw [mem_outEdges] at ha hb
      simp only [Function.comp, Prod.mk.injEq, true_and] at hab
      exact hP.own b hb.1 hb.2 a ha.1 hab
    · intro a ha b hb hab
      simp only [List.mem_map, List.mem_filter, mem_outEdges, Function.comp] at ha hb
      obtain ⟨e, ⟨he, he'⟩, rfl⟩ := ha
      obtain ⟨e2, ⟨he2, he2'⟩, rfl⟩ := hb
      simp only [Prod.mk.injEq] at hab
      have := hP.own e2 he2 he2' e he hab.2
      subst this
      simp [he2'] at he'
  · intro e he
    rw [ids_splice]
    rcases mem_edges_splice.1 he with ⟨h1, h2, h3⟩ | ⟨e', h1, h2, rfl⟩
    · exact ⟨hw.srcMem e h1, h2⟩
    · exact ⟨hw.srcMem ep hep, hpx⟩
  · intro e he
    rw [ids_splice]
    rcases mem_edges_splice.1 he with ⟨h1, h2, h3⟩ | ⟨e', h1, h2, rfl⟩
    · exact ⟨hw.dstMem e h1, h3⟩
    · exact ⟨hw.dstMem e' h1, hnox e' h1 h2⟩
  · -- sharing
    have hk' : ∀ {n k}, n ≠ x → g.kind? n = some k → (g.splice x ep.src h).kind? n = some k := by
      intro n k h1 h2
      rw [kind?_splice, if_neg h1]; exact h2
    have hlen2 : ∀ {k}, k ≠ x → 2 ≤ (g.succ k).length → 2 ≤ ((g.splice x ep.src h).succ k).length :=
      fun h1 h2 => h2.trans (length_succ_splice hw hP hne h1)
    intro e he e' he' hdst hsrc
    rcases mem_edges_splice.1 he with ⟨h1, h2, h3⟩ | ⟨e1, h1, h2, rfl⟩ <;>
      rcases mem_edges_splice.1 he' with ⟨h1', h2', h3'⟩ | ⟨e1', h1', h2', rfl⟩
    · obtain ⟨⟨ha, hb⟩, hc⟩ := hsh e h1 e' h1' hdst hsrc
      refine ⟨⟨hlen2 h2 ha, hb.imp (hk' h2) ?_⟩, hc.imp ?_ ?_⟩
      · rintro ⟨hb1, hb2⟩
        refine ⟨hk' h2 hb1, ?_⟩
        intro e2 he2 hd2
        rcases mem_edges_splice.1 he2 with ⟨g1, g2, g3⟩ | ⟨e3, g1, g2, rfl⟩
        · obtain ⟨g4, g5⟩ := hb2 e2 g1 hd2
          exact ⟨hk' g2 g4, hlen2 g2 g5⟩
        · exfalso
          obtain ⟨g4, g5⟩ := hb2 e3 g1 hd2
          rw [g2] at g4 g5
          rcases hAB with ⟨e₀, h0⟩ | h0
          · simp [succ, h0] at g5
          · rw [h0] at g4; cases g4
      · rintro ⟨d, h4⟩; exact ⟨d, hk' h3 h4⟩
      · rintro ⟨h4, h5⟩
        exact ⟨hlen2 h3 h4, fun h6 => hk' h2 (h5 (hkind h6).2)⟩
    · exact absurd (congrArg Edge.src (hP.own e1' h1' h2' e h1 hdst)) (by rw [h2']; exact h2)
    · exact absurd (congrArg Edge.src (hP.own e1 h1 h2 e' h1' hdst.symm)) (by rw [h2]; exact h2')
    · exact absurd rfl hsrc
  · intro e he
    rcases mem_edges_splice.1 he with ⟨h1, h2, h3⟩ | ⟨e', h1, h2, rfl⟩
    · exact hd e h1
    · have a := hd ep hep
      have b := hd e' h1
      rw [hx] at a; rw [h2] at b
      exact a.trans b
  · intro n d hn
    obtain ⟨hnx, hn⟩ := hkind hn
    have := hl n d hn
    have ho : g.outEdges n = [] := by simpa [succ] using this
    have hne : n ≠ ep.src := by
      rintro rfl
      have := mem_outEdges.2 ⟨hep, rfl⟩
      rw [ho] at this; simp at this
    simp [succ, outEdges_splice hnx, ho, hne]
  · intro n hn e he
    obtain ⟨hnx, hn⟩ := hkind hn
    rw [outEdges_splice hnx, List.mem_append] at he
    rcases he with he | he
    · exact hp n hn e (List.mem_of_mem_filter he)
    · split at he
      · rename_i hnp
        subst hnp
        obtain ⟨e', he', rfl⟩ := List.mem_map.1 he
        exact hfin hn e' he'
      · simp at he
  · intro n hn'
    obtain ⟨hnx, hn'⟩ := hkind hn'
    rw [outEdges_splice hnx]
    have hone := hn n hn'
    by_cases hnp : n = ep.src
    · rw [if_pos hnp]
      subst hnp
      rw [((outEdges_parent_perm hw hP).map _).sum_eq, List.map_cons, List.sum_cons, add_comm] at hone
      rw [List.map_append, List.sum_append, List.map_map, ← hone]
      congr 1
      · congr 1
        apply List.map_congr_left
        intro e he
        exact effW_splice_parent hlen (mem_outEdges.1 (List.mem_of_mem_filter he)).2
      · rw [← mul_one (g.effW ep), ← hq, ← List.sum_map_mul_left]
        congr 1
        apply List.map_congr_left
        intro e he
        exact hs hn' e he
    · rw [if_neg hnp, outEdges_other hP hnp, List.append_nil, ← hone]
      congr 1
      apply List.map_congr_left
      intro e he
      exact effW_splice_other hP (mem_outEdges.1 he).2 hnx hnp

theorem root_of {g : Graph D} (hw : g.WF) {r : Node} (hr : r ∈ g.ids) (h0 : g.inEdges r = [])
    (hu : ∀ n ∈ g.ids, g.inEdges n = [] → n = r) : g.root = .ok r := by
  have : g.ids.filter (fun n => g.inDegree n == 0) = [r] := by
    apply filter_eq_single hw.nodup hr
    intro b hb
    simp only [inDegree, beq_iff_eq, List.length_eq_zero_iff]
    exact ⟨fun h => hu b hb h, fun h => h ▸ h0⟩
  unfold root
  rw [this]

theorem inEdges_eq_nil {g : Graph D} {n : Node} : g.inEdges n = [] ↔ ∀ e ∈ g.edges, e.dst ≠ n := by
  simp [inEdges, List.filter_eq_nil_iff]

theorem splice_root (hI : RwInv depth (g.splice x ep.src h)) (hP : Private g ep x) {r : Node}
    (hr : g.root = .ok r) : (g.splice x ep.src h).root = .ok r := by
  obtain ⟨h1, h2⟩ := root_mem hr
  rw [inEdges_eq_nil] at h2
  have hrx : r ≠ x := fun h => h2 ep hP.mem (h ▸ hP.dst)
  apply root_of hI.wf
  · exact ids_splice.2 ⟨h1, hrx⟩
  · rw [inEdges_eq_nil]
    intro e he
    rcases mem_edges_splice.1 he with ⟨h1, _, _⟩ | ⟨e', h1, _, rfl⟩
    · exact h2 e h1
    · exact h2 e' h1
  · intro n hn h0
    obtain ⟨hn, hnx⟩ := ids_splice.1 hn
    refine root_unique hr hn (inEdges_eq_nil.2 ?_)
    rw [inEdges_eq_nil] at h0
    intro e he hd
    by_cases hsrc : e.src = x
    · exact h0 _ (mem_edges_splice.2 (.inr ⟨e, he, hsrc, rfl⟩)) hd
    · exact h0 e (mem_edges_splice.2 (.inl ⟨he, hsrc, hd ▸ hnx⟩)) hd

end Splice

section SpliceScope

variable {g : Circuit} {x : Node} {ep : Edge} {h : Edge → Option LogP}

theorem splice_scopes (hP : Private g ep x)
    (hne : g.outEdges x ≠ [])
    (hp : g.kind? ep.src = some .prod → ∃ e₀, g.outEdges x = [e₀]) {sc : Node → Finset Var} (hs : Scoped g sc)
    (hdec : Decomposable g sc) (hsc : ∀ e ∈ g.outEdges x, sc e.dst = sc x) :
    Scoped (g.splice x ep.src h) sc ∧ Decomposable (g.splice x ep.src h) sc := by
  have hkind : ∀ {n k}, (g.splice x ep.src h).kind? n = some k → n ≠ x ∧ g.kind? n = some k := by
    intro n k hn
    rw [kind?_splice] at hn
    split at hn
    · cases hn
    · exact ⟨by assumption, hn⟩
  have hsucc : ∀ {n}, n ≠ x → (g.splice x ep.src h).succ n =
      (g.succ n).filter (fun c => !(c == x)) ++ if n = ep.src then g.succ x else [] := by
    intro n hnx
    simp only [succ, outEdges_splice hnx, List.map_append, List.filter_map]
    congr 1
    split <;> simp
  have hxmem : x ∈ g.succ ep.src := mem_succ.2 ⟨ep, hP.mem, rfl, hP.dst⟩
  have hscx : ∀ c ∈ g.succ x, sc c = sc x := by
    intro c hc
    obtain ⟨e, he, rfl⟩ := List.mem_map.1 hc
    exact hsc e he
  refine ⟨⟨?_, ?_, ?_, ?_⟩, ?_⟩
  · intro n d hn; exact hs.leaf n d (hkind hn).2
  · intro n hn
    obtain ⟨hnx, hn⟩ := hkind hn
    rw [hsucc hnx]
    by_cases hnp : n = ep.src
    · simp [hnp, succ, hne]
    · rw [if_neg hnp, List.append_nil]
      obtain ⟨c, hc⟩ := List.exists_mem_of_ne_nil _ (hs.sumNe n hn)
      refine List.ne_nil_of_mem (a := c) (List.mem_filter.2 ⟨hc, ?_⟩)
      simp only [Bool.not_eq_true', beq_eq_false_iff_ne]
      rintro rfl
      obtain ⟨e, he, hes, hed⟩ := mem_succ.1 hc
      exact hnp (hes ▸ congrArg Edge.src (hP.only e he hed))
  · intro n hn c hc
    obtain ⟨hnx, hn⟩ := hkind hn
    rw [hsucc hnx, List.mem_append] at hc
    rcases hc with hc | hc
    · exact hs.sum n hn c (List.mem_of_mem_filter hc)
    · split at hc
      · rename_i hnp
        subst hnp
        rw [hscx c hc, hs.sum _ hn x hxmem]
      · simp at hc
  · intro n hn v
    obtain ⟨hnx, hn⟩ := hkind hn
    rw [hsucc hnx, hs.prod n hn v]
    constructor
    · rintro ⟨c, hc, hv⟩
      by_cases hcx : c = x
      · subst hcx
        have hnp : n = ep.src := by
          obtain ⟨e, he, hes, hed⟩ := mem_succ.1 hc
          exact hes ▸ congrArg Edge.src (hP.only e he hed)
        obtain ⟨e, he⟩ := List.exists_mem_of_ne_nil _ hne
        refine ⟨e.dst, List.mem_append.2 (.inr ?_), ?_⟩
        · rw [if_pos hnp]; exact dst_mem_succ he
        · rw [hsc e he]; exact hv
      · exact ⟨c, List.mem_append.2 (.inl (List.mem_filter.2 ⟨hc, by simpa using hcx⟩)), hv⟩
    · rintro ⟨c, hc, hv⟩
      rw [List.mem_append] at hc
      rcases hc with hc | hc
      · exact ⟨c, List.mem_of_mem_filter hc, hv⟩
      · split at hc
        · rename_i hnp
          subst hnp
          exact ⟨x, hxmem, hscx c hc ▸ hv⟩
        · simp at hc
  · intro n hn
    obtain ⟨hnx, hn⟩ := hkind hn
    rw [hsucc hnx]
    have hpw := hdec n hn
    rw [List.pairwise_append]
    refine ⟨hpw.sublist List.filter_sublist, ?_, ?_⟩
    · split
      · rename_i hnp
        subst hnp
        obtain ⟨e₀, he₀⟩ := hp hn
        simp [succ, he₀]
      · simp
    · intro a ha b hb
      split at hb
      · rename_i hnp
        subst hnp
        rw [hscx b hb]
        obtain ⟨ha1, ha2⟩ := List.mem_filter.1 ha
        have : Std.Symm fun a b => Disjoint (sc a) (sc b) := ⟨fun a b h => h.symm⟩
        exact hpw.forall ha1 hxmem (by simpa using ha2)
      · simp at hb

end SpliceScope

end Graph
end PM
