import Verif.Circuit.Conditional
import Verif.Circuit.Induced
import Verif.Spec.Sharing

/-! Helper lemmas: copies of a circuit. -/

namespace PM

open Spec

namespace Graph

variable {D : Type}

/-- The renaming of an edge. -/
def shiftEdge (off : Nat) (e : Edge) : Edge := ⟨off + e.src, off + e.dst, e.weight⟩

theorem copyAt_nodes (g : Graph D) (off : Nat) : (g.copyAt off).nodes = g.nodes.map fun p => (off + p.1, p.2) := rfl

theorem filter_edgeView {g : Graph D} (hw : g.WF) (n : Node) :
    g.edgeView.filter (fun e => e.src == n) = g.outEdges n := by
  have key : ∀ l : List Node, l.Nodup → (l.flatMap g.outEdges).filter (fun e => e.src == n) =
      if n ∈ l then g.outEdges n else [] := by
    intro l
    induction l with
    | nil => intro _; simp
    | cons a l ih =>
      intro hl
      rw [List.nodup_cons] at hl
      rw [List.flatMap_cons, List.filter_append, ih hl.2]
      by_cases ha : a = n
      · subst ha
        rw [if_neg hl.1, if_pos (by simp), List.append_nil, List.filter_eq_self]
        intro e he
        rw [mem_outEdges] at he
        simp [he.2]
      · have : (g.outEdges a).filter (fun e => e.src == n) = [] := by
          rw [List.filter_eq_nil_iff]
          intro e he
          rw [mem_outEdges] at he
          simp [he.2, ha]
        rw [this, List.nil_append]
        by_cases hn : n ∈ l
        · rw [if_pos hn, if_pos (by simp [hn])]
        · rw [if_neg hn, if_neg]
          simp only [List.mem_cons, not_or]
          exact ⟨fun h => ha h.symm, hn⟩
  rw [edgeView, key _ hw.nodup]
  by_cases hn : n ∈ g.ids
  · rw [if_pos hn]
  · rw [if_neg hn]
    refine (List.eq_nil_iff_forall_not_mem.2 ?_).symm
    intro e he
    rw [mem_outEdges] at he
    exact hn (he.2 ▸ hw.srcMem e he.1)

theorem mem_edgeView {g : Graph D} (hw : g.WF) {e : Edge} : e ∈ g.edgeView ↔ e ∈ g.edges := by
  unfold edgeView
  rw [List.mem_flatMap]
  constructor
  · rintro ⟨n, _, he⟩; exact (mem_outEdges.1 he).1
  · intro he; exact ⟨e.src, hw.srcMem e he, mem_outEdges.2 ⟨he, rfl⟩⟩

theorem edgeView_perm {g : Graph D} (hw : g.WF) : g.edgeView.Perm g.edges := by
  have h1 : g.edges.Nodup := hw.edgeNodup.of_map _
  have h2 : g.edgeView.Nodup := by
    unfold edgeView
    rw [List.nodup_flatMap]
    refine ⟨fun n _ => h1.filter _, hw.nodup.imp ?_⟩
    intro a b hab e ha hb
    rw [mem_outEdges] at ha hb
    exact hab (ha.2.symm.trans hb.2)
  exact (List.perm_ext_iff_of_nodup h2 h1).2 fun e => mem_edgeView hw

theorem copyAt_edges_perm {g : Graph D} (hw : g.WF) (off : Nat) : (g.copyAt off).edges.Perm (g.edges.map (shiftEdge off)) :=
  (edgeView_perm hw).map _

theorem mem_copyAt_edges {g : Graph D} (hw : g.WF) {off : Nat} {e : Edge} :
    e ∈ (g.copyAt off).edges ↔ ∃ e' ∈ g.edges, e = shiftEdge off e' := by
  rw [(copyAt_edges_perm hw off).mem_iff, List.mem_map]
  exact ⟨fun ⟨a, h1, h2⟩ => ⟨a, h1, h2.symm⟩, fun ⟨a, h1, h2⟩ => ⟨a, h1, h2.symm⟩⟩

theorem ids_copyAt (g : Graph D) (off : Nat) : (g.copyAt off).ids = g.ids.map (off + ·) := by
  simp only [ids, copyAt_nodes, List.map_map]; rfl

theorem mem_ids_copyAt {g : Graph D} {off : Nat} {n : Node} : off + n ∈ (g.copyAt off).ids ↔ n ∈ g.ids := by
  rw [ids_copyAt, List.mem_map]
  constructor
  · rintro ⟨a, h1, h2⟩
    have : a = n := Nat.add_left_cancel h2
    rwa [← this]
  · intro h; exact ⟨n, h, rfl⟩

theorem exists_of_mem_copyAt {g : Graph D} {off : Nat} {k : Node} (h : k ∈ (g.copyAt off).ids) :
    ∃ n ∈ g.ids, k = off + n := by
  rw [ids_copyAt, List.mem_map] at h
  obtain ⟨n, h1, rfl⟩ := h
  exact ⟨n, h1, rfl⟩

theorem beq_shift (off a b : Nat) : ((off + a) == (off + b)) = (a == b) := by
  rw [Bool.eq_iff_iff]; simp

theorem kind?_copyAt (g : Graph D) (off : Nat) (n : Node) : (g.copyAt off).kind? (off + n) = g.kind? n := by
  unfold kind?
  rw [copyAt_nodes, List.find?_map]
  have : ((fun p : Node × Kind D => p.1 == off + n) ∘ fun p : Node × Kind D => (off + p.1, p.2)) = fun p => p.1 == n := by
    funext p; exact beq_shift off p.1 n
  rw [this, Option.map_map]
  rfl

theorem exists_of_kind?_copyAt {g : Graph D} {off : Nat} {k : Node} {κ : Kind D} (h : (g.copyAt off).kind? k = some κ) :
    ∃ n, k = off + n ∧ g.kind? n = some κ := by
  obtain ⟨n, _, rfl⟩ := exists_of_mem_copyAt (mem_ids_of_kind? h)
  exact ⟨n, rfl, by rwa [kind?_copyAt] at h⟩

/-- A copy keeps the order of the children. -/
theorem outEdges_copyAt {g : Graph D} (hw : g.WF) (off : Nat) (n : Node) :
    (g.copyAt off).outEdges (off + n) = (g.outEdges n).map (shiftEdge off) := by
  show (g.edgeView.map (shiftEdge off)).filter _ = _
  rw [List.filter_map]
  congr 1
  rw [← filter_edgeView hw n]
  apply List.filter_congr
  intro e _
  exact beq_shift off e.src n

theorem outEdges_copyAt_perm {g : Graph D} (hw : g.WF) (off : Nat) (n : Node) :
    ((g.copyAt off).outEdges (off + n)).Perm ((g.outEdges n).map (shiftEdge off)) := .of_eq (outEdges_copyAt hw off n)

theorem inEdges_copyAt_perm {g : Graph D} (hw : g.WF) (off : Nat) (n : Node) :
    ((g.copyAt off).inEdges (off + n)).Perm ((g.inEdges n).map (shiftEdge off)) := by
  refine ((copyAt_edges_perm hw off).filter _).trans (.of_eq ?_)
  rw [List.filter_map]
  congr 1
  apply List.filter_congr
  intro e _
  exact beq_shift off e.dst n

theorem succ_copyAt_perm {g : Graph D} (hw : g.WF) (off : Nat) (n : Node) :
    ((g.copyAt off).succ (off + n)).Perm ((g.succ n).map (off + ·)) := by
  unfold succ
  refine ((outEdges_copyAt_perm hw off n).map _).trans (.of_eq ?_)
  rw [List.map_map, List.map_map]; rfl

theorem WF.copyAt {g : Graph D} (hw : g.WF) (off : Nat) : (g.copyAt off).WF := by
  refine ⟨?_, ?_, ?_, ?_⟩
  · rw [ids_copyAt]
    exact hw.nodup.map fun a b h => Nat.add_left_cancel h
  · have h := (copyAt_edges_perm hw off).map (fun e => (e.src, e.dst))
    refine (h.nodup_iff).2 ?_
    rw [List.map_map]
    have : ((fun e : Edge => (e.src, e.dst)) ∘ shiftEdge off) = (fun p : Nat × Nat => (off + p.1, off + p.2)) ∘ fun e => (e.src, e.dst) := rfl
    rw [this, ← List.map_map]
    exact hw.edgeNodup.map fun a b h => by
      simp only [Prod.mk.injEq] at h
      exact Prod.ext (Nat.add_left_cancel h.1) (Nat.add_left_cancel h.2)
  · intro e he
    obtain ⟨e', he', rfl⟩ := (mem_copyAt_edges hw).1 he
    exact mem_ids_copyAt.2 (hw.srcMem e' he')
  · intro e he
    obtain ⟨e', he', rfl⟩ := (mem_copyAt_edges hw).1 he
    exact mem_ids_copyAt.2 (hw.dstMem e' he')

theorem root_copyAt {g : Graph D} (hw : g.WF) (off : Nat) {r : Node} (hr : g.root = .ok r) :
    (g.copyAt off).root = .ok (off + r) := by
  obtain ⟨h1, h2⟩ := root_mem hr
  refine root_of (hw.copyAt off) (mem_ids_copyAt.2 h1) ?_ ?_
  · have := inEdges_copyAt_perm hw off r
    rw [h2] at this
    exact this.eq_nil
  · intro k hk h0
    obtain ⟨n, hn, rfl⟩ := exists_of_mem_copyAt hk
    have := inEdges_copyAt_perm hw off n
    rw [h0] at this
    have h3 : g.inEdges n = [] := by simpa using this.nil_eq.symm
    rw [root_unique hr hn h3]

theorem Layered.copyAt {g : Graph D} {r : Node} (hL : Layered g r) (off : Nat) : Layered (g.copyAt off) (off + r) := by
  have hw := hL.wf
  refine ⟨hL.wf.copyAt off, ?_, ?_, ?_, root_copyAt hL.wf off hL.root⟩
  · obtain ⟨depth, hd⟩ := hL.graded
    refine ⟨fun k => depth (k - off), ?_⟩
    intro e he
    obtain ⟨e', he', rfl⟩ := (mem_copyAt_edges hw).1 he
    simp only [shiftEdge, Nat.add_sub_cancel_left]
    exact hd e' he'
  · intro k d hk
    obtain ⟨n, rfl, hn⟩ := exists_of_kind?_copyAt hk
    have := succ_copyAt_perm hw off n
    rw [hL.leaves n d hn] at this
    exact this.eq_nil
  · intro k hk e he
    obtain ⟨n, rfl, hn⟩ := exists_of_kind?_copyAt hk
    obtain ⟨e', he', rfl⟩ := List.mem_map.1 ((outEdges_copyAt_perm hw off n).mem_iff.1 he)
    exact hL.weighted n hn e' he'

theorem CircuitValue.copyAt {g : Graph D} (hw : g.WF) {ℓ : D → ℝ} {f : Node → ℝ} (hf : CircuitValue g ℓ f) (off : Nat) :
    CircuitValue (g.copyAt off) ℓ (fun k => f (k - off)) := by
  have hs : ∀ n, f (off + n - off) = f n := fun n => by rw [Nat.add_sub_cancel_left]
  refine ⟨?_, ?_, ?_⟩
  · intro k d hk
    obtain ⟨n, rfl, hn⟩ := exists_of_kind?_copyAt hk
    rw [hs]; exact hf.leaf n d hn
  · intro k hk
    obtain ⟨n, rfl, hn⟩ := exists_of_kind?_copyAt hk
    rw [hs, hf.sum n hn, ((outEdges_copyAt_perm hw off n).map _).sum_eq, List.map_map]
    congr 1
    apply List.map_congr_left
    intro e _
    show _ = linWeight (shiftEdge off e) * f (off + e.dst - off)
    rw [hs]; rfl
  · intro k hk
    obtain ⟨n, rfl, hn⟩ := exists_of_kind?_copyAt hk
    rw [hs, hf.prod n hn, ((outEdges_copyAt_perm hw off n).map _).prod_eq, List.map_map]
    congr 1
    apply List.map_congr_left
    intro e _
    show _ = f (off + e.dst - off)
    rw [hs]

theorem mem_succ_copyAt {g : Graph D} (hw : g.WF) {off : Nat} {n k : Node} :
    k ∈ (g.copyAt off).succ (off + n) ↔ ∃ c ∈ g.succ n, k = off + c := by
  rw [(succ_copyAt_perm hw off n).mem_iff, List.mem_map]
  exact ⟨fun ⟨a, h1, h2⟩ => ⟨a, h1, h2.symm⟩, fun ⟨a, h1, h2⟩ => ⟨a, h1, h2.symm⟩⟩

theorem Scoped.copyAt {g : Circuit} (hw : g.WF) {sc : Node → Finset Var} (hs : Scoped g sc) (off : Nat) :
    Scoped (g.copyAt off) (fun k => sc (k - off)) := by
  have he : ∀ n, sc (off + n - off) = sc n := fun n => by rw [Nat.add_sub_cancel_left]
  refine ⟨?_, ?_, ?_, ?_⟩
  · intro k d hk
    obtain ⟨n, rfl, hn⟩ := exists_of_kind?_copyAt hk
    rw [he]; exact hs.leaf n d hn
  · intro k hk h0
    obtain ⟨n, rfl, hn⟩ := exists_of_kind?_copyAt hk
    have := succ_copyAt_perm hw off n
    rw [h0] at this
    exact hs.sumNe n hn (by simpa using this.nil_eq.symm)
  · intro k hk c hc
    obtain ⟨n, rfl, hn⟩ := exists_of_kind?_copyAt hk
    obtain ⟨c', hc', rfl⟩ := (mem_succ_copyAt hw).1 hc
    rw [he, he]; exact hs.sum n hn c' hc'
  · intro k hk v
    obtain ⟨n, rfl, hn⟩ := exists_of_kind?_copyAt hk
    rw [he, hs.prod n hn v]
    constructor
    · rintro ⟨c, hc, hv⟩
      exact ⟨off + c, (mem_succ_copyAt hw).2 ⟨c, hc, rfl⟩, by rw [he]; exact hv⟩
    · rintro ⟨c, hc, hv⟩
      obtain ⟨c', hc', rfl⟩ := (mem_succ_copyAt hw).1 hc
      exact ⟨c', hc', by rwa [he] at hv⟩

theorem Decomposable.copyAt {g : Circuit} (hw : g.WF) {sc : Node → Finset Var} (hd : Decomposable g sc) (off : Nat) :
    Decomposable (g.copyAt off) (fun k => sc (k - off)) := by
  intro k hk
  obtain ⟨n, rfl, hn⟩ := exists_of_kind?_copyAt hk
  refine (List.Perm.pairwise_iff (fun {a b} h => h.symm) (succ_copyAt_perm hw off n)).2 ?_
  rw [List.pairwise_map]
  refine (hd n hn).imp ?_
  intro a b h
  simp only [Nat.add_sub_cancel_left]
  exact h

theorem TreeShaped.copyAt {g : Graph D} (hw : g.WF) (ht : TreeShaped g) (off : Nat) : TreeShaped (g.copyAt off) := by
  intro e he e' he' h
  obtain ⟨a, ha, rfl⟩ := (mem_copyAt_edges hw).1 he
  obtain ⟨b, hb, rfl⟩ := (mem_copyAt_edges hw).1 he'
  have : a.src = b.src := ht a ha b hb (Nat.add_left_cancel h)
  simp [shiftEdge, this]

theorem NormalizedSums.copyAt {g : Graph D} (hw : g.WF) (hn : NormalizedSums g) (off : Nat) : NormalizedSums (g.copyAt off) := by
  intro k hk
  obtain ⟨n, rfl, h⟩ := exists_of_kind?_copyAt hk
  rw [((outEdges_copyAt_perm hw off n).map _).sum_eq, List.map_map]
  exact hn n h

theorem PositiveWeights.copyAt {g : Graph D} (hw : g.WF) (hp : PositiveWeights g) (off : Nat) : PositiveWeights (g.copyAt off) := by
  intro k hk e he
  obtain ⟨n, rfl, h⟩ := exists_of_kind?_copyAt hk
  obtain ⟨e', he', rfl⟩ := List.mem_map.1 ((outEdges_copyAt_perm hw off n).mem_iff.1 he)
  exact hp n h e' he'

/-! ### `copy` -/

theorem kind?_copy (g : Graph D) (n : Node) : g.copy.kind? n = g.kind? n := by
  have := kind?_copyAt g 0 n
  rwa [Nat.zero_add] at this

theorem Layered.copy {g : Graph D} {r : Node} (hL : Layered g r) : Layered g.copy r := by
  have := Layered.copyAt hL 0
  rwa [Nat.zero_add] at this

theorem CircuitValue.copy {g : Graph D} (hw : g.WF) {ℓ : D → ℝ} {f : Node → ℝ} (hf : CircuitValue g ℓ f) : CircuitValue g.copy ℓ f :=
  CircuitValue.copyAt hw hf 0

theorem Scoped.copy {g : Circuit} (hw : g.WF) {sc : Node → Finset Var} (hs : Scoped g sc) : Scoped g.copy sc := Scoped.copyAt hw hs 0

theorem Decomposable.copy {g : Circuit} (hw : g.WF) {sc : Node → Finset Var} (hd : Decomposable g sc) : Decomposable g.copy sc :=
  Decomposable.copyAt hw hd 0

theorem TreeShaped.copy {g : Graph D} (hw : g.WF) (ht : TreeShaped g) : TreeShaped g.copy := TreeShaped.copyAt hw ht 0

theorem NormalizedSums.copy {g : Graph D} (hw : g.WF) (hn : NormalizedSums g) : NormalizedSums g.copy := NormalizedSums.copyAt hw hn 0

theorem PositiveWeights.copy {g : Graph D} (hw : g.WF) (hp : PositiveWeights g) : PositiveWeights g.copy := PositiveWeights.copyAt hw hp 0

end Graph
end PM
