import Verif.Circuit.DetSum
import Verif.Circuit.CondPass
import Verif.Circuit.CondTree
import Verif.Circuit.SupportLemmas
import Verif.Circuit.ProbLemmas
import Verif.Dist.DictLemmas

/-! Helper lemmas: replacing a leaf by a sum unit. -/

namespace PM.Graph

open Spec Classical

/-- The edges of the new sum unit. -/
def sumEdges (s : Node) (ps : List (Leaf × LogP)) : List Edge := ps.zipIdx.map fun q => ⟨s, s + 1 + q.2, some q.1.2⟩

theorem mem_sumEdges {s : Node} {ps : List (Leaf × LogP)} {e : Edge} (h : e ∈ sumEdges s ps) : e.src = s ∧ s < e.dst := by
  obtain ⟨q, _, rfl⟩ := List.mem_map.1 h
  exact ⟨rfl, by simp only; nomega⟩

/-- The circuit after `replaceLeaf`. -/
structure Replaced (g : Circuit) (n : Node) (ps : List (Leaf × LogP)) (g' : Circuit) : Prop where
  wf : g'.WF
  ids : ∀ k, k ∈ g'.ids ↔ (k ∈ g.ids ∧ k ≠ n) ∨ k = g.fresh ∨ ∃ q ∈ ps.zipIdx, k = g.fresh + 1 + q.2
  kindOld : ∀ k ∈ g.ids, k ≠ n → g'.kind? k = g.kind? k
  kindSum : g'.kind? g.fresh = some .sum
  kindNew : ∀ q ∈ ps.zipIdx, g'.kind? (g.fresh + 1 + q.2) = some (.leaf q.1.1)
  outOld : ∀ k ∈ g.ids, k ≠ n → (g'.outEdges k).Perm
    ((g.outEdges k).map fun e => if e.dst == n then ⟨e.src, g.fresh, e.weight⟩ else e)
  outSum : g'.outEdges g.fresh = sumEdges g.fresh ps
  outNew : ∀ q ∈ ps.zipIdx, g'.outEdges (g.fresh + 1 + q.2) = []

theorem replaceLeaf_eq {g : Circuit} (hw : g.WF) {n : Node} (hn : n ∈ g.ids) (ps : List (Leaf × LogP)) :
    g.replaceLeaf n ps = (⟨g.nodes ++ newNodes g.fresh ps,
      g.edges ++ sumEdges g.fresh ps ++ (g.inEdges n).map fun e => ⟨e.src, g.fresh, e.weight⟩⟩ : Circuit).removeNode n := by
  have hs := lt_fresh hn
  unfold replaceLeaf connectIncoming
  simp only
  have hin : Graph.inEdges (⟨g.nodes ++ (g.fresh, .sum) :: ps.zipIdx.map fun q => (g.fresh + 1 + q.2, .leaf q.1.1),
      g.edges ++ ps.zipIdx.map fun q => ⟨g.fresh, g.fresh + 1 + q.2, some q.1.2⟩⟩ : Circuit) n = g.inEdges n := by
    simp only [inEdges, List.filter_append]
    have : (sumEdges g.fresh ps).filter (fun e => e.dst == n) = [] := by
      rw [List.filter_eq_nil_iff]
      intro e he
      have := mem_sumEdges he
      simp only [beq_iff_eq]; nomega
    rw [show (ps.zipIdx.map fun q => (⟨g.fresh, g.fresh + 1 + q.2, some q.1.2⟩ : Edge)) = sumEdges g.fresh ps from rfl, this,
      List.append_nil]
  rw [hin, foldl_addEdge_fresh]
  · rfl
  · intro e he hd
    exfalso
    rcases List.mem_append.1 he with he | he
    · have := lt_fresh (hw.dstMem e he); nomega
    · have := (mem_sumEdges he).2; nomega
  · exact hw.inEdges_src_nodup n

theorem replaced {g : Circuit} (hw : g.WF) {n : Node} {d : Leaf} (hkn : g.kind? n = some (.leaf d))
    (ps : List (Leaf × LogP)) : Replaced g n ps (g.replaceLeaf n ps) := by
  have hn := mem_ids_of_kind? hkn
  have hs := lt_fresh hn
  rw [replaceLeaf_eq hw hn ps]
  set s := g.fresh with hsdef
  set g1 : Circuit := ⟨g.nodes ++ newNodes s ps,
      g.edges ++ sumEdges s ps ++ (g.inEdges n).map fun e => ⟨e.src, s, e.weight⟩⟩ with hg1
  have hlt : ∀ k ∈ g.ids, k < s := fun k hk => lt_fresh hk
  have hnewids : ∀ k, k ∈ (newNodes s ps).map Prod.fst ↔ k = s ∨ ∃ q ∈ ps.zipIdx, k = s + 1 + q.2 := by
    intro k
    simp only [newNodes, List.map_cons, List.map_map, List.mem_cons, List.mem_map, Function.comp]
    exact or_congr Iff.rfl (exists_congr fun q => and_congr_right fun _ => eq_comm)
  have hids1 : ∀ k, k ∈ g1.ids ↔ k ∈ g.ids ∨ k = s ∨ ∃ q ∈ ps.zipIdx, k = s + 1 + q.2 := by
    intro k
    rw [← hnewids]
    simp only [hg1, ids, List.map_append, List.mem_append]
  have hnew : ∀ k, (k = s ∨ ∃ q ∈ ps.zipIdx, k = s + 1 + q.2) → s ≤ k := by
    rintro k (rfl | ⟨q, _, rfl⟩)
    · exact le_rfl
    · nomega
  have hwf1 : g1.WF := by
    refine ⟨?_, ?_, ?_, ?_⟩
    · simp only [hg1, ids, List.map_append]
      refine List.Nodup.append hw.nodup ?_ ?_
      · simp only [newNodes, List.map_cons, List.map_map, List.nodup_cons]
        refine ⟨?_, zipIdx_map_nodup ps s⟩
        intro h
        obtain ⟨q, _, hq⟩ := List.mem_map.1 h
        simp only [Function.comp] at hq
        nomega
      · intro k h1 h2
        have := hlt k h1
        have := hnew k ((hnewids k).1 h2)
        nomega
    · simp only [hg1, List.map_append]
      refine List.Nodup.append (List.Nodup.append hw.edgeNodup ?_ ?_) ?_ ?_
      · simp only [sumEdges, List.map_map]
        have : ((fun e : Edge => (e.src, e.dst)) ∘ fun q : (Leaf × LogP) × Nat =>
            (⟨s, s + 1 + q.2, some q.1.2⟩ : Edge)) = (fun k => (s, k)) ∘ fun q : (Leaf × LogP) × Nat => s + 1 + q.2 := rfl
        rw [this, ← List.map_map]
        exact (zipIdx_map_nodup ps s).map fun a b h => by simpa using h
      · intro p h1 h2
        obtain ⟨e, he, rfl⟩ := List.mem_map.1 h1
        obtain ⟨e', he', heq⟩ := List.mem_map.1 h2
        simp only [Prod.mk.injEq] at heq
        have := hlt _ (hw.srcMem e he)
        have := (mem_sumEdges he').1
        nomega
      · rw [List.map_map]
        have : ((fun e : Edge => (e.src, e.dst)) ∘ fun e : Edge => (⟨e.src, s, e.weight⟩ : Edge))
            = (fun k => (k, s)) ∘ Edge.src := rfl
        rw [this, ← List.map_map]
        exact (hw.inEdges_src_nodup n).map fun a b h => by simpa using h
      · intro p h1 h2
        obtain ⟨e', he', rfl⟩ := List.mem_map.1 h2
        obtain ⟨e0, he0, rfl⟩ := List.mem_map.1 he'
        rcases List.mem_append.1 h1 with h1 | h1
        · obtain ⟨e, he, heq⟩ := List.mem_map.1 h1
          simp only [Prod.mk.injEq] at heq
          have := hlt _ (hw.dstMem e he)
          nomega
        · obtain ⟨e, he, heq⟩ := List.mem_map.1 h1
          simp only [Prod.mk.injEq] at heq
          have := (mem_sumEdges he).2
          nomega
    · intro e he
      rw [hids1]
      rcases List.mem_append.1 he with he | he
      · rcases List.mem_append.1 he with he | he
        · exact .inl (hw.srcMem e he)
        · exact .inr (.inl (mem_sumEdges he).1)
      · obtain ⟨e0, he0, rfl⟩ := List.mem_map.1 he
        exact .inl (hw.srcMem e0 (List.mem_filter.1 he0).1)
    · intro e he
      rw [hids1]
      rcases List.mem_append.1 he with he | he
      · rcases List.mem_append.1 he with he | he
        · exact .inl (hw.dstMem e he)
        · obtain ⟨q, hq, rfl⟩ := List.mem_map.1 he
          exact .inr (.inr ⟨q, hq, rfl⟩)
      · obtain ⟨e0, he0, rfl⟩ := List.mem_map.1 he
        exact .inr (.inl rfl)
  have hwf2 : (g1.removeNode n).WF := by rw [removeNode_eq_induced]; exact hwf1.induced _
  refine ⟨hwf2, ?_, ?_, ?_, ?_, ?_, ?_, ?_⟩
  · intro k
    rw [removeNode_eq_induced, mem_ids_induced, hids1]
    have : ∀ k, (k = s ∨ ∃ q ∈ ps.zipIdx, k = s + 1 + q.2) → k ≠ n := by
      intro k h; have := hnew k h; nomega
    have := this k
    have e : (!(k == n)) = true ↔ k ≠ n := by simp
    simp only [e]
    constructor
    · rintro ⟨h1 | h1, h2⟩
      · exact .inl ⟨h1, h2⟩
      · exact .inr h1
    · rintro (h1 | h1)
      · exact ⟨.inl h1.1, h1.2⟩
      · exact ⟨.inr h1, this h1⟩
  · intro k hk hkn
    rw [kind?_removeNode, if_neg hkn]
    exact kind?_append_left hk
  · rw [kind?_removeNode, if_neg (by nomega)]
    exact kind?_of_mem_nodes hwf1 (p := (s, .sum)) (by simp [hg1, newNodes])
  · intro q hq
    rw [kind?_removeNode, if_neg (by nomega)]
    refine kind?_of_mem_nodes hwf1 (p := (s + 1 + q.2, .leaf q.1.1)) ?_
    simp only [hg1, newNodes, List.mem_append, List.mem_cons, List.mem_map]
    exact .inr (.inr ⟨q, hq, rfl⟩)
  · intro k hk hkn
    have hks : k ≠ s := by have := hlt k hk; nomega
    have e2 : (g1.removeNode n).outEdges k = (g.outEdges k).filter (fun e => !(e.dst == n)) ++
        ((g.outEdges k).filter (fun e => e.dst == n)).map fun e => ⟨e.src, s, e.weight⟩ := by
      simp only [removeNode, outEdges, hg1, List.filter_filter, List.filter_append]
      have h2 : (sumEdges s ps).filter (fun e => e.src == k && (!(e.src == n) && !(e.dst == n))) = [] := by
        rw [List.filter_eq_nil_iff]
        intro e he
        have := (mem_sumEdges he).1
        have : (e.src == k) = false := beq_eq_false_iff_ne.2 (by nomega)
        simp [this]
      rw [h2, List.append_nil]
      congr 1
      · apply List.filter_congr
        intro e _
        by_cases h : e.src = k
        · have : (e.src == n) = false := beq_eq_false_iff_ne.2 (by nomega)
          rw [this]; simp [Bool.and_comm]
        · rw [beq_eq_false_iff_ne.2 h]; simp
      · rw [List.filter_map, inEdges, List.filter_filter]
        congr 1
        apply List.filter_congr
        intro e _
        simp only [Function.comp]
        have hsn : (s == n) = false := beq_eq_false_iff_ne.2 (by nomega)
        rw [hsn]
        by_cases h : e.src = k
        · have : (k == n) = false := beq_eq_false_iff_ne.2 hkn
          simp [h, this]
        · rw [beq_eq_false_iff_ne.2 h]; simp
    rw [e2]
    exact perm_filter_map (fun e : Edge => e.dst == n) (fun e => ⟨e.src, s, e.weight⟩) (g.outEdges k)
  · simp only [removeNode, outEdges, hg1, List.filter_filter, List.filter_append]
    have h1 : g.edges.filter (fun e => e.src == s && (!(e.src == n) && !(e.dst == n))) = [] := by
      rw [List.filter_eq_nil_iff]
      intro e he
      have := hlt _ (hw.srcMem e he)
      have : (e.src == s) = false := beq_eq_false_iff_ne.2 (by nomega)
      simp [this]
    have h2 : (sumEdges s ps).filter (fun e => e.src == s && (!(e.src == n) && !(e.dst == n))) = sumEdges s ps := by
      rw [List.filter_eq_self]
      intro e he
      have := mem_sumEdges he
      have a1 : (e.src == s) = true := by simp [this.1]
      have a2 : (e.src == n) = false := beq_eq_false_iff_ne.2 (by nomega)
      have a3 : (e.dst == n) = false := beq_eq_false_iff_ne.2 (by nomega)
      simp [a1, a2, a3]
    have h3 : ((g.inEdges n).map fun e => (⟨e.src, s, e.weight⟩ : Edge)).filter
        (fun e => e.src == s && (!(e.src == n) && !(e.dst == n))) = [] := by
      rw [List.filter_eq_nil_iff]
      intro e he
      obtain ⟨e0, he0, rfl⟩ := List.mem_map.1 he
      have := hlt _ (hw.srcMem e0 (List.mem_filter.1 he0).1)
      have : (e0.src == s) = false := beq_eq_false_iff_ne.2 (by nomega)
      simp [this]
    rw [h1, h2, h3]; simp [hsdef]
  · intro q hq
    rw [outEdges, List.filter_eq_nil_iff]
    intro e he
    simp only [removeNode, List.mem_filter] at he
    have : e.src ≤ s := by
      rcases List.mem_append.1 he.1 with he | he
      · rcases List.mem_append.1 he with he | he
        · exact (hlt _ (hw.srcMem e he)).le
        · exact (mem_sumEdges he).1.le
      · obtain ⟨e0, he0, rfl⟩ := List.mem_map.1 he
        exact (hlt _ (hw.srcMem e0 (List.mem_filter.1 he0).1)).le
    simp only [beq_iff_eq]
    nomega

namespace Replaced

variable {g g' : Circuit} {n r : Node} {d : Leaf} {ps : List (Leaf × LogP)}

/-- The unit that takes the place of `k`. -/
def swap (g : Circuit) (n k : Node) : Node := if k = n then g.fresh else k

theorem cases_ids (h : Replaced g n ps g') {k : Node} (hk : k ∈ g'.ids) :
    (k ∈ g.ids ∧ k ≠ n ∧ g'.kind? k = g.kind? k) ∨ (k = g.fresh ∧ g'.kind? k = some .sum) ∨
      ∃ q ∈ ps.zipIdx, k = g.fresh + 1 + q.2 ∧ g'.kind? k = some (.leaf q.1.1) := by
  rcases (h.ids k).1 hk with ⟨h1, h2⟩ | rfl | ⟨q, hq, rfl⟩
  · exact .inl ⟨h1, h2, h.kindOld k h1 h2⟩
  · exact .inr (.inl ⟨rfl, h.kindSum⟩)
  · exact .inr (.inr ⟨q, hq, rfl, h.kindNew q hq⟩)

theorem mem_out (h : Replaced g n ps g') {k : Node} (hk : k ∈ g.ids) (hkn : k ≠ n) {e : Edge} :
    e ∈ g'.outEdges k ↔ ∃ e' ∈ g.outEdges k, e = ⟨e'.src, swap g n e'.dst, e'.weight⟩ := by
  rw [(h.outOld k hk hkn).mem_iff, List.mem_map]
  refine exists_congr fun e' => and_congr_right fun _ => ?_
  have : (if e'.dst == n then (⟨e'.src, g.fresh, e'.weight⟩ : Edge) else e') = ⟨e'.src, swap g n e'.dst, e'.weight⟩ := by
    unfold swap
    by_cases he : e'.dst = n <;> simp [he]
  rw [this, eq_comm]

/-- Every edge of the new circuit. -/
theorem mem_edges (h : Replaced g n ps g') (hl : g.LeafTerminal) (hw : g.WF) (hkn : g.kind? n = some (.leaf d)) {e : Edge} :
    e ∈ g'.edges ↔ (∃ e' ∈ g.edges, e = ⟨e'.src, swap g n e'.dst, e'.weight⟩) ∨ e ∈ sumEdges g.fresh ps := by
  constructor
  · intro he
    rcases (h.ids e.src).1 (h.wf.srcMem e he) with ⟨h1, h2⟩ | h1 | ⟨q, hq, h1⟩
    · obtain ⟨e', he', hee⟩ := (h.mem_out h1 h2).1 (mem_outEdges.2 ⟨he, rfl⟩)
      exact .inl ⟨e', (mem_outEdges.1 he').1, hee⟩
    · right; rw [← h.outSum]; exact mem_outEdges.2 ⟨he, h1⟩
    · have := h.outNew q hq
      rw [← h1] at this
      have hm : e ∈ g'.outEdges e.src := mem_outEdges.2 ⟨he, rfl⟩
      rw [this] at hm; simp at hm
  · rintro (⟨e', he', rfl⟩ | he)
    · have hsrc : e'.src ∈ g.ids := hw.srcMem e' he'
      have hne : e'.src ≠ n := by
        intro hc
        have := hl n d hkn
        have hm : e'.dst ∈ g.succ n := mem_succ.2 ⟨e', he', hc, rfl⟩
        rw [this] at hm; simp at hm
      exact (mem_outEdges.1 ((h.mem_out hsrc hne).2 ⟨e', mem_outEdges.2 ⟨he', rfl⟩, rfl⟩)).1
    · rw [← h.outSum] at he; exact (mem_outEdges.1 he).1

theorem swap_of_ne {k : Node} (h : k ≠ n) : swap g n k = k := if_neg h
theorem swap_self : swap g n n = g.fresh := if_pos rfl

theorem swap_le {k : Node} (hk : k ∈ g.ids) : swap g n k ≤ g.fresh := by
  unfold swap
  split
  · exact le_rfl
  · exact (lt_fresh hk).le

theorem swap_inj {a b : Node} (ha : a ∈ g.ids) (hb : b ∈ g.ids) (h : swap g n a = swap g n b) : a = b := by
  have := lt_fresh ha
  have := lt_fresh hb
  unfold swap at h
  split at h <;> split at h <;> nomega

theorem fresh_not_mem : g.fresh ∉ g.ids := fun h => by have := lt_fresh h; nomega
theorem new_not_mem (i : Nat) : g.fresh + 1 + i ∉ g.ids := fun h => by have := lt_fresh h; nomega

theorem layered (h : Replaced g n ps g') (hL : Layered g r) (hkn : g.kind? n = some (.leaf d)) :
    Layered g' (swap g n r) := by
  have hn := mem_ids_of_kind? hkn
  have hri := (root_mem hL.root).1
  obtain ⟨depth, hd⟩ := hL.graded
  refine ⟨h.wf, ?_, ?_, ?_, ?_⟩
  · refine ⟨fun k => if k ∈ g.ids then depth k else if k = g.fresh then depth n else depth n + 1, ?_⟩
    intro e he
    rcases (h.mem_edges hL.leaves hL.wf hkn).1 he with ⟨e', he', rfl⟩ | he
    · have hs := hL.wf.srcMem e' he'
      have ht := hL.wf.dstMem e' he'
      simp only [if_pos hs]
      rw [← hd e' he']
      by_cases hc : e'.dst = n
      · rw [hc, swap_self, if_neg fresh_not_mem, if_pos rfl]
      · rw [swap_of_ne hc, if_pos ht]
    · obtain ⟨q, _, rfl⟩ := List.mem_map.1 he
      simp only
      rw [if_neg (new_not_mem _), if_neg (by nomega), if_neg fresh_not_mem, if_pos trivial]
  · intro k d' hk
    rcases h.cases_ids (mem_ids_of_kind? hk) with ⟨h1, h2, h3⟩ | ⟨rfl, h3⟩ | ⟨q, hq, rfl, h3⟩
    · rw [h3] at hk
      have := hL.leaves k d' hk
      have ho : g.outEdges k = [] := by simpa [succ] using this
      have hp := h.outOld k h1 h2
      rw [ho, List.map_nil, List.perm_nil] at hp
      unfold succ; rw [hp]; rfl
    · rw [h3] at hk; cases hk
    · unfold succ; rw [h.outNew q hq]; rfl
  · intro k hk e he
    rcases h.cases_ids (mem_ids_of_kind? hk) with ⟨h1, h2, h3⟩ | ⟨rfl, h3⟩ | ⟨q, hq, rfl, h3⟩
    · rw [h3] at hk
      obtain ⟨e', he', rfl⟩ := (h.mem_out h1 h2).1 he
      exact hL.weighted k hk e' he'
    · rw [h.outSum] at he
      obtain ⟨q, _, rfl⟩ := List.mem_map.1 he
      rfl
    · rw [h3] at hk; cases hk
  · refine root_of h.wf ?_ ?_ ?_
    · rw [h.ids]
      by_cases hc : r = n
      · rw [hc, swap_self]; exact .inr (.inl rfl)
      · rw [swap_of_ne hc]; exact .inl ⟨hri, hc⟩
    · rw [inEdges, List.filter_eq_nil_iff]
      intro e he hdst
      rw [beq_iff_eq] at hdst
      rcases (h.mem_edges hL.leaves hL.wf hkn).1 he with ⟨e', he', rfl⟩ | he
      · have := swap_inj (hL.wf.dstMem e' he') hri hdst
        have hm : e' ∈ g.inEdges r := mem_inEdges.2 ⟨he', this⟩
        rw [(root_mem hL.root).2] at hm; simp at hm
      · have := (mem_sumEdges he).2
        have := swap_le (n := n) hri
        nomega
    · intro k hk h0
      have hno : ∀ e ∈ g'.edges, e.dst ≠ k := by
        intro e he hc
        have hm : e ∈ g'.inEdges k := mem_inEdges.2 ⟨he, hc⟩
        rw [h0] at hm; simp at hm
      rcases (h.ids k).1 hk with ⟨h1, h2⟩ | rfl | ⟨q, hq, rfl⟩
      · have : k = r := by
          apply root_unique hL.root h1
          rw [inEdges, List.filter_eq_nil_iff]
          intro e he hc
          rw [beq_iff_eq] at hc
          refine hno ⟨e.src, swap g n e.dst, e.weight⟩ ((h.mem_edges hL.leaves hL.wf hkn).2 (.inl ⟨e, he, rfl⟩)) ?_
          simp only [hc, swap_of_ne h2]
        rw [← this, swap_of_ne h2]
      · have : n = r := by
          apply root_unique hL.root hn
          rw [inEdges, List.filter_eq_nil_iff]
          intro e he hc
          rw [beq_iff_eq] at hc
          refine hno ⟨e.src, swap g n e.dst, e.weight⟩ ((h.mem_edges hL.leaves hL.wf hkn).2 (.inl ⟨e, he, rfl⟩)) ?_
          simp only [hc, swap_self]
        rw [← this, swap_self]
      · exfalso
        refine hno ⟨g.fresh, g.fresh + 1 + q.2, some q.1.2⟩ ((h.mem_edges hL.leaves hL.wf hkn).2 (.inr ?_)) rfl
        exact List.mem_map.2 ⟨q, hq, rfl⟩

theorem mem_succ_old (h : Replaced g n ps g') {k : Node} (hk : k ∈ g.ids) (hkn : k ≠ n) {c : Node} :
    c ∈ g'.succ k ↔ ∃ c' ∈ g.succ k, c = swap g n c' := by
  constructor
  · intro hc
    obtain ⟨e, he, rfl⟩ := List.mem_map.1 (show c ∈ (g'.outEdges k).map Edge.dst from hc)
    obtain ⟨e', he', rfl⟩ := (h.mem_out hk hkn).1 he
    exact ⟨e'.dst, List.mem_map.2 ⟨e', he', rfl⟩, rfl⟩
  · rintro ⟨c', hc', rfl⟩
    obtain ⟨e', he', rfl⟩ := List.mem_map.1 (show c' ∈ (g.outEdges k).map Edge.dst from hc')
    exact List.mem_map.2 ⟨_, (h.mem_out hk hkn).2 ⟨e', he', rfl⟩, rfl⟩

/-- A scope of the old circuit, extended to the new units. -/
noncomputable def scope (g : Circuit) (sc : Node → Finset Var) (d : Leaf) (k : Node) : Finset Var :=
  if k ∈ g.ids then sc k else {d.var}

theorem scope_swap {sc : Node → Finset Var} (hs : Scoped g sc) (hkn : g.kind? n = some (.leaf d)) {c : Node} (hc : c ∈ g.ids) :
    scope g sc d (swap g n c) = sc c := by
  by_cases h : c = n
  · rw [h, swap_self, scope, if_neg fresh_not_mem, hs.leaf n d hkn]
  · rw [swap_of_ne h, scope, if_pos hc]

theorem scope_fresh {sc : Node → Finset Var} : scope g sc d g.fresh = {d.var} := if_neg fresh_not_mem
theorem scope_new {sc : Node → Finset Var} (i : Nat) : scope g sc d (g.fresh + 1 + i) = {d.var} := if_neg (new_not_mem i)

theorem mem_succ_sum (h : Replaced g n ps g') {c : Node} : c ∈ g'.succ g.fresh ↔ ∃ q ∈ ps.zipIdx, c = g.fresh + 1 + q.2 := by
  unfold succ
  rw [h.outSum, sumEdges, List.map_map, List.mem_map]
  exact exists_congr fun q => and_congr_right fun _ => eq_comm

theorem isScoped (h : Replaced g n ps g') (hw : g.WF) {sc : Node → Finset Var} (hs : Scoped g sc)
    (hkn : g.kind? n = some (.leaf d)) (hps : ps ≠ []) (hv : ∀ q ∈ ps, q.1.var = d.var) : Scoped g' (scope g sc d) := by
  refine ⟨?_, ?_, ?_, ?_⟩
  · intro k d' hk
    rcases h.cases_ids (mem_ids_of_kind? hk) with ⟨h1, h2, h3⟩ | ⟨rfl, h3⟩ | ⟨q, hq, rfl, h3⟩
    · rw [h3] at hk
      rw [scope, if_pos h1, hs.leaf k d' hk]
    · rw [h3] at hk; cases hk
    · rw [h3] at hk
      injection hk with hk
      injection hk with hk
      rw [scope_new, ← hk, hv q.1 (List.fst_mem_of_mem_zipIdx hq)]
  · intro k hk
    rcases h.cases_ids (mem_ids_of_kind? hk) with ⟨h1, h2, h3⟩ | ⟨rfl, h3⟩ | ⟨q, hq, rfl, h3⟩
    · rw [h3] at hk
      have := hs.sumNe k hk
      obtain ⟨c, hc⟩ := List.exists_mem_of_ne_nil _ this
      exact List.ne_nil_of_mem ((h.mem_succ_old h1 h2).2 ⟨c, hc, rfl⟩)
    · obtain ⟨q, qs, rfl⟩ := List.exists_cons_of_ne_nil hps
      exact List.ne_nil_of_mem (h.mem_succ_sum.2 ⟨(q, 0), by simp [List.zipIdx_cons], rfl⟩)
    · rw [h3] at hk; cases hk
  · intro k hk c hc
    rcases h.cases_ids (mem_ids_of_kind? hk) with ⟨h1, h2, h3⟩ | ⟨rfl, h3⟩ | ⟨q, hq, rfl, h3⟩
    · rw [h3] at hk
      obtain ⟨c', hc', rfl⟩ := (h.mem_succ_old h1 h2).1 hc
      rw [scope_swap hs hkn (succ_mem_ids hw hc'), scope, if_pos h1, hs.sum k hk c' hc']
    · obtain ⟨q, hq, rfl⟩ := h.mem_succ_sum.1 hc
      rw [scope_new, scope_fresh]
    · rw [h3] at hk; cases hk
  · intro k hk v
    rcases h.cases_ids (mem_ids_of_kind? hk) with ⟨h1, h2, h3⟩ | ⟨rfl, h3⟩ | ⟨q, hq, rfl, h3⟩
    · rw [h3] at hk
      rw [scope, if_pos h1, hs.prod k hk]
      constructor
      · rintro ⟨c, hc, hm⟩
        exact ⟨_, (h.mem_succ_old h1 h2).2 ⟨c, hc, rfl⟩, by rw [scope_swap hs hkn (succ_mem_ids hw hc)]; exact hm⟩
      · rintro ⟨c', hc', hm⟩
        obtain ⟨c, hc, rfl⟩ := (h.mem_succ_old h1 h2).1 hc'
        rw [scope_swap hs hkn (succ_mem_ids hw hc)] at hm
        exact ⟨c, hc, hm⟩
    · rw [h3] at hk; cases hk
    · rw [h3] at hk; cases hk

/-- Anything that holds of the leaves of the old circuit and of the new leaves holds of the leaves of the new circuit. -/
theorem leaves_all (h : Replaced g n ps g') {P : Leaf → Prop} (h1 : ∀ k d', g.kind? k = some (.leaf d') → P d')
    (h2 : ∀ q ∈ ps, P q.1) : ∀ k d', g'.kind? k = some (.leaf d') → P d' := by
  intro k d' hk
  rcases h.cases_ids (mem_ids_of_kind? hk) with ⟨_, _, h3⟩ | ⟨rfl, h3⟩ | ⟨q, hq, rfl, h3⟩
  · exact h1 k d' (by rw [← h3, hk])
  · rw [h3] at hk; cases hk
  · rw [h3] at hk
    injection hk with hk
    injection hk with hk
    rw [← hk]
    exact h2 _ (List.fst_mem_of_mem_zipIdx hq)

/-- The values of the old units, extended to the new ones. -/
noncomputable def value (g g' : Circuit) (n : Node) (ℓ : Leaf → ℝ) (f : Node → ℝ) (k : Node) : ℝ :=
  if k ∈ g.ids then f k else if k = g.fresh then f n else match g'.kind? k with
    | some (.leaf d) => ℓ d
    | _ => 0

theorem value_swap {ℓ : Leaf → ℝ} {f : Node → ℝ} {c : Node} (hc : c ∈ g.ids) :
    value g g' n ℓ f (swap g n c) = f c := by
  by_cases h : c = n
  · rw [h, swap_self, value, if_neg fresh_not_mem, if_pos rfl]
  · rw [swap_of_ne h, value, if_pos hc]

theorem value_new (h : Replaced g n ps g') {ℓ : Leaf → ℝ} {f : Node → ℝ} {q : (Leaf × LogP) × Nat} (hq : q ∈ ps.zipIdx) :
    value g g' n ℓ f (g.fresh + 1 + q.2) = ℓ q.1.1 := by
  rw [value, if_neg (new_not_mem _), if_neg (by nomega), h.kindNew q hq]

theorem circuitValue (h : Replaced g n ps g') (hw : g.WF) (hkn : g.kind? n = some (.leaf d)) {ℓ : Leaf → ℝ} {f : Node → ℝ}
    (hf : CircuitValue g ℓ f) (hsum : ℓ d = (ps.map fun q => q.2.exp * ℓ q.1).sum) :
    CircuitValue g' ℓ (value g g' n ℓ f) := by
  have hout : ∀ k ∈ g.ids, k ≠ n → ∀ φ : Edge → ℝ → ℝ, (∀ e e', e.weight = e'.weight → φ e = φ e') →
      ((g'.outEdges k).map fun e => φ e (value g g' n ℓ f e.dst)).Perm ((g.outEdges k).map fun e => φ e (f e.dst)) := by
    intro k hk hkn' φ hφ
    refine ((h.outOld k hk hkn').map _).trans ?_
    rw [List.map_map]
    apply List.Perm.of_eq
    apply List.map_congr_left
    intro e he
    have hm := hw.dstMem e (mem_outEdges.1 he).1
    simp only [Function.comp]
    have e1 : (if e.dst == n then (⟨e.src, g.fresh, e.weight⟩ : Edge) else e) = ⟨e.src, swap g n e.dst, e.weight⟩ := by
      unfold swap
      by_cases he : e.dst = n <;> simp [he]
    rw [e1]
    simp only [value_swap hm]
    rw [hφ ⟨e.src, swap g n e.dst, e.weight⟩ e rfl]
  refine ⟨?_, ?_, ?_⟩
  · intro k d' hk
    rcases h.cases_ids (mem_ids_of_kind? hk) with ⟨h1, h2, h3⟩ | ⟨rfl, h3⟩ | ⟨q, hq, rfl, h3⟩
    · rw [value, if_pos h1, hf.leaf k d' (by rw [← h3, hk])]
    · rw [h3] at hk; cases hk
    · rw [h3] at hk
      injection hk with hk
      injection hk with hk
      rw [h.value_new hq, hk]
  · intro k hk
    rcases h.cases_ids (mem_ids_of_kind? hk) with ⟨h1, h2, h3⟩ | ⟨rfl, h3⟩ | ⟨q, hq, rfl, h3⟩
    · rw [value, if_pos h1, hf.sum k (by rw [← h3, hk])]
      refine (hout k h1 h2 (fun e v => linWeight e * v) ?_).sum_eq.symm
      intro e e' hee
      simp only [linWeight, hee]
    · rw [value, if_neg fresh_not_mem, if_pos rfl, h.outSum, hf.leaf n d hkn, hsum, sumEdges, List.map_map]
      have : ((fun e : Edge => linWeight e * value g g' n ℓ f e.dst) ∘ fun q : (Leaf × LogP) × Nat =>
          (⟨g.fresh, g.fresh + 1 + q.2, some q.1.2⟩ : Edge)) = fun q => q.1.2.exp * value g g' n ℓ f (g.fresh + 1 + q.2) := rfl
      rw [this, List.map_congr_left (g := fun q : (Leaf × LogP) × Nat => q.1.2.exp * ℓ q.1.1)
        (fun q hq => by rw [h.value_new hq])]
      congr 1
      conv_lhs => rw [← List.zipIdx_map_fst 0 ps, List.map_map]
      rfl
    · rw [h3] at hk; cases hk
  · intro k hk
    rcases h.cases_ids (mem_ids_of_kind? hk) with ⟨h1, h2, h3⟩ | ⟨rfl, h3⟩ | ⟨q, hq, rfl, h3⟩
    · rw [value, if_pos h1, hf.prod k (by rw [← h3, hk])]
      exact (hout k h1 h2 (fun _ v => v) (fun _ _ _ => rfl)).prod_eq.symm
    · rw [h3] at hk; cases hk
    · rw [h3] at hk; cases hk

theorem productsNonempty (h : Replaced g n ps g') (hp : ProductsNonempty g) : ProductsNonempty g' := by
  intro k hk
  rcases h.cases_ids (mem_ids_of_kind? hk) with ⟨h1, h2, h3⟩ | ⟨rfl, h3⟩ | ⟨q, hq, rfl, h3⟩
  · rw [h3] at hk
    obtain ⟨c, hc⟩ := List.exists_mem_of_ne_nil _ (hp k hk)
    exact List.ne_nil_of_mem ((h.mem_succ_old h1 h2).2 ⟨c, hc, rfl⟩)
  · rw [h3] at hk; cases hk
  · rw [h3] at hk; cases hk

theorem succ_perm (h : Replaced g n ps g') {k : Node} (hk : k ∈ g.ids) (hkn : k ≠ n) :
    (g'.succ k).Perm ((g.succ k).map (swap g n)) := by
  unfold succ
  refine ((h.outOld k hk hkn).map _).trans ?_
  rw [List.map_map, List.map_map]
  apply List.Perm.of_eq
  apply List.map_congr_left
  intro e _
  simp only [Function.comp, swap]
  by_cases he : e.dst = n <;> simp [he]

theorem decomposable (h : Replaced g n ps g') (hw : g.WF) {sc : Node → Finset Var} (hs : Scoped g sc) (hd : Decomposable g sc)
    (hkn : g.kind? n = some (.leaf d)) : Decomposable g' (scope g sc d) := by
  intro k hk
  rcases h.cases_ids (mem_ids_of_kind? hk) with ⟨h1, h2, h3⟩ | ⟨rfl, h3⟩ | ⟨q, hq, rfl, h3⟩
  · rw [h3] at hk
    refine ((h.succ_perm h1 h2).pairwise_iff (fun {a b} hab => hab.symm)).2 ?_
    rw [List.pairwise_map]
    refine (List.Pairwise.and_mem.1 (hd k hk)).imp ?_
    rintro a b ⟨ha, hb, hab⟩
    rw [scope_swap hs hkn (succ_mem_ids hw ha), scope_swap hs hkn (succ_mem_ids hw hb)]
    exact hab
  · rw [h3] at hk; cases hk
  · rw [h3] at hk; cases hk

/-- The sets of possible points of the old units, extended to the new ones. -/
def points (g g' : Circuit) (n : Node) (S : Node → Set (Var → ℝ)) (k : Node) : Set (Var → ℝ) :=
  {x | if k ∈ g.ids then x ∈ S k else if k = g.fresh then x ∈ S n else match g'.kind? k with
    | some (.leaf d) => 0 < leafDensity d (x d.var)
    | _ => False}

theorem points_old {S : Node → Set (Var → ℝ)} {k : Node} (hk : k ∈ g.ids) : points g g' n S k = S k := by
  ext x; simp only [points, Set.mem_ofPred_eq, if_pos hk]

theorem points_fresh {S : Node → Set (Var → ℝ)} : points g g' n S g.fresh = S n := by
  ext x; simp only [points, Set.mem_ofPred_eq, if_neg fresh_not_mem, if_true]

theorem points_swap {S : Node → Set (Var → ℝ)} {c : Node} (hc : c ∈ g.ids) : points g g' n S (swap g n c) = S c := by
  by_cases h : c = n
  · rw [h, swap_self, points_fresh]
  · rw [swap_of_ne h, points_old hc]

theorem points_new (h : Replaced g n ps g') {S : Node → Set (Var → ℝ)} {q : (Leaf × LogP) × Nat} (hq : q ∈ ps.zipIdx)
    {x : Var → ℝ} : x ∈ points g g' n S (g.fresh + 1 + q.2) ↔ 0 < leafDensity q.1.1 (x q.1.1.var) := by
  simp only [points, Set.mem_ofPred_eq]
  rw [if_neg (new_not_mem _), if_neg (by nomega), h.kindNew q hq]

theorem possiblePoints (h : Replaced g n ps g') (hw : g.WF) (hkn : g.kind? n = some (.leaf d)) {S : Node → Set (Var → ℝ)}
    (hS : PossiblePoints g S)
    (hsum : ∀ x : Var → ℝ, 0 < leafDensity d (x d.var) ↔ ∃ q ∈ ps, 0 < leafDensity q.1 (x q.1.var)) :
    PossiblePoints g' (points g g' n S) := by
  refine ⟨?_, ?_, ?_⟩
  · intro k d' hk x
    rcases h.cases_ids (mem_ids_of_kind? hk) with ⟨h1, h2, h3⟩ | ⟨rfl, h3⟩ | ⟨q, hq, rfl, h3⟩
    · rw [points_old h1, hS.leaf k d' (by rw [← h3, hk])]
    · rw [h3] at hk; cases hk
    · rw [h3] at hk
      injection hk with hk
      injection hk with hk
      rw [h.points_new hq, hk]
  · intro k hk x
    rcases h.cases_ids (mem_ids_of_kind? hk) with ⟨h1, h2, h3⟩ | ⟨rfl, h3⟩ | ⟨q, hq, rfl, h3⟩
    · rw [points_old h1, hS.sum k (by rw [← h3, hk])]
      constructor
      · rintro ⟨c, hc, hx⟩
        exact ⟨_, (h.mem_succ_old h1 h2).2 ⟨c, hc, rfl⟩, by rw [points_swap (succ_mem_ids hw hc)]; exact hx⟩
      · rintro ⟨c', hc', hx⟩
        obtain ⟨c, hc, rfl⟩ := (h.mem_succ_old h1 h2).1 hc'
        rw [points_swap (succ_mem_ids hw hc)] at hx
        exact ⟨c, hc, hx⟩
    · rw [points_fresh, hS.leaf n d hkn, hsum]
      constructor
      · rintro ⟨p, hp, hx⟩
        obtain ⟨q, hq, rfl⟩ : ∃ q ∈ ps.zipIdx, q.1 = p := by
          rw [← List.zipIdx_map_fst 0 ps] at hp
          exact List.mem_map.1 hp
        exact ⟨_, h.mem_succ_sum.2 ⟨q, hq, rfl⟩, (h.points_new hq).2 hx⟩
      · rintro ⟨c, hc, hx⟩
        obtain ⟨q, hq, rfl⟩ := h.mem_succ_sum.1 hc
        exact ⟨q.1, List.fst_mem_of_mem_zipIdx hq, (h.points_new hq).1 hx⟩
    · rw [h3] at hk; cases hk
  · intro k hk x
    rcases h.cases_ids (mem_ids_of_kind? hk) with ⟨h1, h2, h3⟩ | ⟨rfl, h3⟩ | ⟨q, hq, rfl, h3⟩
    · rw [points_old h1, hS.prod k (by rw [← h3, hk])]
      constructor
      · intro H c' hc'
        obtain ⟨c, hc, rfl⟩ := (h.mem_succ_old h1 h2).1 hc'
        rw [points_swap (succ_mem_ids hw hc)]
        exact H c hc
      · intro H c hc
        have := H _ ((h.mem_succ_old h1 h2).2 ⟨c, hc, rfl⟩)
        rwa [points_swap (succ_mem_ids hw hc)] at this
    · rw [h3] at hk; cases hk
    · rw [h3] at hk; cases hk

end Replaced

/-! ### The one-hot leaves -/

theorem density_oneHot (k : ℤ) (x : ℝ) (v : Var) :
    leafDensity (.symbolic v [(k, 1)]) x = if (k : ℝ) = x then 1 else 0 := by
  simp only [leafDensity]
  by_cases h : (k : ℝ) = x <;> simp [h]

theorem density_oneHot' (k : ℤ) (x : ℝ) (v : Var) :
    leafDensity (.integer v [(k, 1)]) x = if (k : ℝ) = x then 1 else 0 := by
  simp only [leafDensity]
  by_cases h : (k : ℝ) = x <;> simp [h]

theorem sum_filter_key (probs : List (ℤ × ℝ)) (hp : ∀ kp ∈ probs, 0 ≤ kp.2) (x : ℝ) :
    ((probs.filter fun kp => (kp.1 : ℝ) = x).map Prod.snd).sum =
      (probs.map fun kp => (LogP.log kp.2).exp * if (kp.1 : ℝ) = x then 1 else 0).sum := by
  induction probs with
  | nil => simp
  | cons kp probs ih =>
    have ih := ih fun q hq => hp q (by simp [hq])
    have h0 := LogP.exp_log (hp kp (by simp))
    by_cases h : (kp.1 : ℝ) = x <;> simp [h, ih, h0]

/-- What the proofs use of the dictionary entries of a discrete leaf. -/
structure Split (d : Leaf) (ps : List (Leaf × LogP)) : Prop where
  var : ∀ q ∈ ps, q.1.var = d.var
  valid : ∀ q ∈ ps, q.1.Valid
  sum : ∀ x, leafDensity d x = (ps.map fun q => q.2.exp * leafDensity q.1 x).sum
  disjoint : ps.Pairwise fun p q => ∀ x, ¬ (0 < leafDensity p.1 x ∧ 0 < leafDensity q.1 x)
  symbolic : ∀ q ∈ ps, (∃ v probs, q.1 = .symbolic v probs) ↔ ∃ v probs, d = .symbolic v probs

theorem split_oneHots {d : Leaf} (hv : d.Valid) {ps : List (Leaf × LogP)} (h : d.oneHots = some ps) : Split d ps := by
  cases d with
  | symbolic v probs =>
    simp only [Leaf.oneHots, Option.some.injEq] at h
    subst h
    refine ⟨?_, ?_, ?_, ?_, ?_⟩
    · intro q hq
      obtain ⟨kp, _, rfl⟩ := List.mem_map.1 hq
      rfl
    · intro q hq
      obtain ⟨kp, _, rfl⟩ := List.mem_map.1 hq
      exact ⟨by simp, by simp⟩
    · intro x
      simp only [List.map_map, Function.comp_def, density_oneHot]
      exact sum_filter_key probs hv.1 x
    · rw [List.pairwise_map]
      refine (List.pairwise_map.1 hv.2).imp ?_
      intro a b hab x hx
      simp only [density_oneHot] at hx
      by_cases h1 : (a.1 : ℝ) = x <;> by_cases h2 : (b.1 : ℝ) = x <;> simp [h1, h2] at hx
      exact hab (by exact_mod_cast h1.trans h2.symm)
    · intro q hq
      obtain ⟨kp, _, rfl⟩ := List.mem_map.1 hq
      simp
  | integer v probs =>
    simp only [Leaf.oneHots, Option.some.injEq] at h
    subst h
    refine ⟨?_, ?_, ?_, ?_, ?_⟩
    · intro q hq
      obtain ⟨kp, _, rfl⟩ := List.mem_map.1 hq
      rfl
    · intro q hq
      obtain ⟨kp, _, rfl⟩ := List.mem_map.1 hq
      exact ⟨by simp, by simp⟩
    · intro x
      simp only [List.map_map, Function.comp_def, density_oneHot']
      exact sum_filter_key probs hv.1 x
    · rw [List.pairwise_map]
      refine (List.pairwise_map.1 hv.2).imp ?_
      intro a b hab x hx
      simp only [density_oneHot'] at hx
      by_cases h1 : (a.1 : ℝ) = x <;> by_cases h2 : (b.1 : ℝ) = x <;> simp [h1, h2] at hx
      exact hab (by exact_mod_cast h1.trans h2.symm)
    · intro q hq
      obtain ⟨kp, _, rfl⟩ := List.mem_map.1 hq
      simp
  | _ => simp [Leaf.oneHots] at h

/-! ### `from_mixture` -/

/-- Every leaf is discrete, with a class that fits its variable. -/
def AllDiscrete (g : Circuit) : Prop :=
  ∀ n d, g.kind? n = some (.leaf d) → (∃ v probs, d = .symbolic v probs) ∨ ∃ v probs, d = .integer v probs

theorem valuesOf_eq {E : Event} {F : Finset ℤ} (h : ∀ x : ℝ, E.Mem (fun _ => x) ↔ ∃ k ∈ F, (k : ℝ) = x) (hne : F ≠ ∅) :
    valuesOf E = .ok (F.sort (· ≤ ·)) := by
  have hex : ∃ F : Finset ℤ, ∀ x : ℝ, E.Mem (fun _ => x) ↔ ∃ k ∈ F, (k : ℝ) = x := ⟨F, h⟩
  have he : hex.choose = F := by
    ext k
    have h1 := hex.choose_spec (k : ℝ)
    rw [h] at h1
    constructor
    · intro hk
      obtain ⟨k', hk', he⟩ := h1.2 ⟨k, hk, rfl⟩
      rwa [← Int.cast_injective (α := ℝ) he]
    · intro hk
      obtain ⟨k', hk', he⟩ := h1.1 ⟨k, hk, rfl⟩
      rwa [← Int.cast_injective (α := ℝ) he]
  unfold valuesOf
  rw [dif_pos hex, he, if_neg hne]

theorem lookup_eq_density (probs : List (ℤ × ℝ)) (hn : (probs.map Prod.fst).Nodup) (k : ℤ) :
    Leaf.lookup probs k = ((probs.filter fun kp => (kp.1 : ℝ) = (k : ℝ)).map Prod.snd).sum := by
  induction probs with
  | nil => simp [Leaf.lookup]
  | cons kp probs ih =>
    rw [List.map_cons, List.nodup_cons] at hn
    by_cases h : kp.1 = k
    · have h0 : probs.filter (fun q => decide ((q.1 : ℝ) = (k : ℝ))) = [] := by
        rw [List.filter_eq_nil_iff]
        intro q hq hc
        have : q.1 = k := by exact_mod_cast of_decide_eq_true hc
        exact hn.1 (List.mem_map.2 ⟨q, hq, this.trans h.symm⟩)
      rw [List.filter_cons_of_pos (by simp [h]), h0]
      simp [Leaf.lookup, h]
    · have h' : ¬ (kp.1 : ℝ) = (k : ℝ) := by exact_mod_cast h
      rw [List.filter_cons_of_neg (by simpa using h), ← ih hn.2]
      simp [Leaf.lookup, h]

theorem element_prob {d : Leaf} (hv : d.Valid) {sym : Var → Bool} {g : Circuit} {n : Node} (hk : g.kind? n = some (.leaf d))
    (ht : Typed g sym) (hd : AllDiscrete g) (k : ℤ) :
    d.probEvent [(d.var, elementSet (sym d.var) k)] = .ok (leafDensity d (k : ℝ)) := by
  have hget : SimpleEvent.get [(d.var, elementSet (sym d.var) k)] d.var = .ok (elementSet (sym d.var) k) := by
    simp [SimpleEvent.get]
  unfold Leaf.probEvent
  rw [hget]
  show d.prob (elementSet (sym d.var) k) = _
  have ht' := ht n d hk
  rcases hd n d hk with ⟨v, probs, rfl⟩ | ⟨v, probs, rfl⟩
  · rw [ht'.2 ⟨v, probs, rfl⟩]
    simp only [elementSet, if_true, Leaf.prob, leafDensity, List.map_cons, List.map_nil, List.sum_cons, List.sum_nil, add_zero]
    rw [lookup_eq_density probs hv.2]
  · have : sym (Leaf.integer v probs).var = false := by
      by_contra hc
      obtain ⟨_, _, h⟩ := ht'.1 (by simpa using hc)
      cases h
    rw [this]
    simp only [elementSet, Bool.false_eq_true, if_false, Leaf.prob, leafDensity]
    congr 1
    clear hget ht' hv hk this
    induction probs with
    | nil => simp
    | cons kp probs ih =>
      have hm : (VSet.interval [⟨((k : ℝ) : EReal), ((k : ℝ) : EReal), .closed, .closed⟩]).Mem (kp.1 : ℝ) ↔ (kp.1 : ℝ) = (k : ℝ) := by
        constructor
        · rintro ⟨i, hi, hx⟩
          rw [List.mem_singleton.1 hi] at hx
          exact le_antisymm (EReal.coe_le_coe_iff.1 hx.2) (EReal.coe_le_coe_iff.1 hx.1)
        · intro h
          exact ⟨_, List.mem_singleton.2 rfl, by rw [h]; exact le_rfl, by rw [h]; exact le_rfl⟩
      rw [List.map_cons, List.sum_cons, ih]
      by_cases h : (kp.1 : ℝ) = (k : ℝ)
      · rw [if_pos (hm.2 h), List.filter_cons_of_pos (by simpa using h)]; rfl
      · rw [if_neg (fun hc => h (hm.1 hc)), List.filter_cons_of_neg (by simpa using h), zero_add]

theorem mixtureLoop_eq {g : Circuit} {v : Var} {sym : Bool} {p : ℤ → ℝ}
    (hp : ∀ k m, (g.probabilityOfSimpleEvent m [(v, elementSet sym k)]).2 = .ok (p k)) :
    ∀ (ks : List ℤ) (d : Dict ℤ ℝ) (m : Mem ℝ), (d.map Prod.fst ++ ks.map fun k => if sym then k else pyHash k).Nodup →
      g.mixtureLoop v sym ks d m = .ok (d ++ ks.map fun k => (if sym then k else pyHash k, p k))
  | [], d, m, _ => by simp [mixtureLoop]
  | k :: ks, d, m, hn => by
    have h1 := hp k m
    unfold mixtureLoop
    generalize hq : g.probabilityOfSimpleEvent m [(v, elementSet sym k)] = q at h1
    obtain ⟨q1, q2⟩ := q
    dsimp only at h1
    subst h1
    dsimp only
    rw [List.map_cons] at hn
    have hnew : (if sym then k else pyHash k) ∉ d.map Prod.fst := by
      intro hc
      exact (List.nodup_append.1 hn).2.2 _ hc _ (by simp) rfl
    rw [Dict.set_new hnew, mixtureLoop_eq hp ks]
    · simp
    · simpa using hn

theorem scope_leaf_var {g : Circuit} {r : Node} (hL : Layered g r) {sc : Node → Finset Var} (hs : Scoped g sc) {v : Var}
    (hr : sc r = {v}) {n : Node} {d : Leaf} (hk : g.kind? n = some (.leaf d)) : d.var = v := by
  have hreach := reachable_of_root hL.wf hL.graded.acyclic hL.root n (mem_ids_of_kind? hk)
  have := scope_mono hL.wf hL.leaves hs (root_mem hL.root).1 hreach (show d.var ∈ sc n by simp [hs.leaf n d hk])
  rw [hr] at this
  simpa using this

/-- The possible values of a circuit over one variable with discrete leaves are finitely many keys of its leaves. -/
theorem possible_values {g : Circuit} {r : Node} (hL : Layered g r) {sc : Node → Finset Var} (hs : Scoped g sc) {v : Var}
    (hr : sc r = {v}) (hp : ProductsNonempty g) (hd : AllDiscrete g)
    {S : Node → Set (Var → ℝ)} (hS : PossiblePoints g S) :
    ∃ F : Finset ℤ, (∀ k ∈ F, ∃ n d probs, g.kind? n = some (.leaf d) ∧ (d = .symbolic v probs ∨ d = .integer v probs) ∧
        k ∈ probs.map Prod.fst) ∧
      ∀ x : Var → ℝ, x ∈ S r → ∃ k ∈ F, (k : ℝ) = x v := by
  have hkeys : ∀ n d, g.kind? n = some (.leaf d) → ∃ probs, (d = .symbolic v probs ∨ d = .integer v probs) := by
    intro n d hk
    have := scope_leaf_var hL hs hr hk
    rcases hd n d hk with ⟨v', probs, rfl⟩ | ⟨v', probs, rfl⟩
    · exact ⟨probs, .inl (by rw [← this]; rfl)⟩
    · exact ⟨probs, .inr (by rw [← this]; rfl)⟩
  let keys : Kind Leaf → Finset ℤ := fun k => match k with
    | .leaf (.symbolic _ probs) => (probs.map Prod.fst).toFinset
    | .leaf (.integer _ probs) => (probs.map Prod.fst).toFinset
    | _ => ∅
  refine ⟨(g.nodes.map fun p => keys p.2).foldr (· ∪ ·) ∅, ?_, ?_⟩
  · intro k hk
    have : ∃ p ∈ g.nodes, k ∈ keys p.2 := by
      generalize g.nodes = l at hk
      induction l with
      | nil => simp at hk
      | cons a l ih =>
        simp only [List.map_cons, List.foldr_cons, Finset.mem_union] at hk
        rcases hk with hk | hk
        · exact ⟨a, by simp, hk⟩
        · obtain ⟨p, hp, hk⟩ := ih hk
          exact ⟨p, by simp [hp], hk⟩
    obtain ⟨⟨n, kd⟩, hpn, hk⟩ := this
    have hkind := kind?_of_mem_nodes hL.wf hpn
    cases kd with
    | sum => simp [keys] at hk
    | prod => simp [keys] at hk
    | leaf d =>
      obtain ⟨probs, rfl | rfl⟩ := hkeys n d hkind
      · exact ⟨n, _, probs, hkind, .inl rfl, by simpa [keys] using hk⟩
      · exact ⟨n, _, probs, hkind, .inr rfl, by simpa [keys] using hk⟩
  · intro x
    have key : ∀ n, n ∈ g.ids → x ∈ S n → ∃ m d, g.kind? m = some (.leaf d) ∧ 0 < leafDensity d (x d.var) := by
      refine hL.graded.acyclic.induct ?_
      intro n ih hn hx
      obtain ⟨kd, hk⟩ := exists_kind? hn
      cases kd with
      | leaf d => exact ⟨n, d, hk, (hS.leaf n d hk x).1 hx⟩
      | sum =>
        obtain ⟨c, hc, hx⟩ := (hS.sum n hk x).1 hx
        exact ih c hc (succ_mem_ids hL.wf hc) hx
      | prod =>
        obtain ⟨c, hc⟩ := List.exists_mem_of_ne_nil _ (hp n hk)
        exact ih c hc (succ_mem_ids hL.wf hc) ((hS.prod n hk x).1 hx c hc)
    intro hx
    obtain ⟨m, d, hk, hpos⟩ := key r (root_mem hL.root).1 hx
    obtain ⟨probs, hdp⟩ := hkeys m d hk
    have hmem : (m, Kind.leaf d) ∈ g.nodes := by
      unfold kind? at hk
      cases hq : g.nodes.find? fun p => p.1 == m with
      | none => rw [hq] at hk; simp at hk
      | some p =>
        rw [hq] at hk
        have h1 := List.find?_some hq
        have h2 := List.mem_of_find?_eq_some hq
        rw [beq_iff_eq] at h1
        simp only [Option.map_some, Option.some.injEq] at hk
        rw [← h1, ← hk]; exact h2
    have hkey : ∃ k ∈ probs.map Prod.fst, (k : ℝ) = x v := by
      by_contra hc
      have h0 : probs.filter (fun kp => decide ((kp.1 : ℝ) = x v)) = [] := by
        rw [List.filter_eq_nil_iff]
        intro kp hkp h
        exact hc ⟨kp.1, List.mem_map.2 ⟨kp, hkp, rfl⟩, of_decide_eq_true h⟩
      have hz : leafDensity d (x v) = 0 := by
        rcases hdp with rfl | rfl <;>
        · show ((probs.filter fun kp => decide ((kp.1 : ℝ) = x v)).map Prod.snd).sum = 0
          rw [h0]; rfl
      rw [scope_leaf_var hL hs hr hk, hz] at hpos
      exact lt_irrefl _ hpos
    obtain ⟨k, hk1, hk2⟩ := hkey
    refine ⟨k, ?_, hk2⟩
    have hkk : k ∈ keys (.leaf d) := by
      rcases hdp with rfl | rfl <;> simpa [keys] using hk1
    generalize g.nodes = l at hmem
    induction l with
    | nil => simp at hmem
    | cons a l ih =>
      simp only [List.map_cons, List.foldr_cons, Finset.mem_union]
      rcases List.mem_cons.1 hmem with h | h
      · left; rw [← h]; exact hkk
      · exact .inr (ih h)

end PM.Graph
