import Verif.Circuit.Marginal
import Verif.Circuit.SimplifyStep

/-! Helper lemmas about induced subgraphs. -/

namespace PM.Graph

open Spec

variable {D : Type} {g : Graph D} {keep : Node → Bool}

theorem mem_edges_induced {e : Edge} : e ∈ (g.induced keep).edges ↔ e ∈ g.edges ∧ keep e.src ∧ keep e.dst := by
  simp [induced]

theorem mem_ids_induced {n : Node} : n ∈ (g.induced keep).ids ↔ n ∈ g.ids ∧ keep n := by
  simp only [induced, ids, List.mem_map, List.mem_filter]
  constructor
  · rintro ⟨p, ⟨h1, h2⟩, rfl⟩; exact ⟨⟨p, h1, rfl⟩, h2⟩
  · rintro ⟨⟨p, h1, rfl⟩, h2⟩; exact ⟨p, ⟨h1, h2⟩, rfl⟩

theorem kind?_induced {n : Node} : (g.induced keep).kind? n = if keep n then g.kind? n else none := by
  unfold kind? induced
  simp only [List.find?_filter]
  split
  · rename_i h
    congr 2
    funext p
    by_cases hp : p.1 = n
    · simp [hp, h]
    · simp [hp]
  · rename_i h
    rw [List.find?_eq_none.2]
    · rfl
    · intro p _
      by_cases hp : p.1 = n
      · simp [hp, h]
      · simp [hp]

theorem kind?_of_induced {n : Node} {k : Kind D} (h : (g.induced keep).kind? n = some k) :
    g.kind? n = some k ∧ keep n := by
  rw [kind?_induced] at h
  split at h
  · exact ⟨h, by assumption⟩
  · cases h

theorem outEdges_induced {n : Node} (h : keep n) :
    (g.induced keep).outEdges n = (g.outEdges n).filter fun e => keep e.dst := by
  simp only [induced, outEdges, List.filter_filter]
  apply List.filter_congr
  intro e _
  by_cases he : e.src = n
  · simp [he, h]
  · rw [beq_eq_false_iff_ne.2 he]; simp

theorem inEdges_induced {n : Node} (h : keep n) :
    (g.induced keep).inEdges n = (g.inEdges n).filter fun e => keep e.src := by
  simp only [induced, inEdges, List.filter_filter]
  apply List.filter_congr
  intro e _
  by_cases he : e.dst = n
  · simp [he, h]
  · rw [beq_eq_false_iff_ne.2 he]; simp

theorem succ_induced {n : Node} (h : keep n) : (g.induced keep).succ n = (g.succ n).filter keep := by
  simp only [succ, outEdges_induced h, List.filter_map]
  rfl

theorem WF.induced (hw : g.WF) (keep : Node → Bool) : (g.induced keep).WF := by
  refine ⟨?_, ?_, ?_, ?_⟩
  · exact hw.nodup.sublist (List.Sublist.map _ List.filter_sublist)
  · exact hw.edgeNodup.sublist (List.Sublist.map _ List.filter_sublist)
  · intro e he
    rw [mem_edges_induced] at he
    exact mem_ids_induced.2 ⟨hw.srcMem e he.1, he.2.1⟩
  · intro e he
    rw [mem_edges_induced] at he
    exact mem_ids_induced.2 ⟨hw.dstMem e he.1, he.2.2⟩

theorem Graded.induced (hg : g.Graded) (keep : Node → Bool) : (g.induced keep).Graded := by
  obtain ⟨depth, hd⟩ := hg
  exact ⟨depth, fun e he => hd e (mem_edges_induced.1 he).1⟩

theorem LeafTerminal.induced (hl : g.LeafTerminal) (keep : Node → Bool) : (g.induced keep).LeafTerminal := by
  intro n d h
  obtain ⟨h1, h2⟩ := kind?_of_induced h
  rw [succ_induced h2, hl n d h1]; rfl

theorem induced_congr {keep' : Node → Bool} (hw : g.WF) (h : ∀ n ∈ g.ids, keep n = keep' n) :
    g.induced keep = g.induced keep' := by
  unfold induced
  congr 1
  · apply List.filter_congr
    intro p hp
    exact h p.1 (List.mem_map.2 ⟨p, hp, rfl⟩)
  · apply List.filter_congr
    intro e he
    rw [h _ (hw.srcMem e he), h _ (hw.dstMem e he)]

theorem induced_all (hw : g.WF) (h : ∀ n ∈ g.ids, keep n) : g.induced keep = g := by
  rw [induced_congr (keep' := fun _ => true) hw (by simpa using h)]
  unfold induced
  simp

theorem induced_induced {keep' : Node → Bool} :
    (g.induced keep).induced keep' = g.induced fun n => keep n && keep' n := by
  unfold induced
  simp only [List.filter_filter]
  congr 1
  · apply List.filter_congr; intro p _; rw [Bool.and_comm]
  · apply List.filter_congr; intro e _
    cases keep e.src <;> cases keep e.dst <;> cases keep' e.src <;> cases keep' e.dst <;> rfl

theorem removeNode_eq_induced {n : Node} : g.removeNode n = g.induced fun k => !(k == n) := rfl

/-- If the root is kept and a kept unit other than the root has a kept parent, the root stays the root. -/
theorem root_induced {r : Node} (hr : g.root = .ok r) (hw : g.WF) (hk : keep r)
    (hp : ∀ n ∈ g.ids, keep n → n ≠ r → ∃ e ∈ g.edges, e.dst = n ∧ keep e.src) : (g.induced keep).root = .ok r := by
  obtain ⟨h1, h2⟩ := root_mem hr
  refine root_of (hw.induced keep) (mem_ids_induced.2 ⟨h1, hk⟩) ?_ ?_
  · rw [inEdges_induced hk, h2]; rfl
  · intro n hn h0
    rw [mem_ids_induced] at hn
    by_contra hne
    obtain ⟨e, he, hd, hs⟩ := hp n hn.1 hn.2 hne
    rw [inEdges_induced hn.2] at h0
    have : e ∈ (g.inEdges n).filter fun e => keep e.src := List.mem_filter.2 ⟨mem_inEdges.2 ⟨he, hd⟩, hs⟩
    rw [h0] at this
    cases this

/-- After removing units such that every remaining unit has a remaining parent, nothing is unreachable. -/
theorem removeUnreachable_eq {r : Node} (hw : g.WF) (hg : g.Graded) (hr : g.root = .ok r) : g.removeUnreachable r = g := by
  refine induced_all hw fun n hn => ?_
  simp only [decide_eq_true_eq]
  exact (mem_layersFrom_iff hw hg (root_mem hr).1).2 (reachable_of_root hw hg.acyclic hr n hn)

end PM.Graph
