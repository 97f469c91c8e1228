import Verif.Circuit.ShallowView
import Verif.Spec.Shallow

/-! Helper lemmas: the loops of `shallowing` in terms of classes and out-edges. -/

namespace PM.Graph

open Spec

variable {D : Type}

/-- A sum unit of product units of leaf units. -/
structure Flat (D : Type) where
  m : Node
  prods : List (LogP × Node × List (Node × D))

namespace Flat
def pids (F : Flat D) : List Node := F.prods.map fun q => q.2.1
def ids (F : Flat D) : List Node := F.m :: F.pids
end Flat

structure RepFlat (K : Node → Option (Kind D)) (O : Outs) (F : Flat D) : Prop where
  sum : K F.m = some .sum
  out : O F.m = F.prods.map fun q => (q.2.1, some q.1)
  prod : ∀ q ∈ F.prods, K q.2.1 = some .prod
  pout : ∀ q ∈ F.prods, O q.2.1 = q.2.2.map fun l => (l.1, none)
  leaf : ∀ q ∈ F.prods, ∀ l ∈ q.2.2, K l.1 = some (.leaf l.2)
  lout : ∀ q ∈ F.prods, ∀ l ∈ q.2.2, O l.1 = []

/-- The children of `n` after their shallowing. -/
structure Kids (K : Node → Option (Kind D)) (O : Outs) (n : Node) (Gs : List (Option LogP × Flat D)) : Prop where
  out : O n = Gs.map fun c => (c.2.m, c.1)
  flat : ∀ c ∈ Gs, RepFlat K O c.2
  nodup : (Gs.flatMap fun c => c.2.ids).Nodup
  notn : n ∉ Gs.flatMap fun c => c.2.ids
  inM : ∀ c ∈ Gs, ∀ u, To O u c.2.m → u = n
  inP : ∀ c ∈ Gs, ∀ q ∈ c.2.pids, ∀ u, To O u q → u = c.2.m

variable {g : Graph D} {K : Node → Option (Kind D)} {O : Outs}

/-- Several new edges from one unit. -/
theorem View.addEdges {u : Node} (w : Option LogP) : ∀ {ds : List Node} {g : Graph D} {O : Outs}, View g K O → K u ≠ none →
    (∀ d ∈ ds, K d ≠ none) → ds.Nodup → (∀ d ∈ ds, ¬ To O u d) →
    View (ds.foldl (fun g d => g.addEdge u d w) g) K (Function.update O u (O u ++ ds.map fun d => (d, w)))
  | [], g, O, h, _, _, _, _ => by simpa using h
  | d :: ds, g, O, h, hu, hd, hn, ht => by
    have h1 := h.addEdge w hu (hd d (by simp)) (ht d (by simp))
    have h2 := View.addEdges w h1 hu (fun d' hd' => hd d' (by simp [hd'])) (List.nodup_cons.1 hn).2 (by
      intro d' hd' hc
      simp only [To, Function.update_self, List.map_append, List.mem_append, List.map_cons, List.map_nil, List.mem_singleton] at hc
      rcases hc with hc | rfl
      · exact ht d' (by simp [hd']) hc
      · exact (List.nodup_cons.1 hn).1 hd')
    simpa using h2

theorem View.removeStructure_root {n : Node} (h : View g K O) (hn : K n ≠ none) (ho : ∀ u, ¬ To O u n)
    (hs : ∀ s ∈ (O n).map Prod.fst, s ≠ n ∧ ∃ u, u ≠ n ∧ To O u s) (fuel : ℕ) :
    removeStructure (fuel + 1) g n = .ok (g.removeNode n) := by
  have h1 := h.removeNode ho
  rw [removeStructure, if_pos (h.mem_ids.2 hn), h.succ]
  have : ∀ l : List Node, (∀ s ∈ l, s ≠ n ∧ K s ≠ none ∧ ∃ u, u ≠ n ∧ To O u s) → l.foldlM (fun g s =>
        if s ∈ g.ids then (if g.pred s = [] then removeStructure fuel g s else .ok g)
        else .error .networkXError) (g.removeNode n) = .ok (g.removeNode n) := by
    intro l
    induction l with
    | nil => intro _; rfl
    | cons s l ih =>
      intro hl
      obtain ⟨h2, h3, u, hu, hus⟩ := hl s (by simp)
      rw [List.foldlM_cons, if_pos (h1.mem_ids.2 (by rwa [Function.update_of_ne h2])), if_neg]
      · exact ih fun s' hs' => hl s' (by simp [hs'])
      · rw [h1.pred_eq_nil]
        push Not
        exact ⟨u, by rwa [To, Function.update_of_ne hu]⟩
  refine this _ fun s hs' => ⟨(hs s hs').1, ?_, (hs s hs').2⟩
  exact h.dst (u := n) hs'

theorem View.length_pos {n : Node} (h : View g K O) (hn : K n ≠ none) : ∃ f, g.nodes.length = f + 1 := by
  have := h.mem_ids.2 hn
  unfold ids at this
  cases hl : g.nodes with
  | nil => rw [hl] at this; simp at this
  | cons a l => exact ⟨l.length, by simp⟩

end PM.Graph
