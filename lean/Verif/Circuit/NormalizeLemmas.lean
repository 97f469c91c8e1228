import Verif.Circuit.Normalize
import Verif.Circuit.ValueLemmas

namespace PM

open Graph Spec

namespace Graph

variable {D : Type}

theorem mem_sumNodes {g : Graph D} (hw : g.WF) {n : Node} : n ∈ g.sumNodes ↔ g.kind? n = some .sum := by
  unfold sumNodes kind?
  have hnd := hw.nodup
  unfold ids at hnd
  generalize g.nodes = l at hnd
  induction l with
  | nil => simp
  | cons p l ih =>
    obtain ⟨m, k⟩ := p
    simp only [List.map_cons, List.nodup_cons] at hnd
    have := ih hnd.2
    by_cases h : m = n
    · subst h
      have hni : m ∉ (l.filter fun p => isSum p.2).map Prod.fst := by
        intro hm
        obtain ⟨q, hq, hqm⟩ := List.mem_map.1 hm
        exact hnd.1 (List.mem_map.2 ⟨q, List.mem_of_mem_filter hq, hqm⟩)
      cases k with
      | sum => simp [isSum]
      | leaf d => simpa [List.filter_cons, List.find?_cons, isSum] using hni
      | prod => simpa [List.filter_cons, List.find?_cons, isSum] using hni
    · have hb : (m == n) = false := by simpa using h
      simp only [List.find?_cons, hb]
      cases k with
      | sum =>
        rw [List.filter_cons_of_pos (by rfl), List.map_cons, List.mem_cons]
        exact ⟨fun h' => this.1 (h'.resolve_left (fun h'' => h h''.symm)), fun h' => .inr (this.2 h')⟩
      | leaf d => rw [List.filter_cons_of_neg (by simp [isSum])]; exact this
      | prod => rw [List.filter_cons_of_neg (by simp [isSum])]; exact this

theorem sumNodes_nodup {g : Graph D} (hw : g.WF) : g.sumNodes.Nodup := by
  have h : g.sumNodes.Sublist g.ids := List.filter_sublist.map _
  exact h.nodup hw.nodup

/-- The log of the total weight of the out-edges. -/
noncomputable def logTotal (g : Graph D) (n : Node) : LogP :=
  LogP.logsumexp ((g.outEdges n).map fun e => e.weight.getD 0)

/-- The edges after normalizing the units in `L`. -/
noncomputable def normEdge (g : Graph D) (L : List Node) (e : Edge) : Edge :=
  if e.src ∈ L then { e with weight := e.weight.map (· - g.logTotal e.src) } else e

theorem normEdge_src (g : Graph D) (L : List Node) (e : Edge) : (g.normEdge L e).src = e.src := by
  unfold normEdge; split <;> rfl

theorem normEdge_dst (g : Graph D) (L : List Node) (e : Edge) : (g.normEdge L e).dst = e.dst := by
  unfold normEdge; split <;> rfl

theorem outEdges_normEdge (g : Graph D) (L : List Node) (n : Node) :
    ({ g with edges := g.edges.map (g.normEdge L) } : Graph D).outEdges n = (g.outEdges n).map (g.normEdge L) := by
  simp only [outEdges, List.filter_map]
  congr 1
  apply List.filter_congr
  intro e _
  simp [normEdge_src]

theorem normalize_fold (g : Graph D) :
    ∀ (L done : List Node), (∀ n ∈ L, (∀ e ∈ g.outEdges n, e.weight.isSome) ∧ g.outEdges n ≠ []) → L.Nodup → (∀ n ∈ L, n ∉ done) →
      L.foldlM normalizeUnit ({ g with edges := g.edges.map (g.normEdge done) } : Graph D)
        = .ok { g with edges := g.edges.map (g.normEdge (done ++ L)) } := by
  intro L
  induction L with
  | nil => intro done _ _ _; simp; rfl
  | cons n L ih =>
    intro done hs hnd hdone
    obtain ⟨hn, hL⟩ := List.nodup_cons.1 hnd
    obtain ⟨hwt, hne⟩ := hs n (by simp)
    have hnd' := hdone n (by simp)
    have hout : ({ g with edges := g.edges.map (g.normEdge done) } : Graph D).outEdges n = g.outEdges n := by
      rw [outEdges_normEdge]
      conv_rhs => rw [← List.map_id (g.outEdges n)]
      apply List.map_congr_left
      intro e he
      have := (mem_outEdges.1 he).2
      simp [normEdge, this, hnd']
    have hws : ({ g with edges := g.edges.map (g.normEdge done) } : Graph D).logWeights n
        = .ok ((g.outEdges n).map fun e => e.weight.getD 0) := by
      rw [logWeights, hout, mapM_readWeight_ok hwt]
    have hunit : normalizeUnit ({ g with edges := g.edges.map (g.normEdge done) } : Graph D) n
        = .ok ({ g with edges := g.edges.map (g.normEdge (done ++ [n])) } : Graph D) := by
      unfold normalizeUnit
      rw [hws]
      have hcons : ∃ w ws, ((g.outEdges n).map fun e => e.weight.getD 0) = w :: ws := by
        cases ho : g.outEdges n with
        | nil => exact absurd ho hne
        | cons e es => exact ⟨_, _, rfl⟩
      obtain ⟨w, ws, hcons⟩ := hcons
      have hlt : g.logTotal n = LogP.logsumexp (w :: ws) := by rw [logTotal, hcons]
      rw [hcons]
      change Except.ok _ = _
      congr 1
      simp only [mapWeights, List.map_map]
      congr 1
      apply List.map_congr_left
      intro e _
      simp only [Function.comp, normEdge_src]
      by_cases hen : e.src = n
      · simp [hen, normEdge, hnd', hlt]
      · simp [hen, normEdge]
    rw [List.foldlM_cons, hunit]
    change L.foldlM normalizeUnit ({ g with edges := g.edges.map (g.normEdge (done ++ [n])) } : Graph D) = _
    rw [ih (done ++ [n]) (fun k hk => hs k (by simp [hk])) hL ?_]
    · simp
    · intro k hk
      simp only [List.mem_append, List.mem_singleton, not_or]
      exact ⟨hdone k (by simp [hk]), fun h => hn (h ▸ hk)⟩

theorem normalize_eq {g : Graph D} (hw : g.WF) (hwt : Weighted g)
    (hne : ∀ n, g.kind? n = some .sum → g.outEdges n ≠ []) :
    g.normalize = .ok { g with edges := g.edges.map (g.normEdge g.sumNodes) } := by
  have h := normalize_fold g g.sumNodes []
    (fun n hn => ⟨hwt n ((mem_sumNodes hw).1 hn), hne n ((mem_sumNodes hw).1 hn)⟩) (sumNodes_nodup hw) (by simp)
  have h0 : g.edges.map (g.normEdge []) = g.edges := by
    conv_rhs => rw [← List.map_id g.edges]
    apply List.map_congr_left
    intro e _
    simp [normEdge]
  rw [h0] at h
  simpa [normalize] using h

theorem exp_logTotal {g : Graph D} (hwt : Weighted g) {n : Node} (hk : g.kind? n = some .sum) :
    (g.logTotal n).exp = ((g.outEdges n).map linWeight).sum := by
  rw [logTotal, LogP.exp_logsumexp, List.map_map]
  congr 1
  apply List.map_congr_left
  intro e he
  exact log_exp_getD (hwt n hk e he)

theorem linWeight_pos_iff {e : Edge} : 0 < linWeight e ↔ ∃ w, e.weight = some w ∧ w ≠ .negInf := by
  unfold linWeight
  cases e.weight with
  | none => simp
  | some w => simp [LogP.exp_pos]

end Graph
end PM
