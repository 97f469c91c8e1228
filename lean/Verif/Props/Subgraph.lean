import Verif.Circuit.Subgraph
import Verif.Props.Queries
import Verif.Circuit.MarginalLemmas

/-! # C90: the subgraph of a unit is the circuit of this unit -/

namespace PM.Props
open PM.Graph Spec

variable {g : Circuit} {r n : Node}

/-- The subgraph contains the unit and everything below it, with the same edges. -/
theorem C90_contents (hL : Layered g r) (hn : n ∈ g.ids) :
    (∀ k, k ∈ (g.subgraphOf n).ids ↔ g.Reachable n k) ∧
    ∀ k, g.Reachable n k → (g.subgraphOf n).kind? k = g.kind? k ∧ (g.subgraphOf n).outEdges k = g.outEdges k := by
  have hm := mem_keep g hL.wf hn
  refine ⟨fun k => ?_, fun k hk => ⟨?_, ?_⟩⟩
  · rw [subgraphOf, mem_ids_induced, decide_eq_true_eq, hm]
    exact ⟨fun h => h.2, fun h => ⟨reachable_mem_ids hL.wf hn h, h⟩⟩
  · rw [subgraphOf, kind?_induced, if_pos (by rw [decide_eq_true_eq, hm]; exact hk)]
  · rw [subgraphOf, outEdges_induced (by rw [decide_eq_true_eq, hm]; exact hk), List.filter_eq_self]
    intro e he
    rw [decide_eq_true_eq, hm]
    exact hk.tail (List.mem_map.2 ⟨e, he, rfl⟩)

/-- The subgraph of a unit of a valid circuit is a valid circuit whose root is the unit. -/
theorem C90_valid (hL : Layered g r) (hn : n ∈ g.ids) {sc : Node → Finset Var} (hs : Scoped g sc) (hd : Decomposable g sc) :
    Layered (g.subgraphOf n) n ∧ Scoped (g.subgraphOf n) sc ∧ Decomposable (g.subgraphOf n) sc := by
  have hm := mem_keep g hL.wf hn
  obtain ⟨h1, h2⟩ := C90_contents hL hn
  have hk : ∀ {k : Node} {K : Kind Leaf}, (g.subgraphOf n).kind? k = some K → g.Reachable n k ∧ g.kind? k = some K := by
    intro k K h
    obtain ⟨h3, h4⟩ := kind?_of_induced h
    exact ⟨(hm k).1 (by simpa using h4), h3⟩
  have hsucc : ∀ {k : Node}, g.Reachable n k → (g.subgraphOf n).succ k = g.succ k := by
    intro k h
    rw [succ, (h2 k h).2, succ]
  refine ⟨⟨hL.wf.induced _, hL.graded.induced _, hL.leaves.induced _, ?_, ?_⟩, ⟨?_, ?_, ?_, ?_⟩, ?_⟩
  · intro k h e he
    rw [(h2 k (hk h).1).2] at he
    exact hL.weighted k (hk h).2 e he
  · obtain ⟨depth, hdep⟩ := hL.graded
    have hle : ∀ k, g.Reachable n k → k = n ∨ depth n < depth k := by
      intro k h
      induction h with
      | refl => exact .inl rfl
      | tail h3 h4 ih =>
        obtain ⟨e, he, rfl⟩ := List.mem_map.1 h4
        rw [mem_outEdges] at he
        have := hdep e he.1
        rw [he.2] at this
        rcases ih with rfl | ih
        · right; omega
        · right; omega
    refine root_of (hL.wf.induced _) ((h1 n).2 .refl) ?_ ?_
    · rw [List.eq_nil_iff_forall_not_mem]
      intro e he
      rw [mem_inEdges, mem_edges_induced, decide_eq_true_eq, hm] at he
      obtain ⟨⟨h3, h4, _⟩, h5⟩ := he
      have h6 := hdep e h3
      rw [h5] at h6
      rcases hle _ h4 with h7 | h7
      · rw [h7] at h6; omega
      · omega
    · intro k hkm h0
      replace hkm := (h1 k).1 hkm
      rcases Relation.ReflTransGen.cases_tail hkm with h3 | ⟨p, h3, h4⟩
      · exact h3
      · exfalso
        obtain ⟨e, he, rfl⟩ := List.mem_map.1 h4
        rw [mem_outEdges] at he
        have : e ∈ (g.subgraphOf n).inEdges e.dst := by
          rw [mem_inEdges, subgraphOf, mem_edges_induced, decide_eq_true_eq, hm, decide_eq_true_eq, hm, he.2]
          exact ⟨⟨he.1, h3, hkm⟩, rfl⟩
        change e ∈ (g.induced _).inEdges e.dst at this
        rw [h0] at this
        cases this
  · exact fun k d h => hs.leaf k d (hk h).2
  · intro k h
    rw [hsucc (hk h).1]
    exact hs.sumNe k (hk h).2
  · intro k h
    rw [hsucc (hk h).1]
    exact hs.sum k (hk h).2
  · intro k h
    rw [hsucc (hk h).1]
    exact hs.prod k (hk h).2
  · intro k h
    rw [hsucc (hk h).1]
    exact hd k (hk h).2

/-- The likelihood of the subgraph of a unit is the likelihood of the unit. -/
theorem C90_likelihood (hL : Layered g r) (hn : n ∈ g.ids) {sc : Node → Finset Var} (hs : Scoped g sc) (hd : Decomposable g sc)
    (hv : ∀ n d, g.kind? n = some (.leaf d) → d.Valid) (x : Var → ℝ) {f : Node → ℝ}
    (hf : CircuitValue g (fun d => leafDensity d (x d.var)) f) (m : Mem LogP) : (g.subgraphOf n).likelihood m x = .ok (f n) := by
  obtain ⟨h1, h2, _⟩ := C90_valid hL hn hs hd
  have hm := mem_keep g hL.wf hn
  have hk : ∀ {k : Node} {K : Kind Leaf}, (g.subgraphOf n).kind? k = some K → g.Reachable n k ∧ g.kind? k = some K := by
    intro k K h
    obtain ⟨h3, h4⟩ := kind?_of_induced h
    exact ⟨(hm k).1 (by simpa using h4), h3⟩
  have hc := (C90_contents hL hn).2
  obtain ⟨_, _, _, _, h3⟩ := C01_loglikelihood h1 h2 (fun k d h => hv k d (hk h).2) x (f := f)
    ⟨fun k d h => hf.leaf k d (hk h).2, fun k h => by rw [(hc k (hk h).1).2]; exact hf.sum k (hk h).2,
      fun k h => by rw [(hc k (hk h).1).2]; exact hf.prod k (hk h).2⟩ m
  exact h3

/-- The hypotheses are met by the mixture `Ex.dag`, which shares a leaf, and its unit 1. -/
example : Layered Ex.dag 0 ∧ 1 ∈ Ex.dag.ids ∧ Scoped Ex.dag Ex.dagScope ∧ Decomposable Ex.dag Ex.dagScope ∧ ∀ n d, Ex.dag.kind? n = some (.leaf d) → d.Valid :=
  ⟨Ex.dag_layered, by decide, Ex.dag_scoped, Ex.dag_decomposable, Ex.dag_valid⟩

end PM.Props
