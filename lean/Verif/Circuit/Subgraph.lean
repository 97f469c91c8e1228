import Verif.Circuit.Induced
import Verif.Circuit.Structure
import Verif.Graph.BfsReach

/-!
# Subgraphs of units
-/

namespace PM.Graph

variable {D : Type}

/-- `ProbabilisticCircuit.subgraph_of` (`nx/probabilistic_circuit.py:1129-1137`): the view of networkx that shows the given nodes and the
edges between them.  The units still belong to the old circuit; their subcircuits are the same there. -/
def subgraphOf (g : Graph D) (n : Node) : Graph D := g.induced fun k => decide (k ∈ g.descendants n ++ [n])

theorem mem_keep (g : Graph D) (hw : g.WF) {n : Node} (hn : n ∈ g.ids) (k : Node) :
    k ∈ g.descendants n ++ [n] ↔ g.Reachable n k := by
  rw [List.mem_append, List.mem_singleton, descendants, List.mem_filter, mem_layersFrom_iff' hw hn]
  constructor
  · rintro (⟨h, _⟩ | rfl)
    · exact h
    · exact .refl
  · intro h
    by_cases hk : k = n
    · exact .inr hk
    · exact .inl ⟨h, by simpa using hk⟩

end PM.Graph
