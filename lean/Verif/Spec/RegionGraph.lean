import Verif.Learn.RegionGraph

/-!
# Specification: decomposable region graphs
-/

namespace PM.Spec

open Learn

/-- `R` is a region of `g` with the variables `V`. -/
def IsRegion (g : RegionGraph) (R : ℕ) (V : Finset Var) : Prop := g.nodes[R]? = some (.region V)

/-- `p` is a partition node of `g`. -/
def IsPartition (g : RegionGraph) (p : ℕ) : Prop := g.nodes[p]? = some .partition

/-- The children of `p` are regions whose variables are disjoint and together make up `V`. -/
def Partitions (g : RegionGraph) (p : ℕ) (V : Finset Var) : Prop :=
  ∃ Vs : List (Finset Var), List.Forall₂ (IsRegion g) (g.children p) Vs ∧ Vs.Pairwise Disjoint ∧ Vs.foldr (· ∪ ·) ∅ = V

end PM.Spec
