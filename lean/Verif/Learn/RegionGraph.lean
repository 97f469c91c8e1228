import Mathlib.Data.Finset.Sort
import Verif.Events.Basic

/-!
# Random region graphs

`learning/region_graph/region_graph.py`.  Nodes are objects with identity; here they are numbered in the order of their creation.
-/

namespace PM.Learn

/-- `Region` with its variables (`learning/region_graph/region_graph.py:22-40`) or `Partition` (`:43-49`). -/
inductive RKind where
  | region (vars : Finset Var)
  | partition
  deriving DecidableEq

/-- `RegionGraph` as `nx.DiGraph`; node `i` is the `i`-th created one. -/
structure RegionGraph where
  nodes : List RKind
  edges : List (ℕ × ℕ)

namespace RegionGraph

/-- `self.add_edge(x, y)` for a newly created node `y`. -/
def attach (g : RegionGraph) (x : ℕ) (y : RKind) : RegionGraph :=
  ⟨g.nodes ++ [y], g.edges ++ [(x, g.nodes.length)]⟩

/-- `self.successors(x)`. -/
def children (g : RegionGraph) (x : ℕ) : List ℕ := (g.edges.filter fun e => e.1 == x).map Prod.snd

/-- `self.predecessors(x)`. -/
def parents (g : RegionGraph) (x : ℕ) : List ℕ := (g.edges.filter fun e => e.2 == x).map Prod.fst

end RegionGraph

/-- The pieces of `np.array_split`: the given sizes one after the other. -/
def splitSizes {α : Type} : List ℕ → List α → List (List α)
  | [], _ => []
  | n :: ns, l => l.take n :: splitSizes ns (l.drop n)

/-- `np.array_split(indices, k)`: `len % k` pieces with one element more than the others; `ValueError` for `k = 0`. -/
def arraySplit {α : Type} (l : List α) (k : ℕ) : Except PyErr (List (List α)) :=
  if k = 0 then .error .valueError
  else .ok (splitSizes (List.replicate (l.length % k) (l.length / k + 1) ++ List.replicate (k - l.length % k) (l.length / k)) l)

/-- `Region.random_partition(k)` (`learning/region_graph/region_graph.py:33-37`); `shuffle` is the effect of `np.random.shuffle`. -/
def randomPartition (shuffle : List ℕ → List ℕ) (vars : Finset Var) (k : ℕ) : Except PyErr (List (Finset Var)) := do
  let splits ← arraySplit (shuffle (List.range vars.card)) k
  .ok (splits.map fun s => (s.filterMap fun i => (vars.sort (· ≤ ·))[i]?).toFinset)

/-- An entry of `remaining_regions`: a region, its variables, the remaining depth and the region's partition. -/
structure Pending where
  region : ℕ
  vars : Finset Var
  depth : ℕ
  part : ℕ

/-- `for variable in region.variables: self.add_edge(partition, Region(SortedSet([variable])))`
(`learning/region_graph/region_graph.py:139-141`). -/
def addLeaves (g : RegionGraph) (p : ℕ) (vars : List Var) : RegionGraph :=
  vars.foldl (fun g v => g.attach p (.region {v})) g

/-- One round of the loop over the new regions (`learning/region_graph/region_graph.py:145-149`). -/
def addRegion (p depth : ℕ) (s : RegionGraph × List Pending) (vars : Finset Var) : RegionGraph × List Pending :=
  ((s.1.attach p (.region vars)).attach s.1.nodes.length .partition,
    s.2 ++ [⟨s.1.nodes.length, vars, depth, s.1.nodes.length + 1⟩])

/-- The number of rounds an entry of the queue causes. -/
def rounds (k : ℕ) : ℕ → ℕ
  | 0 => 1
  | d + 1 => 1 + k * rounds k d

/-- The loop of `recursive_split` (`learning/region_graph/region_graph.py:133-149`), at most `fuel` rounds.  `shuffles n` is the outcome of
the shuffle that happens when the graph has `n` nodes; the graph grows with every shuffle, so these are arbitrary outcomes. -/
def splitLoop (shuffles : ℕ → List ℕ → List ℕ) (k : ℕ) : ℕ → RegionGraph → List Pending → Except PyErr RegionGraph
  | _, g, [] => .ok g
  | 0, _, _ => .error .recursionError
  | fuel + 1, g, it :: q =>
    if it.vars.card = 1 then splitLoop shuffles k fuel g q
    else match it.depth with
      | 0 => splitLoop shuffles k fuel (addLeaves g it.part (it.vars.sort (· ≤ ·))) q
      | d + 1 => do
        let new ← randomPartition (shuffles g.nodes.length) it.vars k
        let s := new.foldl (addRegion it.part d) (g, q)
        splitLoop shuffles k fuel s.1 s.2

/-- `RegionGraph.recursive_split` (`learning/region_graph/region_graph.py:124-149`) of the node `x`. -/
def recursiveSplit (shuffles : ℕ → List ℕ → List ℕ) (k depth : ℕ) (vars : Finset Var) (g : RegionGraph) (x : ℕ) :
    Except PyErr RegionGraph :=
  splitLoop shuffles k (rounds k depth) (g.attach x .partition) [⟨x, vars, depth, g.nodes.length⟩]

/-- `create_random_region_graph` (`learning/region_graph/region_graph.py:98-106`). -/
def createRandomRegionGraph (shuffles : ℕ → List ℕ → List ℕ) (vars : Finset Var) (k depth repetitions : ℕ) :
    Except PyErr RegionGraph :=
  (List.range repetitions).foldlM (fun g _ => recursiveSplit shuffles k depth vars g 0) ⟨[.region vars], []⟩

end PM.Learn
