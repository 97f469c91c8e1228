import Verif.Learn.RegionGraph
import Verif.Jax.Json

/-!
# The layered circuit of a region graph

`RegionGraph.as_probabilistic_circuit` (`learning/region_graph/region_graph.py:153-227`).
-/

namespace PM.Learn
open PM.Jax

/-- The classes of the variables that matter here: `Continuous`, `Symbolic` with its number of states, or another one (`Integer`). -/
inductive VarKind where
  | continuous
  | symbolic (states : ℕ)
  | integer

/-- `input_units`, `sum_units` and `self.classes`. -/
structure Units where
  input : ℕ
  sum : ℕ
  classes : ℕ

/-- The outcomes of `jax.random.uniform(key, shape)` in `[0, 1)`.  The same key is used everywhere, so they are a function of the shape:
`(n,)` and `(n, m)`. -/
structure Draws where
  vector : ℕ → ℕ → ℝ
  matrix : ℕ → ℕ → ℕ → ℕ → ℝ

/-- `jax.random.uniform(key, shape, minval, maxval)` from the outcome in `[0, 1)`. -/
noncomputable def between (minval maxval u : ℝ) : ℝ := u * (maxval - minval) + minval

namespace RegionGraph

/-- `RegionGraph.root` (`learning/region_graph/region_graph.py:153-161`). -/
def root (g : RegionGraph) : Except PyErr ℕ :=
  match (List.range g.nodes.length).filter fun n => (g.parents n).length == 0 with
  | [] => .error .indexError
  | [r] => .ok r
  | _ :: _ :: _ => .error .valueError

/-- One step of `nx.bfs_layers`: the children of the current layer that were not visited, in order of discovery, and the extended visited
set. -/
def bfsNext (g : RegionGraph) (visited layer : List ℕ) : List ℕ × List ℕ :=
  (layer.flatMap g.children).foldl
    (fun (acc : List ℕ × List ℕ) c => if c ∈ acc.2 then acc else (acc.1 ++ [c], acc.2 ++ [c])) ([], visited)

/-- The loop of `nx.bfs_layers(G, source)`; `fuel` bounds the number of rounds. -/
def bfsLoop (g : RegionGraph) : ℕ → List ℕ → List ℕ → List (List ℕ)
  | 0, _, _ => []
  | _ + 1, _, [] => []
  | fuel + 1, visited, layer@(_ :: _) =>
    layer :: bfsLoop g fuel (g.bfsNext visited layer).2 (g.bfsNext visited layer).1

/-- `reversed(list(nx.bfs_layers(self, root)))`, one node after the other (`learning/region_graph/region_graph.py:176-177`).  Every round
discovers a new node, so `len(nodes)` rounds suffice. -/
def bottomUp (g : RegionGraph) (r : ℕ) : List ℕ := (g.bfsLoop g.nodes.length [r] [r]).reverse.flatten

end RegionGraph

/-- The layer of a region without children (`learning/region_graph/region_graph.py:182-198`): the first variable of the region decides. -/
noncomputable def inputLayer (V : Finset Var) (kinds : Var → VarKind) (u : Units) (d : Draws) (W : Finset Var) : Except PyErr Layer :=
  match W.sort (· ≤ ·) with
  | [] => .error .indexError
  | v :: _ =>
    if v ∉ V then .error .valueError
    else
      let index := (V.sort (· ≤ ·)).idxOf v
      match kinds v with
      | .continuous => .ok (.input index ((List.range u.input).map fun i =>
          .gaussian (between (-1) 1 (d.vector u.input i)) (Real.log (between 0.5 3 (d.vector u.input i))) 0.1))
      | .symbolic n => .ok (.input index ((List.range u.input).map fun i =>
          .discrete ((List.range n).map fun j => LogP.log (between 0.1 1 (d.matrix u.input n i j)))))
      | .integer => .error .valueError

/-- The layer of a region with children (`learning/region_graph/region_graph.py:206-209`), `units` is the number of its nodes.
`validate` asks that the children have the same variables. -/
noncomputable def sumLayer (d : Draws) (units : ℕ) (children : List Layer) : Except PyErr Layer :=
  let layer := Layer.denseSum (children.map fun c => (List.range units).map fun i => (List.range c.numberOfNodes).map fun j =>
    LogP.log (between 0.1 1 (d.matrix units c.numberOfNodes i j))) children
  if children.all fun c => c.variables == layer.variables then .ok layer else .error .assertionError

/-- The layer of a partition (`learning/region_graph/region_graph.py:212-220`): node `i` is the product of the nodes `i` of the children. -/
def productLayer (children : List Layer) : Except PyErr Layer :=
  match (children.map Layer.numberOfNodes).dedup with
  | [n] => .ok (.product n (children.map fun _ => (List.range n).map fun i => (i, i)) children)
  | _ => .error .assertionError

/-- `child.layer` of the children. -/
def childLayers (layers : ℕ → Option Layer) (cs : List ℕ) : Except PyErr (List Layer) :=
  cs.mapM fun c => match layers c with
    | some l => .ok l
    | none => .error .attributeError

/-- The layer of a node (`learning/region_graph/region_graph.py:178-220`). -/
noncomputable def nodeLayer (g : RegionGraph) (V : Finset Var) (kinds : Var → VarKind) (u : Units) (d : Draws) (layers : ℕ → Option Layer)
    (n : ℕ) : Except PyErr Layer :=
  match g.nodes[n]? with
  | some (.region W) =>
    if (g.children n).length = 0 then inputLayer V kinds u d W
    else do
      let cs ← childLayers layers (g.children n)
      sumLayer d (if (g.parents n).length = 0 then u.classes else u.sum) cs
  | some .partition => do
    let cs ← childLayers layers (g.children n)
    productLayer cs
  | none => .error .keyError

/-- `node.layer = ...` for one node after the other. -/
noncomputable def assignLayers (g : RegionGraph) (V : Finset Var) (kinds : Var → VarKind) (u : Units) (d : Draws) :
    List ℕ → (ℕ → Option Layer) → Except PyErr (ℕ → Option Layer)
  | [], layers => .ok layers
  | n :: ns, layers => do
    let l ← nodeLayer g V kinds u d layers n
    assignLayers g V kinds u d ns (Function.update layers n (some l))

/-- `RegionGraph.as_probabilistic_circuit` (`learning/region_graph/region_graph.py:164-227`) of a graph without layers.  The two classes of
the result (`:222-225`) have the same attributes. -/
noncomputable def regionCircuit (g : RegionGraph) (V : Finset Var) (kinds : Var → VarKind) (u : Units) (d : Draws) : Except PyErr Model := do
  let r ← g.root
  let layers ← assignLayers g V kinds u d (g.bottomUp r) fun _ => none
  match layers r with
  | some l => .ok ⟨V.sort (· ≤ ·), l⟩
  | none => .error .attributeError

end PM.Learn
