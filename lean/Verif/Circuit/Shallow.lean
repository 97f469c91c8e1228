import Verif.Circuit.Query

/-!
# Shallow circuits

`ShallowProbabilisticCircuit.from_probabilistic_circuit` (`nx/probabilistic_circuit.py:1290-1449`).  The units created on the way get the
numbers `next, next + 1, …`.  `self.remove_node_and_successor_structure` and `self.shallowing` use `self` only to find the methods; the
graph they change is `node.probabilistic_circuit`, the copy made in the beginning.
-/

namespace PM.Graph

variable {D : Type}

/-- `get_edge_data(u, v)`: the data of the edge, if there is one. -/
def edgeData (g : Graph D) (u v : Node) : Option (Option LogP) :=
  (g.edges.find? fun e => e.src == u && e.dst == v).map Edge.weight

/-- `.get("weight", 1)` on the data of an edge (`:1347, 1371`): no modelled code writes the key `weight` (weights are stored under
`log_weight`), so this is the default. -/
def weightKey : ℝ := 1

/-- `remove_node_and_successor_structure` (`:1439-1449`).  `list(predecessors(succ))` raises `NetworkXError` if `succ` is no longer in the
graph.  Every call removes a unit, so the number of units bounds the depth of the recursion. -/
def removeStructure : ℕ → Graph D → Node → Except PyErr (Graph D)
  | 0, _, _ => .error .recursionError
  | fuel + 1, g, n =>
    if n ∈ g.ids then
      (g.succ n).foldlM (fun g s =>
        if s ∈ g.ids then (if g.pred s = [] then removeStructure fuel g s else .ok g)
        else .error .networkXError) (g.removeNode n)
    else .error .networkXError

/-- `if len(list(predecessors(n))) == 0: self.remove_node_and_successor_structure(n)` (`:1350-1351, 1380-1381`). -/
def removeIfOrphan (g : Graph D) (n : Node) : Except PyErr (Graph D) :=
  if n ∈ g.ids then (if g.pred n = [] then removeStructure g.nodes.length g n else .ok g)
  else .error .networkXError

/-- The circuit and the number of the next new unit. -/
structure Fresh (D : Type) where
  g : Graph D
  next : ℕ

/-- The edge `presucc → node` becomes an edge `presucc → new` with the same data (`:1330-1333, 1359-1361`).  Without an edge
`remove_edge` raises `NetworkXError`. -/
def redirect (g : Graph D) (presucc node new : Node) : Except PyErr (Graph D) :=
  match g.edgeData presucc node with
  | some data => .ok ((g.addEdge presucc new data).removeEdge presucc node)
  | none => .error .networkXError

/-- The case of a leaf unit (`:1322-1334`). -/
noncomputable def shallowLeaf (s : Fresh D) (n : Node) (presucc : Option Node) : Except PyErr (Fresh D) :=
  let sum := s.next
  let product := s.next + 1
  let g := (((s.g.addNode sum .sum).addNode product .prod).addEdge product n none).addEdge sum product (some 0)
  match presucc with
  | some p => do return ⟨← g.redirect p n sum, s.next + 2⟩
  | none => .ok ⟨g, s.next + 2⟩

/-- The body of the loop over the subcircuits of a sum unit (`:1342-1351`). -/
noncomputable def liftChild (n : Node) (g : Graph D) (c : Node) : Except PyErr (Graph D) :=
  if c ∈ g.ids then
    let first := ((g.edgeData n c).join).getD 0
    removeIfOrphan (((g.succ c).foldl (fun g d => g.addEdge n d (some (first + .fin weightKey))) g).removeEdge n c) c
  else .error .networkXError

/-- The product unit of one combination (`:1368-1378`). -/
noncomputable def addCombination (sum : Node) (s : Fresh D) (combination : List Node) : Fresh D :=
  let product := s.next
  let g := combination.foldl (fun g under => (g.succ under).foldl
    (fun g leaf => g.addEdge product leaf ((g.edgeData under leaf).join)) g) (s.g.addNode product .prod)
  ⟨g.addEdge sum product (some (.fin (combination.map fun _ => weightKey).prod)), s.next + 1⟩

/-- `itertools.product(*lists)`. -/
def combinations {α : Type} : List (List α) → List (List α)
  | [] => [[]]
  | l :: ls => l.flatMap fun a => (combinations ls).map (a :: ·)

/-- The new sum unit takes the place of the product unit (`:1358-1368`). -/
noncomputable def replaceProduct (g : Graph D) (n sum : Node) : Option Node → Except PyErr (Graph D)
  | some p => do
    let g ← (g.addNode sum .sum).redirect p n sum
    if g.pred n = [] then pure (g.removeNode n) else pure g
  | none => pure ((g.addNode sum .sum).removeNode n)

/-- The case of a product unit after its subcircuits (`:1354-1382`). -/
noncomputable def shallowProduct (s : Fresh D) (n : Node) (presucc : Option Node) : Except PyErr (Fresh D) := do
  let succs := s.g.succ n
  let sum := s.next
  let g ← s.g.replaceProduct n sum presucc
  if succs.any (fun c => c ∉ g.ids) then throw .networkXError
  let s := (combinations (succs.map g.succ)).foldl (addCombination sum) ⟨g, s.next + 1⟩
  let g ← succs.foldlM removeIfOrphan s.g
  return ⟨g, s.next⟩

/-- `shallowing` (`:1308-1383`).  `fuel` bounds the depth of the recursion. -/
noncomputable def shallowing : ℕ → Fresh D → Node → Option Node → Except PyErr (Fresh D)
  | 0, _, _, _ => .error .recursionError
  | fuel + 1, s, n, presucc =>
    match s.g.kind? n with
    | none => .error .networkXError
    | some (.leaf _) => shallowLeaf s n presucc
    | some .sum => do
      let s ← (s.g.succ n).foldlM (fun s c => shallowing fuel s c (some n)) s
      let g ← (s.g.succ n).foldlM (liftChild n) s.g
      return ⟨g, s.next⟩
    | some .prod => do
      let s ← (s.g.succ n).foldlM (fun s c => shallowing fuel s c (some n)) s
      shallowProduct s n presucc

/-- A number above all units. -/
def nextUnit (g : Graph D) : Node := g.ids.foldr max 0 + 1

/-- `from_probabilistic_circuit` (`:1296-1306`).  The result has the units and edges of the shallowed copy (`add_edges_from` adds the
edges, `add_weighted_edges_from` their `log_weight`); copying is the subject of other properties, here the copy is the circuit itself. -/
noncomputable def toShallow (g : Graph D) : Except PyErr (Graph D) := do
  let r ← g.root
  let s ← shallowing (g.nodes.length + 1) ⟨g, g.nextUnit⟩ r none
  return s.g

end PM.Graph
