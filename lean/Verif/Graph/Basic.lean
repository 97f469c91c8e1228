import Verif.Num.LogP

/-!
# Circuits as networkx graphs

`ProbabilisticCircuit` is a `networkx.DiGraph` whose nodes are units.  networkx keeps nodes, successors and
predecessors in insertion order.  A global insertion-ordered edge list determines all three orders: the successors of
a node are its out-edges in list order and the predecessors its in-edges in list order.
-/

namespace PM

/-- Python exceptions raised by the modelled code. -/
inductive PyErr where
  | valueError | indexError | keyError | typeError | networkXError | intractableError | notImplementedError
  | assertionError | attributeError | recursionError | zeroDivisionError
  deriving DecidableEq, Repr

/-- A unit's identity (`Unit.__hash__` is `id(self)`, `nx/probabilistic_circuit.py:149-150`). -/
abbrev Node := Nat

/-- The class of a unit: `LeafUnit` with its distribution, `SumUnit` or `ProductUnit`
(`nx/probabilistic_circuit.py:201-304, 340, 633`). -/
inductive Kind (D : Type) where
  | leaf (d : D)
  | sum
  | prod

/-- An edge with its data dictionary; the only key the circuit code writes is `log_weight`
(`nx/probabilistic_circuit.py:397, 682`). -/
structure Edge where
  src : Node
  dst : Node
  weight : Option LogP

/-- `ProbabilisticCircuit` as `nx.DiGraph` (`nx/probabilistic_circuit.py:730-741`): insertion-ordered nodes and
edges.  The unit objects' other attributes (`result_of_current_query`) live in a separate memory, see
`Verif/Graph/Pass.lean`. -/
structure Graph (D : Type) where
  nodes : List (Node × Kind D)
  edges : List Edge

namespace Graph

variable {D : Type}

/-- `self.nodes` in insertion order. -/
def ids (g : Graph D) : List Node := g.nodes.map Prod.fst

/-- The class of the unit `n`, if it is in the graph. -/
def kind? (g : Graph D) (n : Node) : Option (Kind D) :=
  (g.nodes.find? (fun p => p.1 == n)).map Prod.snd

/-- `self.out_edges(n)` in insertion order. -/
def outEdges (g : Graph D) (n : Node) : List Edge := g.edges.filter (fun e => e.src == n)

/-- `self.in_edges(n, data=True)` in insertion order. -/
def inEdges (g : Graph D) (n : Node) : List Edge := g.edges.filter (fun e => e.dst == n)

/-- `InnerUnit.subcircuits = list(successors)` (`nx/probabilistic_circuit.py:309-311`). -/
def succ (g : Graph D) (n : Node) : List Node := (g.outEdges n).map Edge.dst

/-- `Unit.parents = list(predecessors)` (`nx/probabilistic_circuit.py:62-67`). -/
def pred (g : Graph D) (n : Node) : List Node := (g.inEdges n).map Edge.src

/-- `self.in_degree(n)`. -/
def inDegree (g : Graph D) (n : Node) : Nat := (g.inEdges n).length

/-- `ProbabilisticCircuit.add_node` (`nx/probabilistic_circuit.py:776-782`): a node already present keeps its place. -/
def addNode (g : Graph D) (n : Node) (k : Kind D) : Graph D :=
  if n ∈ g.ids then g else { g with nodes := g.nodes ++ [(n, k)] }

/-- `DiGraph.add_edge(u, v, **data)`: an existing edge keeps its place and its data dictionary is updated (a key that
is given overwrites, a key that is not given stays); a new edge is appended.  Both endpoints are nodes in all calls of
the modelled code. -/
def addEdge (g : Graph D) (u v : Node) (w : Option LogP) : Graph D :=
  if g.edges.any (fun e => e.src == u && e.dst == v) then
    { g with edges := g.edges.map (fun e =>
        if e.src == u && e.dst == v then { e with weight := w.or e.weight } else e) }
  else { g with edges := g.edges ++ [⟨u, v, w⟩] }

/-- `DiGraph.remove_edge(u, v)`. -/
def removeEdge (g : Graph D) (u v : Node) : Graph D :=
  { g with edges := g.edges.filter (fun e => !(e.src == u && e.dst == v)) }

/-- `DiGraph.remove_node(n)`: removes the node and all edges at it. -/
def removeNode (g : Graph D) (n : Node) : Graph D :=
  { nodes := g.nodes.filter (fun p => !(p.1 == n))
    edges := g.edges.filter (fun e => !(e.src == n) && !(e.dst == n)) }

/-- `ProbabilisticCircuit.root` (`nx/probabilistic_circuit.py:788-800`). -/
def root (g : Graph D) : Except PyErr Node :=
  match g.ids.filter (fun n => g.inDegree n == 0) with
  | [] => .error .indexError
  | [r] => .ok r
  | _ :: _ :: _ => .error .valueError

/-- One step of `nx.bfs_layers`: the children of the current layer that were not visited, in order of discovery, and
the extended visited set. -/
def bfsNext (g : Graph D) (visited layer : List Node) : List Node × List Node :=
  (layer.flatMap g.succ).foldl
    (fun (acc : List Node × List Node) c =>
      if c ∈ acc.2 then acc else (acc.1 ++ [c], acc.2 ++ [c])) ([], visited)

/-- The loop of `nx.bfs_layers(G, source)`; `fuel` bounds the number of rounds. -/
def bfsLoop (g : Graph D) : Nat → List Node → List Node → List (List Node)
  | 0, _, _ => []
  | _ + 1, _, [] => []
  | fuel + 1, visited, layer@(_ :: _) =>
    layer :: bfsLoop g fuel (g.bfsNext visited layer).2 (g.bfsNext visited layer).1

/-- `ProbabilisticCircuit.layers = list(nx.bfs_layers(self, self.root))` (`nx/probabilistic_circuit.py:757-759`),
for a given root.  Each round discovers a new node, so `len(nodes)` rounds suffice. -/
def layersFrom (g : Graph D) (r : Node) : List (List Node) :=
  g.bfsLoop g.nodes.length [r] [r]

/-- The order in which a bottom-up pass visits the units:
`for layer in reversed(self.layers): for unit in layer` (`nx/probabilistic_circuit.py:804-805`). -/
def bottomUp (g : Graph D) (r : Node) : List Node := (g.layersFrom r).reverse.flatten

/-- The order of a top-down pass: `for layer in self.layers for node in layer` (`nx/probabilistic_circuit.py:962`). -/
def topDown (g : Graph D) (r : Node) : List Node := (g.layersFrom r).flatten

/-- Data invariant of a networkx `DiGraph`: nodes are distinct, there is at most one edge per ordered pair and edges
connect nodes. -/
structure WF (g : Graph D) : Prop where
  nodup : g.ids.Nodup
  edgeNodup : (g.edges.map (fun e => (e.src, e.dst))).Nodup
  srcMem : ∀ e ∈ g.edges, e.src ∈ g.ids
  dstMem : ∀ e ∈ g.edges, e.dst ∈ g.ids

end Graph
end PM
