import Verif.Graph.Basic

/-!
# Bottom-up query passes

Every query of `ProbabilisticCircuit` visits the units in the order `for layer in reversed(self.layers): for unit in
layer` and stores each unit's answer in its `result_of_current_query` attribute, from where the parents read it.  The
attribute is never reset between queries, so a pass starts with whatever the previous query (or nothing) left there.
-/

namespace PM

/-- The `result_of_current_query` attributes of all units; `none` is Python's `None`, the value a unit is created with
(`nx/probabilistic_circuit.py:41-45`). -/
abbrev Mem (V : Type) := Node → Option V

/-- `unit.result_of_current_query = v`. -/
def Mem.set {V : Type} (m : Mem V) (n : Node) (v : V) : Mem V := fun k => if k = n then some v else m k

/-- The three local rules of a query: what a leaf stores, and how sum and product units combine what they read from
their subcircuits. -/
structure Alg (D V : Type) where
  leaf : D → Except PyErr V
  sum : List (LogP × V) → Except PyErr V
  prod : List V → Except PyErr V

namespace Graph

variable {D V : Type}

/-- The `log_weight` of an edge; a missing key is a `KeyError` (`nx/probabilistic_circuit.py:365`). -/
def readWeight (e : Edge) : Except PyErr LogP :=
  match e.weight with
  | some w => .ok w
  | none => .error .keyError

/-- Read `subcircuit.result_of_current_query` for use in arithmetic; `None` is a `TypeError`
(`nx/probabilistic_circuit.py:400-405, 648-653`).  Simplification: `np.sum([None])` over a single `None` is `None`
rather than an error in numpy; it is an error here. -/
def readResult (m : Mem V) (n : Node) : Except PyErr V :=
  match m n with
  | some v => .ok v
  | none => .error .typeError

/-- What unit `n` stores when it is visited: `LeafUnit.log_likelihood` etc. (`nx/probabilistic_circuit.py:242-252`),
`SumUnit.forward`/`log_forward` via `log_weighted_subcircuits` (`:360-366, 399-406`), `ProductUnit.forward`/
`log_forward` (`:647-653`). -/
def evalUnit (g : Graph D) (A : Alg D V) (m : Mem V) (n : Node) : Except PyErr V :=
  match g.kind? n with
  | none => .error .networkXError
  | some (.leaf d) => A.leaf d
  | some .sum => do
    let ws ← (g.outEdges n).mapM readWeight
    let vs ← (g.succ n).mapM (readResult m)
    A.sum (ws.zip vs)
  | some .prod => do
    let vs ← (g.succ n).mapM (readResult m)
    A.prod vs

/-- Visit the given units in order, storing every answer; an exception ends the pass and leaves the answers stored so
far in place. -/
def passLoop (g : Graph D) (A : Alg D V) : List Node → Mem V → Mem V × Except PyErr Unit
  | [], m => (m, .ok ())
  | n :: ns, m =>
    match g.evalUnit A m n with
    | .ok v => passLoop g A ns (m.set n v)
    | .error e => (m, .error e)

/-- A query (`nx/probabilistic_circuit.py:802-842, 966-982`): determine the root, visit all units bottom-up and return
the root's stored answer.  The memory that the query leaves behind is returned too. -/
def query (g : Graph D) (A : Alg D V) (m : Mem V) : Mem V × Except PyErr V :=
  match g.root with
  | .error e => (m, .error e)
  | .ok r =>
    match g.passLoop A (g.bottomUp r) m with
    | (m', .error e) => (m', .error e)
    | (m', .ok ()) => (m', readResult m' r)

/-- A user session: several queries one after the other on the same circuit object, each starting with the memory the
previous one left behind. -/
def session (g : Graph D) : List (Alg D V) → Mem V → Mem V × List (Except PyErr V)
  | [], m => (m, [])
  | A :: As, m =>
    ((session g As (g.query A m).1).1, (g.query A m).2 :: (session g As (g.query A m).1).2)

/-- Freshly created units: every `result_of_current_query` is `None`. -/
def freshMem : Mem V := fun _ => none

end Graph
end PM
