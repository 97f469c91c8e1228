import Verif.Circuit.Marginal
import Verif.Circuit.Probability
import Verif.Dist.Conditional

/-!
# `conditional`
-/

namespace PM

open Classical

/-- What happens to a leaf unit when it is conditioned in place: its distribution becomes `None` and its result `-inf`; it
gets a new distribution and a log-probability; or it is replaced by a sum unit over several new leaves. -/
inductive LeafCond where
  | impossible
  | one (d : Leaf) (p : LogP)
  | several (ps : List (Leaf × LogP))

/-- `log_conditional_of_simple_event_in_place` of a leaf, given the value set of its variable: discrete leaves
(`nx/probabilistic_circuit.py:258-259`) and continuous leaves (`nx/distributions/distributions.py:26-81`).  Pieces of
probability zero are skipped (`:59-60`); the total is zero exactly if all are skipped. -/
noncomputable def Leaf.condInPlace (d : Leaf) (A : VSet) : Except PyErr LeafCond :=
  match d with
  | .symbolic .. | .integer .. =>
    match d.logConditional A with
    | .error e => .error e
    | .ok (none, _) => .ok .impossible
    | .ok (some d', p) => .ok (.one d' p)
  | _ =>
    match A with
    | .symbols _ => .error .typeError
    | .interval _ =>
      match d.support.inter A with
      | .symbols _ => .error .typeError
      | .interval [] => .ok .impossible
      | .interval [K] => (d.condSimple K).map fun r => .one r.1 r.2
      | .interval Ks => do
        let ps ← Ks.mapM d.condSimple
        match ps.filter fun q => 0 < q.2.exp with
        | [] => .ok .impossible
        | q :: qs => .ok (.several (q :: qs))

namespace Graph

variable {D : Type}

/-- An identity that no unit of the graph has: a newly created unit. -/
def fresh (g : Graph D) : Node := g.ids.foldr max 0 + 1

/-- `self.distribution = …` for the leaf `n`. -/
def setLeaf (g : Graph D) (n : Node) (d : D) : Graph D :=
  { g with nodes := g.nodes.map fun p => if p.1 == n then (p.1, .leaf d) else p }

/-- The circuit after the new sum unit and its leaves were added and the incoming edges were rerouted
(`nx/distributions/distributions.py:52-77`).  The pieces get their *probability* as `log_weight` (`:63`).  All identities
are new, so `add_node` and `add_edge` append. -/
noncomputable def rerouteLeaf (g : Graph D) (n : Node) (ps : List (D × LogP)) : Graph D :=
  let s := g.fresh
  let new := ps.zipIdx
  let g1 : Graph D :=
    { nodes := g.nodes ++ (s, .sum) :: new.map fun q => (s + 1 + q.2, .leaf q.1.1)
      edges := g.edges ++ new.map fun q => ⟨s, s + 1 + q.2, some (.fin q.1.2.exp)⟩ }
  (g1.connectIncoming n s).removeNode n

/-- Replacing a leaf by a sum unit (`nx/distributions/distributions.py:52-81`). -/
noncomputable def expandLeaf (g : Graph D) (n : Node) (ps : List (D × LogP)) : Except PyErr (Graph D) :=
  (g.rerouteLeaf n ps).normalizeUnit g.fresh

/-- `SumUnit.log_forward` (`nx/probabilistic_circuit.py:403-406`) and `ProductUnit.log_forward` (`:651-653`); `leaf` is not
used. -/
noncomputable def logForwardAlg : Alg D LogP where
  leaf _ := .error .attributeError
  sum l := if l = [] then .error .valueError else .ok (LogP.logsumexp (l.map fun wv => wv.1 + wv.2))
  prod l := .ok (l.foldr (· + ·) 0)

/-- One unit of the pass in `log_conditional_of_simple_event_in_place` (`nx/probabilistic_circuit.py:859-866`).  A leaf
whose distribution becomes `None` keeps its old distribution here; it has the result `-inf` and is removed before its
distribution is used again. -/
noncomputable def conditionUnit (E : SimpleEvent) (s : Circuit × Mem LogP) (n : Node) :
    Except PyErr (Circuit × Mem LogP) :=
  match s.1.kind? n with
  | none => .error .networkXError
  | some (.leaf d) => do
    let A ← E.get d.var
    match ← d.condInPlace A with
    | .impossible => .ok (s.1, s.2.set n .negInf)
    | .one d' p => .ok (s.1.setLeaf n d', s.2.set n p)
    | .several ps => do
      let g' ← s.1.expandLeaf n ps
      .ok (g', fun k =>
        if k = s.1.fresh then some (LogP.log (ps.map fun q => q.2.exp).sum)
        else if s.1.fresh < k then none else s.2 k)
  | some _ => do
    let v ← s.1.evalUnit logForwardAlg s.2 n
    .ok (s.1, s.2.set n v)

/-- `node.result_of_current_query == -np.inf` (`None == -inf` is `False`). -/
def impossibleIn (m : Mem LogP) (n : Node) : Bool := match m n with
  | some .negInf => true
  | _ => false

/-- `ProbabilisticCircuit.log_conditional_of_simple_event_in_place` (`nx/probabilistic_circuit.py:852-880`): the remaining
circuit (`none` for `None`) and the log-probability; the results stored in the units are kept for the caller. -/
noncomputable def conditionSimple (g : Circuit) (m : Mem LogP) (E : SimpleEvent) :
    Except PyErr (Option (Circuit × Mem LogP) × LogP) := do
  let r ← g.root
  let (g1, m1) ← (g.bottomUp r).foldlM (conditionUnit E) (g, m)
  let r1 ← g1.root
  let dead := (g1.bottomUp r1).filter (impossibleIn m1)
  if r1 ∈ dead then .ok (none, .negInf)
  else do
    let g2 := (g1.induced fun n => decide (n ∉ dead)).removeUnreachable r1
    let g3 ← g2.simplify
    let g4 ← g3.normalize
    let p ← readResult m1 r1
    .ok (some (g4, m1), p)

/-- `self.edges` of a `networkx.DiGraph`: for every node in order, its out-edges in order. -/
def edgeView (g : Graph D) : List Edge := g.ids.flatMap g.outEdges

/-- `ProbabilisticCircuit.__copy__` (`nx/probabilistic_circuit.py:1007-1017`): new units for all nodes, then
`unweighted_edges`, then `log_weighted_edges`.  `unweighted_edges` (`:1082-1095`) asks for the key `weight`, which no edge
has, so it lists *all* edges, and the second step only sets the log weights of those that have one.  The new units get the
identities `off + n`. -/
def copyAt (g : Graph D) (off : Nat) : Graph D :=
  { nodes := g.nodes.map fun p => (off + p.1, p.2)
    edges := g.edgeView.map fun e => ⟨off + e.src, off + e.dst, e.weight⟩ }

/-- `__copy__`; in a circuit of its own the new units may have the old numbers. -/
def copy (g : Graph D) : Graph D := g.copyAt 0

/-- `add_subcircuit(conditional.root, log_probability)` with `mount` (`nx/probabilistic_circuit.py:117-126, 381-397`) for
a sum unit `s` of `g` and the root of another circuit `h`: the units below that root (renumbered past those of `g`) and
an edge with the weight. -/
def mountBelow (g : Graph D) (s : Node) (h : Graph D) (r : Node) (w : LogP) : Graph D :=
  let h' := (h.removeUnreachable r).copyAt g.fresh
  { nodes := g.nodes ++ h'.nodes
    edges := g.edges ++ h'.edges ++ [⟨s, g.fresh + r, some w⟩] }

/-- The loop over the conditional circuits (`nx/probabilistic_circuit.py:922-923`): the circuit below the new sum unit `0`
and, for every child, its weight and the stored result of its root. -/
noncomputable def mountAll : List (Graph D × Mem LogP × LogP) → Graph D × List (LogP × Option LogP) →
    Except PyErr (Graph D × List (LogP × Option LogP))
  | [], acc => .ok acc
  | (h, m, w) :: l, acc => do
    let r ← h.root
    mountAll l (acc.1.mountBelow 0 h r w, acc.2 ++ [(w, m r)])

/-- The possible ones among the answers (`nx/probabilistic_circuit.py:909-911`). -/
def possible : List (Option (Graph D × Mem LogP) × LogP) → List (Graph D × Mem LogP × LogP)
  | [] => []
  | (some (g, m), p) :: l => if p.isNegInf then possible l else (g, m, p) :: possible l
  | (none, _) :: l => possible l

/-- `SumUnit.log_forward` of the new sum unit (`nx/probabilistic_circuit.py:403-406, 924`): the weight plus the stored
result of every child; a child without a result is a `TypeError`. -/
noncomputable def mixtureForward (l : List (LogP × Option LogP)) : Except PyErr LogP := do
  let vs ← l.mapM fun q => match q.2 with
    | some v => Except.ok (q.1 + v)
    | none => Except.error PyErr.typeError
  .ok (LogP.logsumexp vs)

/-- `ProbabilisticCircuit.log_conditional_in_place` (`nx/probabilistic_circuit.py:882-928`).  `random_events` keeps no empty
simple sets in an event, so an event is empty if it has no simple sets. -/
noncomputable def logConditionalInPlace (g : Circuit) (m : Mem LogP) (Es : Event) :
    Except PyErr (Option Circuit × LogP) :=
  match Es with
  | [] => .ok (none, .negInf)
  | [E] => do
    let (res, p) ← g.conditionSimple m E
    .ok (res.map Prod.fst, p)
  | Es => do
    let all ← Es.mapM fun E => g.copy.conditionSimple freshMem E
    match possible all with
    | [] => .ok (none, .negInf)
    | l => do
      let (g', cs) ← mountAll l (⟨[(0, .sum)], []⟩, [])
      let p ← mixtureForward cs
      let g'' ← g'.normalizeUnit 0
      .ok (some g'', p)

/-- `ProbabilisticCircuit.log_conditional` (`nx/probabilistic_circuit.py:930-932`). -/
noncomputable def logConditional (g : Circuit) (Es : Event) : Except PyErr (Option Circuit × LogP) :=
  g.copy.logConditionalInPlace freshMem Es

/-- `ProbabilisticModel.conditional` (`probabilistic_model.py:173-184`). -/
noncomputable def conditional (g : Circuit) (dom : Var → VSet) (Es : Event) : Except PyErr (Option Circuit × ℝ) :=
  match g.circuitVars with
  | .error e => .error e
  | .ok vs => do
    let (res, p) ← g.logConditional (Es.map (SimpleEvent.fillMissing dom (vs.sort (· ≤ ·))))
    .ok (res, p.exp)

end Graph
end PM
