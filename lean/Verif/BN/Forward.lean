import Verif.Dist.Discrete
import Verif.Dist.Conditional

/-!
# The forward pass of a Bayesian network of conditional probability tables

A symbol is its hash (an integer).  A network is listed in the order of `nx.bfs_tree(self, self.root)`
(`bayesian_network/bayesian_network.py:149-155`): the root has number `0`, the table at position `i` number `i + 1`, and every
parent comes before its children.  The mutable attributes `forward_message`, `forward_probability` of the nodes are the list of results
written so far.  Networks with `ConditionalProbabilisticCircuit` nodes are not part of this file.
-/

namespace PM.BN
open PM.Leaf (lookup normalizeProbs)

/-- `conditional_probability_distributions` (`bayesian_network/distributions.py:47-48`): a dictionary from the hash of the parent's state
to the probabilities of a `SymbolicDistribution`. -/
abbrev Table := Dict ℤ (List (ℤ × ℝ))

/-- A `ConditionalProbabilityTable` node with the number of its parent (`bayesian_network/distributions.py:42-56`,
`parent`: `bayesian_network.py:37-49`). -/
structure TableNode where
  parent : ℕ
  table : Table

/-- A rooted network: the `RootDistribution` and the tables in breadth first order. -/
structure Network where
  root : List (ℤ × ℝ)
  nodes : List TableNode

/-- What a node holds after its `forward_pass`: `forward_message` (`None` if impossible) and `forward_probability`. -/
abbrev Result := Option (List (ℤ × ℝ)) × ℝ

/-- `SymbolicDistribution.log_conditional_of_composite_set` followed by `np.exp` of the log probability
(`distributions/distributions.py:379-393`): the entries of the event with positive probability, in the order of the event. -/
noncomputable def conditionOn (probs : List (ℤ × ℝ)) (e : List ℤ) : Option (List (ℤ × ℝ)) × ℝ :=
  let kept := (e.filter fun k => 0 < lookup probs k).map fun k => (k, lookup probs k)
  if (kept.map Prod.snd).sum = 0 then (none, 0)
  else (some (normalizeProbs kept), (kept.map Prod.snd).sum)

/-- `RootDistribution.forward_pass` (`bayesian_network/distributions.py:25-27`). -/
noncomputable def rootForward (probs : List (ℤ × ℝ)) (e : List ℤ) : Result := conditionOn probs e

/-- The loop `for state, probability in conditional.probabilities.items(): probabilities[state] += …` (`:88-89`). -/
noncomputable def accumulate (probabilities conditional : List (ℤ × ℝ)) (p : ℝ) : List (ℤ × ℝ) :=
  conditional.foldl (fun acc kp => Dict.set acc kp.1 (lookup acc kp.1 + p * kp.2)) probabilities

/-- `self.conditional_probability_distributions[hash(parent_state)]`: `KeyError` if there is no such row. -/
def row (T : Table) (s : ℤ) : Except PyErr (List (ℤ × ℝ)) :=
  match T.find? fun p => decide (p.1 = s) with
  | some p => .ok p.2
  | none => .error .keyError

/-- The loop over the parent states (`:73-90`); the accumulator is (`probabilities`, `forward_probability`). -/
noncomputable def forwardLoop (T : Table) (message : List (ℤ × ℝ)) (e : List ℤ) :
    List ℤ → List (ℤ × ℝ) × ℝ → Except PyErr (List (ℤ × ℝ) × ℝ)
  | [], acc => .ok acc
  | s :: ss, acc =>
    if lookup message s = 0 then forwardLoop T message e ss acc
    else do
      let distribution ← row T s
      match conditionOn distribution e with
      | (none, _) => forwardLoop T message e ss acc
      | (some conditional, p) =>
        forwardLoop T message e ss
          (accumulate acc.1 conditional (lookup message s), acc.2 + lookup message s * p)

/-- `ConditionalProbabilityTable.forward_pass` (`:58-102`): the parent's message, the parent's and the own part of the event. -/
noncomputable def tableForward (T : Table) (message : Option (List (ℤ × ℝ))) (ep e : List ℤ) : Except PyErr Result :=
  match message with
  | none => .ok (none, 0)
  | some m => do
    let acc ← forwardLoop T m e ep ([], 0)
    if (acc.1.map Prod.snd).sum = 0 then .ok (none, acc.2)
    else .ok (some (normalizeProbs acc.1), acc.2)

/-- The remaining nodes of the pass; `results` are those of the nodes before. -/
noncomputable def passFrom (event : ℕ → List ℤ) : List TableNode → List Result → Except PyErr (List Result)
  | [], results => .ok results
  | nd :: nds, results => do
    match results[nd.parent]? with
    | none => .error .attributeError
    | some r =>
      let out ← tableForward nd.table r.1 (event nd.parent) (event results.length)
      passFrom event nds (results ++ [out])

/-- `BayesianNetwork.forward_pass` (`bayesian_network.py:149-155`); `event n` is the event of the variable of node `n`. -/
noncomputable def forwardPass (net : Network) (event : ℕ → List ℤ) : Except PyErr (List Result) :=
  passFrom event net.nodes [rootForward net.root (event 0)]

end PM.BN
