import Verif.BN.Forward
import Verif.Circuit.DetSum
import Verif.Circuit.Interaction

/-!
# The circuit of a Bayesian network of conditional probability tables

The states of the variable of node `n` are the first `sizes n` numbers; the hash of a state (an `IntEnum` member) is the number itself.
The variable of node `n` has the number `n`.
-/

namespace PM.BN
open PM.Leaf (lookup)
open Graph

/-- The hashes of `variable.domain.simple_sets` for a variable with `k` states. -/
def states (k : ℕ) : List ℤ := (List.range k).map fun i : ℕ => (i : ℤ)

/-- The summands of `joint_distribution_with_parent` (`bayesian_network/distributions.py:138-156`): for every row of the table and
every entry of the row one product of a point mass on the parent's state and one on the own state, with the weight
`parent_log_probability + np.log(child_probability)`, here as a probability. -/
noncomputable def jointTerms (T : Table) (message : List (ℤ × ℝ)) : List (ℤ × ℤ × ℝ) :=
  T.flatMap fun r => r.2.map fun q => (r.1, q.1, lookup message r.1 * q.2)

/-- `interaction_term` (`bayesian_network/distributions.py:121-158, 164-169`), `np` and `nc` are the numbers of states of the parent's and the
own variable.  `KeyError` for states that are not in the domain; `AttributeError` for a parent state without mass, the leaf of which
has the distribution `None`; `IndexError` for a sum unit without children, when its variables are needed.  The circuit is represented by its
summands. -/
noncomputable def interactionTerm (T : Table) (message : List (ℤ × ℝ)) (np nc : ℕ) : Except PyErr (List (ℤ × ℤ × ℝ)) :=
  open Classical in
  if ∃ r ∈ T, r.1 ∉ states np ∨ ∃ q ∈ r.2, q.1 ∉ states nc then .error .keyError
  else if ∃ r ∈ T, r.2 ≠ [] ∧ ¬ 0 < lookup message r.1 then .error .attributeError
  else if jointTerms T message = [] then .error .indexError
  else .ok (jointTerms T message)

/-- `interaction_model.probability({own_latent: i})` (`nx/probabilistic_circuit.py:486-487`): the other latent variable, which has `m` states, is
filled with its domain.  The probability of a sum of products of point masses is the sum of the weights of the summands in the event (C04). -/
noncomputable def ownProbability (terms : List (ℤ × ℤ × ℝ)) (m i : ℕ) : ℝ :=
  ((terms.filter fun t => decide (t.1 = (i : ℤ) ∧ t.2.1 ∈ states m)).map fun t => t.2.2).sum

/-- `interaction_model.probability({own_latent: i, other_latent: j})` (`nx/probabilistic_circuit.py:510-511`). -/
noncomputable def bothProbability (terms : List (ℤ × ℤ × ℝ)) (i j : ℕ) : ℝ :=
  ((terms.filter fun t => decide (t.1 = (i : ℤ) ∧ t.2.1 = (j : ℤ))).map fun t => t.2.2).sum

/-- A sum unit and its circuit. -/
abbrev Part := Circuit × Node

/-- `UnivariateDiscreteLeaf(forward_message).as_deterministic_sum()` of node `n`
(`bayesian_network/distributions.py:160-162`, `bayesian_network.py:231-235`).  Leaf nodes are converted first and inner nodes when
they are needed; here all are converted first. -/
noncomputable def messagePart (r : Result) (n : ℕ) : Except PyErr Part :=
  match r.1 with
  | some m => (newUnit 0 (.leaf (.symbolic n m)) : Circuit).asDeterministicSum 0
  | none => .error .attributeError

/-- One round of the loop over the edges (`bayesian_network.py:223-245`), for the edge into node `i + 1`.  The units of the child's circuit
are other objects than those of the parent's: they get numbers past them. -/
noncomputable def mountChild (net : Network) (sizes : ℕ → ℕ) (results : List Result) (parts : List Part) (i : ℕ) :
    Except PyErr (List Part) :=
  match net.nodes[i]? with
  | none => .error .keyError
  | some nd => match results[nd.parent]?, parts[nd.parent]?, parts[i + 1]? with
    | some (some m, _), some (g, u), some (h, o) => do
      let terms ← interactionTerm nd.table m (sizes nd.parent) (sizes (i + 1))
      let g' ← mountWithInteraction g (h.copyAt g.fresh) u (g.fresh + o) (ownProbability terms (h.succ o).length)
        (bothProbability terms)
      .ok (parts.set nd.parent (g', u))
    | _, _, _ => .error .keyError

/-- `BayesianNetwork.as_probabilistic_circuit` (`bayesian_network.py:201-247`).  A network is a tree by construction (every table has one
parent).  The root of a network without tables is a leaf, and `RootDistribution` does not implement `forward_message_as_sum_unit`
(`bayesian_network.py:96-103`). -/
noncomputable def asProbabilisticCircuit (net : Network) (sizes : ℕ → ℕ) : Except PyErr Circuit := do
  let results ← forwardPass net fun n => states (sizes n)
  if net.nodes = [] then .error .notImplementedError
  else do
    let parts ← results.zipIdx.mapM fun q => messagePart q.1 q.2
    let parts ← (List.range net.nodes.length).reverse.foldlM (mountChild net sizes results) parts
    match parts with
    | [] => .error .keyError
    | p :: _ => .ok p.1

end PM.BN
