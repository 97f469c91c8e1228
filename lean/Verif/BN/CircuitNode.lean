import Verif.BN.Forward
import Verif.Circuit.Mount

/-!
# Bayesian network nodes whose conditional distributions are circuits

`ConditionalProbabilisticCircuit` (`bayesian_network/distributions.py:206-289`).  Units are objects and have numbers; `mount` puts the
*same* units into another circuit and changes the attribute `probabilistic_circuit` of each of them.  So the node holds, for every
parent state, the root unit of the conditional distribution and the circuit that unit currently belongs to.  The graph in
`conditional_probability_distributions` itself is only used to find the root, and it never changes.  What an exception leaves behind is
not modelled.
-/

namespace PM.BN
open Graph

/-- An entry of `conditional_probability_distributions` (`bayesian_network/distributions.py:211`): the hash of the parent's state, the
root unit of the distribution, and `root.probabilistic_circuit`. -/
structure Entry where
  state : ℤ
  root : Node
  circuit : Circuit

/-- The product unit of one parent state (`bayesian_network/distributions.py:249-251`): the new unit `n` with the new leaf `n + 1` for the
state of the parent and the root unit of the conditional distribution.  `v` is the variable of the parent. -/
noncomputable def entryProduct (v : Var) (n : Node) (probs : List (ℤ × ℝ)) (e : Entry) : Circuit :=
  (newUnit n .prod).addAll n [(newUnit (n + 1) (.leaf (.symbolic v probs)), n + 1, none), (e.circuit, e.root, none)]

/-- The loop over the parent states (`bayesian_network/distributions.py:240-253`) with the message of the parent: the arguments of the
calls of `result.add_subcircuit`.  States without probability are skipped (`:246-247`).  `nx.descendants` in `mount`
(`nx/probabilistic_circuit.py:123`) raises if the root is no longer in its circuit.  New units get the numbers from `n` on.  The states are
taken to be in the domain of the parent's variable (`:242`). -/
noncomputable def jointParts (v : Var) (message : List (ℤ × ℝ)) : Node → List Entry → Except PyErr (List (Circuit × Node × Option LogP))
  | _, [] => .ok []
  | n, e :: es =>
    match conditionOn message [e.state] with
    | (none, _) => jointParts v message n es
    | (some probs, p) =>
      if e.root ∈ e.circuit.ids then do
        let rest ← jointParts v message (n + 2) es
        .ok ((entryProduct v n probs e, n, some (LogP.log p)) :: rest)
      else .error .networkXError

/-- `ConditionalProbabilisticCircuit.joint_distribution_with_parent` (`bayesian_network/distributions.py:235-255`): the circuit of the
new sum unit `n`. -/
noncomputable def jointWithParent (v : Var) (entries : List Entry) (message : List (ℤ × ℝ)) (n : Node) : Except PyErr Circuit := do
  let parts ← jointParts v message (n + 1) entries
  .ok ((newUnit n .sum).addAll n parts)

/-- The entries after `mount`: the units of the distributions that were mounted now belong to the circuit `g`
(`nx/probabilistic_circuit.py:776-782`). -/
noncomputable def remount (message : List (ℤ × ℝ)) (g : Circuit) (entries : List Entry) : List Entry :=
  entries.map fun e => match conditionOn message [e.state] with
    | (none, _) => e
    | (some _, _) => { e with circuit := g }

/-- `ConditionalProbabilisticCircuit.forward_pass` (`bayesian_network/distributions.py:228-233`): the entries afterwards,
`forward_probability` and `forward_message`.  `m` are the results that earlier queries left in the units.  A parent without message and an
impossible event are `AttributeError`s (`None` has no such methods); `None.root` likewise. -/
noncomputable def circuitForward (v : Var) (own : Finset Var) (entries : List Entry) (message : Option (List (ℤ × ℝ))) (n : Node)
    (m : Mem LogP) (E : SimpleEvent) : Except PyErr (List Entry × ℝ × Circuit) :=
  match message with
  | none => .error .attributeError
  | some message => do
    let g ← jointWithParent v entries message n
    match ← g.conditionSimple m E with
    | (none, _) => .error .attributeError
    | (some (g', _), p) =>
      match ← g'.copy.marginalInPlace own with
      | none => .error .attributeError
      | some g'' => .ok (remount message g' entries, p.exp, g'')

end PM.BN
