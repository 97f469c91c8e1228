import Verif.BN.Forward
import Verif.Dist.Multinomial

/-!
# A conditional probability table from a joint table
-/

namespace PM.BN

/-- The row of one parent state (`bayesian_network/distributions.py:192-199`): the joint table conditioned on the state, its marginal
on the own variable, the entries numbered `0, 1, …`.  An impossible state makes `conditional` `None`, and `None.marginal` an
`AttributeError`. -/
noncomputable def rowOfState (T : Multinomial) (parent child : SymVar) (state : ℤ) : Except PyErr (List (ℤ × ℝ)) := do
  let r ← T.conditional [[(parent.var, VSet.symbols [state])]]
  match r.1 with
  | none => throw .attributeError
  | some C => do
    let M ← C.marginal [child]
    return (List.range child.domain.length).map fun (k : ℕ) => ((k : ℤ), M.probs.get [k])

/-- The loop over the parent's states (`:191-201`); `int(parent_simple_set)` is taken to be the number by which the model identifies a
symbol. -/
noncomputable def fillRows (T : Multinomial) (parent child : SymVar) : List ℤ → Table → Except PyErr Table
  | [], d => .ok d
  | s :: ss, d => do
    let r ← rowOfState T parent child s
    fillRows T parent child ss (Dict.set d s r)

/-- `ConditionalProbabilityTable.from_multinomial_distribution` (`bayesian_network/distributions.py:176-203`) on a node with the
variable `child` and the rows `d`. -/
noncomputable def fromMultinomial (child : SymVar) (d : Table) (T : Multinomial) : Except PyErr Table :=
  match T.vars with
  | [u, w] =>
    if child = u ∨ child = w then
      let parent := if u ≠ child then u else w
      fillRows T parent child parent.domain d
    else .error .assertionError
  | _ => .error .assertionError

end PM.BN
