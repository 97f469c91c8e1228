import Verif.Circuit.Interaction

/-!
# `mount_from_bayesian_network`
-/

namespace PM.Graph

variable {D : Type}

/-- `np.log(own_weight)` where `own_weight` is already a logarithm (`nx/probabilistic_circuit.py:546`): NaN (`none`) for
negative numbers and `-inf`, `-inf` for `0`. -/
noncomputable def logOfLog : LogP → Option LogP
  | .negInf => none
  | .fin x => if x < 0 then none else some (LogP.log x)

/-- The body of the loop (`nx/probabilistic_circuit.py:540-548`): `p` is the new product unit, `c` the own and `x` the other
subcircuit, `w` the number under which the new edge is stored. -/
def joinPair (g h : Graph D) (u p c x : Node) (w : LogP) : Graph D :=
  let g := g.addNode p .prod
  let g := g.removeEdge u c
  let g := g.addSubcircuit g u p (some w)
  let g := g.addSubcircuit g p c none
  g.addSubcircuit (g.circuitOf h x) p x none

/-- One round of the loop (`nx/probabilistic_circuit.py:539-548`) for the own log weight `x.1.1.1`, the own subcircuit
`x.1.1.2`, the other subcircuit `x.1.2` and the number `x.2` of the round.  The new product unit gets the number `b + x.2`.
The second component says whether some weight stored so far is NaN; in the graph such a weight is written as `-inf`. -/
noncomputable def joinStep (h : Graph D) (u b : Node) (s : Graph D × Bool) (x : ((LogP × Node) × Node) × ℕ) :
    Graph D × Bool :=
  (s.1.joinPair h u (b + x.2) x.1.1.2 x.1.2 ((logOfLog x.1.1.1).getD .negInf), s.2 || (logOfLog x.1.1.1).isNone)

/-- `SumUnit.mount_from_bayesian_network` (`nx/probabilistic_circuit.py:526-548`): `u` is a sum unit of `g`, `o` a sum unit
of `h`; the result is the circuit of `u` afterwards and whether some weight of `u` is NaN. -/
noncomputable def mountFromNetwork (g h : Circuit) (u o : Node) : Except PyErr (Circuit × Bool) := do
  let vs ← g.varsOf (g.nodes.length + 1) u
  let ws ← h.varsOf (h.nodes.length + 1) o
  if Disjoint vs ws then
    if (g.succ u).length = (h.succ o).length then
      let lw ← g.logWeights u
      pure ((((lw.zip (g.succ u)).zip (h.succ o)).zipIdx).foldl (joinStep h u (max g.fresh h.fresh)) (g, false))
    else .error .assertionError
  else .error .assertionError

/-- `likelihood` of the circuit afterwards, if `u` is its root: `logsumexp` of numbers among which there is a NaN is NaN
(`none`) (`nx/probabilistic_circuit.py:403-406`). -/
noncomputable def likelihoodOrNan (r : Circuit × Bool) (m : Mem LogP) (x : Var → ℝ) : Except PyErr (Option ℝ) :=
  if r.2 then .ok none else (r.1.likelihood m x).map some

end PM.Graph
