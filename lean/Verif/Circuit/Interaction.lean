import Verif.Circuit.Mount
import Verif.Circuit.Query

/-!
# `mount_with_interaction_terms`

The interaction model is given by its answers: `pc i` is the probability that the own latent variable is `i`, `pq i j`
the probability that it is `i` and the other latent variable is `j`.
-/

namespace PM.Graph

variable {D : Type}

/-- The circuit a unit belongs to (`Unit.probabilistic_circuit`): the circuit it was added to last
(`ProbabilisticCircuit.add_node`, `nx/probabilistic_circuit.py:776-782`).  The units of `h` that were mounted to `g` lie
in both graphs and belong to `g`. -/
def circuitOf (g h : Graph D) (n : Node) : Graph D := if n ∈ g.ids then g else h

/-- One round of the inner loop (`nx/probabilistic_circuit.py:506-523`) for the other subcircuit `x.1` with index
`x.2`; `s` is the proxy sum unit. -/
noncomputable def linkOther (h : Graph D) (s : Node) (pc : ℝ) (pq : ℕ → ℝ) (g : Graph D) (x : Node × ℕ) : Graph D :=
  if pq x.2 = 0 then g else g.addSubcircuit (g.circuitOf h x.1) s x.1 (some (LogP.log (pq x.2 / pc)))

/-- One round of the outer loop (`nx/probabilistic_circuit.py:482-524`) for the own subcircuit `x.1` with index `x.2`.
The new product and sum units get the numbers `b + 2 * i` and `b + 2 * i + 1`. -/
noncomputable def weaveStep (h : Graph D) (u b : Node) (others : List Node) (pc : ℕ → ℝ) (pq : ℕ → ℕ → ℝ) (g : Graph D)
    (x : Node × ℕ) : Except PyErr (Graph D) :=
  if pc x.2 = 0 then .ok g
  else
    let p := b + 2 * x.2
    let s := b + 2 * x.2 + 1
    let g := (g.addNode p .prod).addNode s .sum
    let g := g.removeEdge u x.1
    let g := g.addSubcircuit g u p (some (LogP.log (pc x.2)))
    let g := g.addSubcircuit g p x.1 none
    let g := g.addSubcircuit g p s none
    (others.zipIdx.foldl (linkOther h s (pc x.2) (pq x.2)) g).normalizeUnit s

/-- `SumUnit.mount_with_interaction_terms` (`nx/probabilistic_circuit.py:457-524`): `u` is a sum unit of `g`, `o` a sum
unit of `h`; the result is the circuit of `u` afterwards.  The assertion on the variables of the interaction model
(`:472`) is not modelled, the model is given by its answers. -/
noncomputable def mountWithInteraction (g h : Circuit) (u o : Node) (pc : ℕ → ℝ) (pq : ℕ → ℕ → ℝ) :
    Except PyErr Circuit := do
  let vs ← g.varsOf (g.nodes.length + 1) u
  let ws ← h.varsOf (h.nodes.length + 1) o
  if Disjoint vs ws then
    (g.succ u).zipIdx.foldlM (weaveStep h u (max g.fresh h.fresh) (h.succ o) pc pq) g
  else .error .assertionError

end PM.Graph
