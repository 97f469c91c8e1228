import Verif.Circuit.Conditional
import Verif.Circuit.Support
import Verif.Circuit.Structure
import Verif.Circuit.Mount
import Verif.Dist.Discrete

/-!
# Discrete leaves as sum units and back
-/

namespace PM

open Classical

namespace Leaf

/-- `self.distribution.__class__(self.variable, MissingDict(float, {element: 1.}))` with the weight `np.log(probability)`, for
every entry of the dictionary (`nx/distributions/distributions.py:99-102`).  Only discrete distributions have a dictionary. -/
noncomputable def oneHots : Leaf → Option (List (Leaf × LogP))
  | symbolic v probs => some (probs.map fun kp => (symbolic v [(kp.1, 1)], LogP.log kp.2))
  | integer v probs => some (probs.map fun kp => (integer v [(kp.1, 1)], LogP.log kp.2))
  | _ => none

end Leaf

namespace Graph

/-- A new sum unit with new leaves takes the place of the leaf `n` (`nx/distributions/distributions.py:97-105`):
`SumUnit(circuit)`, `add_subcircuit(leaf, weight, mount=False)` for every entry, `connect_incoming_edges_to(result)` and
`remove_node(self)`.  All identities are new, so `add_node` and `add_edge` append. -/
noncomputable def replaceLeaf (g : Circuit) (n : Node) (ps : List (Leaf × LogP)) : Circuit :=
  let s := g.fresh
  let new := ps.zipIdx
  let g1 : Circuit :=
    { nodes := g.nodes ++ (s, .sum) :: new.map fun q => (s + 1 + q.2, .leaf q.1.1)
      edges := g.edges ++ new.map fun q => ⟨s, s + 1 + q.2, some q.1.2⟩ }
  (g1.connectIncoming n s).removeNode n

/-- `UnivariateDiscreteLeaf.as_deterministic_sum` (`nx/distributions/distributions.py:89-105`) on the unit `n`: the circuit
afterwards and the new sum unit.  Other units do not have the method. -/
noncomputable def asDeterministicSum (g : Circuit) (n : Node) : Except PyErr (Circuit × Node) :=
  match g.kind? n with
  | some (.leaf d) => match d.oneHots with
    | some ps => .ok (g.replaceLeaf n ps, g.fresh)
    | none => .error .attributeError
  | _ => .error .attributeError

/-- `event.simple_sets[0][variable].simple_sets` for an event over one variable that consists of finitely many values
(`nx/distributions/distributions.py:118`), as the sorted list of values.  `random_events` keeps such an event as one simple set
and that one as a sorted union of disjoint sets, which are then single values.  Supports with other values (not integral, or
intervals) are outside of this model. -/
noncomputable def valuesOf (E : Event) : Except PyErr (List ℤ) :=
  if h : ∃ F : Finset ℤ, ∀ x : ℝ, E.Mem (fun _ => x) ↔ ∃ k ∈ F, (k : ℝ) = x then
    if h.choose = ∅ then .error .indexError else .ok (h.choose.sort (· ≤ ·))
  else .error .notImplementedError

/-- The element `k` of the support as a set for its variable: a symbol, or a singleton interval. -/
def elementSet (sym : Bool) (k : ℤ) : VSet :=
  if sym then .symbols [k] else .interval [⟨((k : ℝ) : EReal), ((k : ℝ) : EReal), .closed, .closed⟩]

/-- The loop of `from_mixture` (`nx/distributions/distributions.py:118-123`).  The key is `hash(element)`; symbols are given by
their hash already, for a singleton interval it is `hash(element.lower)`. -/
noncomputable def mixtureLoop (g : Circuit) (v : Var) (sym : Bool) : List ℤ → Dict ℤ ℝ → Mem ℝ → Except PyErr (Dict ℤ ℝ)
  | [], d, _ => .ok d
  | k :: ks, d, m =>
    match g.probabilityOfSimpleEvent m [(v, elementSet sym k)] with
    | (_, .error e) => .error e
    | (m', .ok p) => mixtureLoop g v sym ks (d.set (if sym then k else pyHash k) p) m'

/-- `UnivariateDiscreteLeaf.from_mixture` (`nx/distributions/distributions.py:107-128`).  `sym` says which variables are symbolic;
the others are integers here. -/
noncomputable def fromMixture (g : Circuit) (sym : Var → Bool) (m : Mem Event) (m' : Mem ℝ) : Except PyErr Leaf := do
  let vs ← g.circuitVars
  match vs.sort (· ≤ ·) with
  | [v] => do
    let E ← (g.support m).2
    let ks ← valuesOf E
    let d ← g.mixtureLoop v (sym v) ks [] m'
    .ok (if sym v then .symbolic v d else .integer v d)
  | _ => .error .assertionError

/-- One discrete leaf in `replace_discrete_distribution_with_deterministic_sum` (`nx/probabilistic_circuit.py:1272-1280`):
`as_deterministic_sum`, then for every predecessor of the old leaf an `add_subcircuit` of the new unit (with the old weight, or
without if there is none) and `remove_edge`, then `remove_node`.  `predecessors` of a unit that is not in the graph raises
`NetworkXError`.  The circuit is changed in place, so it is returned with the error. -/
noncomputable def replaceDiscreteLeaf (g : Circuit) (n : Node) (ps : List (Leaf × LogP)) : Circuit × Except PyErr Unit :=
  let g' := g.replaceLeaf n ps
  if n ∈ g'.ids then
    (((g'.inEdges n).foldl (fun h e => (h.addSubcircuit h e.src g.fresh e.weight).removeEdge e.src n) g').removeNode n, .ok ())
  else (g', .error .networkXError)

/-- The loop of `replace_discrete_distribution_with_deterministic_sum` over the leaves found at the start
(`nx/probabilistic_circuit.py:1265-1280`). -/
noncomputable def replaceDiscreteLoop : List Node → Circuit → Circuit × Except PyErr Unit
  | [], g => (g, .ok ())
  | n :: ns, g => match g.kind? n with
    | some (.leaf d) => match d.oneHots with
      | some ps => match g.replaceDiscreteLeaf n ps with
        | (g', .ok _) => replaceDiscreteLoop ns g'
        | (g', .error e) => (g', .error e)
      | none => replaceDiscreteLoop ns g
    | _ => replaceDiscreteLoop ns g

/-- `ProbabilisticCircuit.replace_discrete_distribution_with_deterministic_sum` (`nx/probabilistic_circuit.py:1261-1280`). -/
noncomputable def replaceDiscrete (g : Circuit) : Circuit × Except PyErr Unit :=
  match g.root with
  | .error e => (g, .error e)
  | .ok r => replaceDiscreteLoop (g.leavesOf r) g

end Graph
end PM
