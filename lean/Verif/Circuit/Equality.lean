import Verif.Circuit.Query

/-!
# `==` between circuits and between distributions
-/

namespace PM

open Classical

/-- The class of the leaf unit that `leaf(distribution)` creates (`nx/helper.py:107-116`): by the type of the
variable. -/
inductive LeafClass where
  | continuous
  | discrete
  deriving DecidableEq

/-- `UnivariateContinuousLeaf` or `UnivariateDiscreteLeaf` (`nx/helper.py:107-116`). -/
def Leaf.unitClass : Leaf → LeafClass
  | uniform .. | dirac .. | gaussian .. | truncGaussian .. => .continuous
  | symbolic .. | integer .. => .discrete

/-- `dict.__eq__`: as many keys, and every key has the same value in the other one. -/
noncomputable def dictEq (p q : List (ℤ × ℝ)) : Bool :=
  decide (p.length = q.length ∧ ∀ kv ∈ p, (q.find? fun e => e.1 == kv.1).map Prod.snd = some kv.2)

/-- `distribution.__eq__`: uniform (`distributions/uniform.py:68-70`), Dirac (`distributions/distributions.py:576-578`),
discrete (`:257-260`), Gaussian (`distributions/gaussian.py:100-101`), truncated Gaussian (`:253-254`); all of them via
`UnivariateDistribution.__eq__` (`distributions/distributions.py:58-59`) compare the variables and the classes.
`GaussianDistribution == TruncatedGaussianDistribution` asks the subclass first, which answers `False`. -/
noncomputable def Leaf.eq : Leaf → Leaf → Bool
  | uniform v lo hi l r, uniform v' lo' hi' l' r' => decide (lo = lo' ∧ hi = hi' ∧ l = l' ∧ r = r' ∧ v = v')
  | dirac v loc cap, dirac v' loc' cap' => decide (v = v' ∧ loc = loc' ∧ cap = cap')
  | symbolic v p, symbolic v' p' => dictEq p p' && decide (v = v')
  | integer v p, integer v' p' => dictEq p p' && decide (v = v')
  | gaussian v μ σ, gaussian v' μ' σ' => decide (v = v' ∧ μ = μ' ∧ σ = σ')
  | truncGaussian v I μ σ, truncGaussian v' I' μ' σ' => decide (v = v' ∧ μ = μ' ∧ σ = σ' ∧ I = I')
  | _, _ => false

namespace Graph

/-- `list.__eq__`: lists of different length differ; otherwise the entries are compared from the left until a pair
differs. -/
def listEq {α : Type} (eq : α → α → Except PyErr Bool) : List α → List α → Except PyErr Bool
  | a :: as, b :: bs => do
    if as.length = bs.length then
      if ← eq a b then listEq eq as bs else pure false
    else pure false
  | [], [] => pure true
  | _, _ => pure false

/-- Comparing two entries `(log_weight, subcircuit)` of `log_weighted_subcircuits` (`nx/probabilistic_circuit.py:360-366`):
first the weights, then the units. -/
noncomputable def weightedEq (eq : Node → Node → Except PyErr Bool) (a b : LogP × Node) : Except PyErr Bool :=
  if a.1 = b.1 then eq a.2 b.2 else pure false

/-- `log_weighted_subcircuits` (`nx/probabilistic_circuit.py:360-366`). -/
def logWeightedSubcircuits {D : Type} (g : Graph D) (n : Node) : Except PyErr (List (LogP × Node)) := do
  let ws ← (g.outEdges n).mapM readWeight
  pure (ws.zip (g.succ n))

/-- `unit == other` of unit `n` of `g` and unit `m` of `h`: `Unit.__eq__` (`nx/probabilistic_circuit.py:152-153`) for
leaves, whose `subcircuits` are `[]` (`:230-232`), and product units; `SumUnit.__eq__` (`:446-447`).  Python's recursion
is bounded by `fuel`. -/
noncomputable def unitEq (g h : Circuit) : Nat → Node → Node → Except PyErr Bool
  | 0, _, _ => .error .recursionError
  | fuel + 1, n, m =>
    match g.kind? n, h.kind? m with
    | some (.leaf d), some (.leaf e) => .ok (decide (d.unitClass = e.unitClass))
    | some .prod, some .prod => listEq (unitEq g h fuel) (g.succ n) (h.succ m)
    | some .sum, some .sum => do
      let a ← g.logWeightedSubcircuits n
      let b ← h.logWeightedSubcircuits m
      listEq (weightedEq (unitEq g h fuel)) a b
    | some _, some _ => .ok false
    | _, _ => .error .networkXError

/-- `ProbabilisticCircuit.__eq__` (`nx/probabilistic_circuit.py:994-995`).  The recursion is as deep as the circuit. -/
noncomputable def eq (g h : Circuit) : Except PyErr Bool := do
  let r ← g.root
  let s ← h.root
  unitEq g h (g.nodes.length + 1) r s

end Graph
end PM
