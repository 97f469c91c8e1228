import Mathlib.Data.List.Sections
import Verif.BN.Forward

/-!
# What the forward pass of a Bayesian network should compute

Joint probabilities as explicit sums over the states of a node and its ancestors.
-/

namespace PM.BN.Spec
open PM PM.BN
open PM.Leaf (lookup)

/-- The conditional probability of state `t` given the parent's state `s`; `0` without an entry. -/
noncomputable def given (T : Table) (s t : ℤ) : ℝ :=
  match T.find? fun p => decide (p.1 = s) with
  | some p => lookup p.2 t
  | none => 0

/-- The ancestors of a node, itself first and the root last: their numbers and the tables on the way. -/
inductive Lineage (net : Network) : ℕ → List Table → List ℕ → Prop
  | root : Lineage net 0 [] [0]
  | child {i : ℕ} {nd : TableNode} {Ts : List Table} {ns : List ℕ} :
      net.nodes[i]? = some nd → Lineage net nd.parent Ts ns → Lineage net (i + 1) (nd.table :: Ts) ((i + 1) :: ns)

/-- The probability of the states of a node and its ancestors, listed like a lineage: the product of the root's probability and the
conditional probabilities. -/
noncomputable def pathProb (root : List (ℤ × ℝ)) : List Table → List ℤ → ℝ
  | [], [s] => lookup root s
  | T :: Ts, t :: s :: ss => given T s t * pathProb root Ts (s :: ss)
  | _, _ => 0

/-- The joint probability that the node and all its ancestors lie in their parts of the event. -/
noncomputable def evidenceProb (root : List (ℤ × ℝ)) (Ts : List Table) (es : List (List ℤ)) : ℝ :=
  ((List.sections es).map (pathProb root Ts)).sum

/-- The joint probability that the node is in state `t` and all its ancestors lie in their parts of the event. -/
noncomputable def stateProb (root : List (ℤ × ℝ)) (Ts : List Table) (t : ℤ) (es : List (List ℤ)) : ℝ :=
  ((List.sections es).map fun ss => pathProb root Ts (t :: ss)).sum

/-- Probabilities of states: distinct and nonnegative. -/
def IsMass (probs : List (ℤ × ℝ)) : Prop := (probs.map Prod.fst).Nodup ∧ ∀ kp ∈ probs, 0 ≤ kp.2

/-- A network of probability tables in which parents come first. -/
structure Valid (net : Network) : Prop where
  root : IsMass net.root
  rows : ∀ nd ∈ net.nodes, ∀ r ∈ nd.table, IsMass r.2
  order : ∀ (i : ℕ) (nd : TableNode), net.nodes[i]? = some nd → nd.parent ≤ i

/-- Probabilities sum to one. -/
structure Stochastic (net : Network) : Prop where
  root : (net.root.map Prod.snd).sum = 1
  rows : ∀ nd ∈ net.nodes, ∀ r ∈ nd.table, (r.2.map Prod.snd).sum = 1

/-- Every table has a row for every state of its parent that the event allows; the event lists no state twice. -/
structure Covers (net : Network) (event : ℕ → List ℤ) : Prop where
  nodup : ∀ n, (event n).Nodup
  rows : ∀ nd ∈ net.nodes, ∀ s ∈ event nd.parent, s ∈ nd.table.map Prod.fst

/-- The evidence `e` of a node does not discriminate between the parent states `ep`: it is equally likely (and not impossible) given
each of them.  In particular this holds for trivial evidence. -/
def Unselective (T : Table) (ep e : List ℤ) : Prop :=
  ∃ c : ℝ, 0 < c ∧ ∀ s ∈ ep, (e.map (given T s)).sum = c

/-- The evidence at every node of a lineage but the root is unselective. -/
def AllUnselective (event : ℕ → List ℤ) : List Table → List ℕ → Prop
  | T :: Ts, n :: p :: ns => Unselective T (event p) (event n) ∧ AllUnselective event Ts (p :: ns)
  | _, _ => True

/-- `r` is right for a node with the given lineage: `forward_probability` is the conditional probability of the node's evidence given the
evidence at its ancestors (for the root: its probability). -/
def RightProbability (root : List (ℤ × ℝ)) (event : ℕ → List ℤ) (Ts : List Table) : List ℕ → Result → Prop
  | [n], r => r.2 = evidenceProb root Ts [event n]
  | n :: ns, r => evidenceProb root Ts.tail (ns.map event) ≠ 0 →
      r.2 = evidenceProb root Ts ((n :: ns).map event) / evidenceProb root Ts.tail (ns.map event)
  | [], _ => False

/-- `r` is right for a node with the given lineage: `forward_message` is the distribution of the node's state given the evidence at the node
and its ancestors, `None` if that evidence is impossible. -/
def RightMessage (root : List (ℤ × ℝ)) (event : ℕ → List ℤ) (Ts : List Table) : List ℕ → Result → Prop
  | n :: ns, r =>
    (evidenceProb root Ts ((n :: ns).map event) = 0 → r.1 = none) ∧
    (evidenceProb root Ts ((n :: ns).map event) ≠ 0 → ∃ d, r.1 = some d ∧ ∀ t, lookup d t =
      if t ∈ event n then stateProb root Ts t (ns.map event) / evidenceProb root Ts ((n :: ns).map event) else 0)
  | [], _ => False

/-- The joint probability of an assignment of states to all nodes: the product of the root's probability and all conditional
probabilities. -/
noncomputable def jointProb (net : Network) (x : ℕ → ℤ) : ℝ :=
  lookup net.root (x 0) * (net.nodes.zipIdx.map fun q => given q.1.table (x q.1.parent) (x (q.2 + 1))).prod

/-- Node `n` has the states `0, …, sizes n - 1`; tables and rows mention only states, and no parent state twice. -/
structure Domains (net : Network) (sizes : ℕ → ℕ) : Prop where
  pos : ∀ n, 0 < sizes n
  root : ∀ t ∈ net.root.map Prod.fst, 0 ≤ t ∧ t < sizes 0
  keys : ∀ nd ∈ net.nodes, (nd.table.map Prod.fst).Nodup
  parents : ∀ nd ∈ net.nodes, ∀ s, s ∈ nd.table.map Prod.fst ↔ 0 ≤ s ∧ s < sizes nd.parent
  rows : ∀ (i : ℕ) nd, net.nodes[i]? = some nd → ∀ r ∈ nd.table, ∀ t ∈ r.2.map Prod.fst, 0 ≤ t ∧ t < sizes (i + 1)

/-- Every state of every node has a positive probability. -/
structure AllPossible (net : Network) (sizes : ℕ → ℕ) : Prop where
  root : ∀ t : ℕ, t < sizes 0 → 0 < lookup net.root t
  rows : ∀ (i : ℕ) nd, net.nodes[i]? = some nd → ∀ t : ℕ, t < sizes (i + 1) → ∃ s : ℕ, s < sizes nd.parent ∧ 0 < given nd.table s t

/-- Under the first state of the parent every state of a node has a positive probability. -/
structure FirstRowFull (net : Network) (sizes : ℕ → ℕ) : Prop where
  root : ∀ t : ℕ, t < sizes 0 → 0 < lookup net.root t
  rows : ∀ (i : ℕ) nd, net.nodes[i]? = some nd → ∀ t : ℕ, t < sizes (i + 1) → 0 < given nd.table 0 t

end PM.BN.Spec
