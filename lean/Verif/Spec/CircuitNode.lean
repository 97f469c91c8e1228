import Verif.BN.CircuitNode
import Verif.Spec.BN
import Verif.Spec.Integral
import Verif.Spec.Mounting
import Verif.Spec.Conditioning

/-!
# Specification: nodes with circuits as conditional distributions
-/

namespace PM.BN.Spec
open PM PM.Spec PM.BN PM.Graph MeasureTheory
open PM.Leaf (lookup)

/-- The conditional distribution of an entry: the units below its root. -/
def distribution (e : Entry) : Circuit := e.circuit.removeUnreachable e.root

/-- A circuit over the variables `own` with root `r`. -/
structure IsCircuit (g : Circuit) (r : Node) (own : Finset Var) : Prop where
  layered : Layered g r
  scope : ∃ sc, Scoped g sc ∧ Decomposable g sc ∧ sc r = own
  valid : ∀ n d, g.kind? n = some (.leaf d) → d.Valid

/-- The entries are conditional distributions over `own` given different states of the parent variable `v`; they share no units, and
units created later have numbers from `n` on. -/
structure GoodEntries (v : Var) (own : Finset Var) (n : Node) (entries : List Entry) : Prop where
  states : (entries.map Entry.state).Nodup
  root : ∀ e ∈ entries, e.circuit.WF ∧ e.root ∈ e.circuit.ids
  circuit : ∀ e ∈ entries, IsCircuit (distribution e) e.root own
  parent : v ∉ own
  old : ∀ e ∈ entries, ∀ k ∈ (distribution e).ids, k < n
  separate : entries.Pairwise fun e f => DisjointIds (distribution e) (distribution f)

/-- The event assigns the symbols `S` to the parent variable, and to the variables of the node sets of the right type that cut no single
points out of continuous leaves. -/
structure NodeEvent (v : Var) (S : List ℤ) (entries : List Entry) (E : SimpleEvent) : Prop where
  keys : E.keys.Nodup
  parent : (v, .symbols S) ∈ E
  nodup : S.Nodup
  own : ∀ e ∈ entries, ∀ k d, (distribution e).kind? k = some (.leaf d) →
    ∃ A, (d.var, A) ∈ E ∧ Fits d A ∧ A.Disjoint ∧ ProperOn d A

/-- `f` are the probabilities of the event in the conditional distributions. -/
def Answers (entries : List Entry) (E : SimpleEvent) (f : Entry → ℝ) : Prop :=
  ∀ e ∈ entries, ∃ P, CircuitValue (distribution e) (fun d => (leafLaw d).real (allowed E d.var)) P ∧ P e.root = f e

/-- The probability that the parent is in a state of `S` and the node in its part of the event. -/
noncomputable def jointAnswer (root : List (ℤ × ℝ)) (S : List ℤ) (entries : List Entry) (f : Entry → ℝ) : ℝ :=
  (entries.map fun e => if e.state ∈ S then lookup root e.state * f e else 0).sum

end PM.BN.Spec
