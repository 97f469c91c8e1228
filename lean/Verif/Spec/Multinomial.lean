import Verif.Dist.Multinomial
import Mathlib.Algebra.BigOperators.Finprod

/-!
# Specification: probability tables

A cell of a table is a tuple with one index per axis.  Sums over cells are Mathlib's `∑ᶠ`, independent of the model's
enumeration of the cells.
-/

namespace PM.Spec

/-- The tuple has one index per axis, each within the size of the axis. -/
def IsCell (shape i : List ℕ) : Prop := List.Forall₂ (· < ·) i shape

/-- The sum of the entries of the cells in `A`. -/
noncomputable def cellMass (a : NdArray) (A : Set (List ℕ)) : ℝ := ∑ᶠ i ∈ {i | IsCell a.shape i ∧ i ∈ A}, a.get i

/-- A table of non-negative numbers, not all zero, over distinct variables; it need not be normalized. -/
structure Table (T : Multinomial) : Prop where
  vars : (T.vars.map SymVar.var).Nodup
  domains : ∀ v ∈ T.vars, v.domain.Nodup
  shape : T.probs.shape = T.vars.map fun v => v.domain.length
  nonneg : ∀ i, IsCell T.probs.shape i → 0 ≤ T.probs.get i
  pos : 0 < cellMass T.probs Set.univ

/-- The cell `i` gives every variable that the simple event constrains a symbol of the event. -/
def CellIn (T : Multinomial) (E : SimpleEvent) (i : List ℕ) : Prop :=
  ∀ vk ∈ T.vars.zip i, ∀ p ∈ E, p.1 = vk.1.var → p.2.Mem (vk.1.domain.getD vk.2 0)

/-- A simple event over (some of) the variables of the table: a dictionary of sets of symbols of the domains. -/
structure TableEvent (T : Multinomial) (E : SimpleEvent) : Prop where
  keys : (E.map Prod.fst).Nodup
  symbols : ∀ v ∈ T.vars, ∀ A, (v.var, A) ∈ E → ∃ S : List ℤ, A = .symbols S ∧ S.Nodup ∧ ∀ k ∈ S, k ∈ v.domain

/-- The simple events of an event are disjoint. -/
def DisjointEvents (T : Multinomial) (E : List SimpleEvent) : Prop :=
  E.Pairwise fun e e' => ∀ i, IsCell T.probs.shape i → ¬ (CellIn T e i ∧ CellIn T e' i)

end PM.Spec
