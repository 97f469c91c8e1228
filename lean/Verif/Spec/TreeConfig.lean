import Verif.Learn.ConfigFit

/-!
# Specification: the parameters of joint probability trees
-/

namespace PM.Spec

open Learn.Jpt

/-- Sensible arguments of `JPT(...)`: variables with different names; the targets, features and dependencies are among them, and no
feature is given twice. -/
structure Usable (a : InitArgs) : Prop where
  names : (a.vars.map TreeVar.name).Nodup
  targets : ∀ l, a.targets = some l → ∀ v ∈ l, v ∈ a.vars
  features : ∀ l, a.features = some l → l.Nodup ∧ ∀ v ∈ l, v ∈ a.vars
  dependencies : ∀ d, a.dependencies = some d → ∃ items, d = variableMap items ∧
    ∀ kv ∈ items, kv.1 ∈ a.vars ∧ ∀ w ∈ kv.2, w ∈ a.vars

/-- The indices of `columns` are those of the variables with the property `p`, in increasing order. -/
def PointsAt (vars : List TreeVar) (p : TreeVar → Prop) (columns : List ℕ) : Prop :=
  columns.Pairwise (· < ·) ∧ ∀ i, i ∈ columns ↔ ∃ v, vars[i]? = some v ∧ p v

end PM.Spec
