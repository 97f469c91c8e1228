import Verif.Spec.Evidence
import Verif.Circuit.Marginal
import Verif.Circuit.Json

/-!
# Specification: programs that change a model again and again
-/

namespace PM.Spec

/-- What a program can do with a model to get the next one. -/
inductive Op where
  /-- `conditional` on a simple event. -/
  | given (E : SimpleEvent)
  /-- `marginal` on a set of variables. -/
  | onto (W : Finset Var)
  /-- `simplify`, in place. -/
  | simplify
  /-- `normalize`, in place. -/
  | normalize
  /-- `copy.copy`. -/
  | copy
  /-- `to_json`, then `from_json` in a process whose first free identity is `base`. -/
  | reload (base : Nat)

/-- One call; `none` is Python's `None`. -/
noncomputable def Op.apply (dom : Var → VSet) (g : Circuit) : Op → Except PyErr (Option Circuit)
  | .given E => (g.conditional dom [E]).map Prod.fst
  | .onto W => g.copy.marginalInPlace W
  | .simplify => g.simplify.map some
  | .normalize => g.normalize.map some
  | .copy => .ok (some g.copy)
  | .reload base => (Graph.fromJson base g.toJson).map some

/-- The calls one after the other, each on the model that the one before returned; it ends with the first `None`. -/
noncomputable def history (dom : Var → VSet) (g : Circuit) : List Op → Except PyErr (Option Circuit)
  | [] => .ok (some g)
  | op :: ops => match op.apply dom g with
    | .error e => .error e
    | .ok none => .ok none
    | .ok (some g') => history dom g' ops

/-- The variables that are left of `V`. -/
def variablesAfter (V : Finset Var) : List Op → Finset Var
  | [] => V
  | .onto W :: ops => variablesAfter (V ∩ W) ops
  | _ :: ops => variablesAfter V ops

/-- All the evidence that was entered. -/
def observations : List Op → List SimpleEvent
  | [] => []
  | .given E :: ops => E :: observations ops
  | _ :: ops => observations ops

/-- Evidence is only entered about variables that are left. -/
def Sensible (g : Circuit) : Finset Var → List Op → Prop
  | _, [] => True
  | V, .given E :: ops => EvidenceFor g V E ∧ Sensible g V ops
  | V, .onto W :: ops => Sensible g (V ∩ W) ops
  | V, _ :: ops => Sensible g V ops

/-- What the simple event says about the variables in `V`. -/
def about (V : Finset Var) (E : SimpleEvent) : SimpleEvent := E.filter fun p => p.1 ∈ V

end PM.Spec
