import Verif.Learn.NygaObject
import Verif.Props.Refit
import Verif.Props.Copies

/-!
# C110: quantile distributions survive copies and JSON
-/

namespace PM.Props

open Graph Spec Learn Learn.Nyga

theorem fromJson_extend (base : Nat) (g : Circuit) (l : List (JKey × Json)) :
    Graph.fromJson base (extend g.toJson l) = Graph.fromJson base g.toJson := rfl

theorem object_json (o : Object) {v : Var} (hv : o.variable' = some v) (hw : o.circuit.WF)
    (hk : ∀ n d, o.circuit.kind? n = some (.leaf d) → d.KeysNodup) (base : Nat) :
    ∃ j, o.toJson = .ok j ∧ Object.fromJson base j = .ok { o with circuit := o.circuit.loaded base } := by
  refine ⟨_, by rw [Object.toJson, hv], ?_⟩
  have h1 : parametersFromJson (extend o.circuit.toJson [(.name "variable", .int v), (.name "min_samples_per_quantile", .int o.minSamples),
      (.name "min_likelihood_improvement", .num (o.minImprovement : ℝ))]) = .ok (.new (some v) o.minSamples o.minImprovement) := rfl
  unfold Object.fromJson
  rw [h1, fromJson_extend, fromJson_toJson hw hk base]
  show Except.ok _ = _
  rw [Object.new, hv]

/-- **C110**: a quantile distribution over a variable that is written to JSON and read again, has the same parameters and answers every
query in the same way. -/
theorem C110_json (o : Object) {v : Var} (hv : o.variable' = some v) (hw : o.circuit.WF)
    (hc : ∀ n d, o.circuit.kind? n = some (.leaf d) → ∀ w p, d ≠ .symbolic w p ∧ d ≠ .integer w p) (base : Nat) :
    ∃ j o', o.toJson = .ok j ∧ Object.fromJson base j = .ok o' ∧ o'.variable' = o.variable' ∧ o'.minSamples = o.minSamples ∧
      o'.minImprovement = o.minImprovement ∧ SameAnswers o.circuit o'.circuit := by
  obtain ⟨j, h1, h2⟩ := object_json o hv hw (fun n d hk => by
    cases d with
    | symbolic w p => exact absurd rfl (hc n _ hk w p).1
    | integer w p => exact absurd rfl (hc n _ hk w p).2
    | _ => trivial) base
  exact ⟨j, _, h1, h2, rfl, rfl, rfl, sameAnswers_of_renamed hw (loaded_renamed hw base)⟩

/-- A copy has the same parameters and answers every query in the same way. -/
theorem C110_copy (o : Object) (hw : o.circuit.WF) :
    o.copy.variable' = o.variable' ∧ o.copy.minSamples = o.minSamples ∧ o.copy.minImprovement = o.minImprovement ∧
      SameAnswers o.circuit o.copy.circuit :=
  ⟨rfl, rfl, rfl, (C20_copy hw 0).2⟩

/-- A distribution that was not fitted learns from all data exactly what its copy, its empty copy, and what was read back from its JSON
learn: the same circuit, or the same exception. -/
theorem C110_unfitted (v : Var) (minSamples : ℤ) (minImprovement : ℝ) (base : Nat) (cap : ℝ) (data : List ℝ) (weights : Option (List ℝ)) :
    ∃ j o', (Object.new (some v) minSamples minImprovement).toJson = .ok j ∧ Object.fromJson base j = .ok o' ∧
      o'.fit cap data weights = (Object.new (some v) minSamples minImprovement).fit cap data weights ∧
      (Object.new (some v) minSamples minImprovement).copy.fit cap data weights =
        (Object.new (some v) minSamples minImprovement).fit cap data weights := by
  obtain ⟨j, h1, h2⟩ := object_json (Object.new (some v) minSamples minImprovement) rfl
    ⟨by simp [Object.new, emptyCircuit, ids], by simp [Object.new, emptyCircuit], by simp [Object.new, emptyCircuit],
      by simp [Object.new, emptyCircuit]⟩ (fun n d hk => by simp [Object.new, emptyCircuit, kind?] at hk) base
  exact ⟨j, _, h1, h2, rfl, rfl⟩

/-- Learn, store, load: for all data with two different values and positive weights, the loaded distribution answers like the learned
one, and a distribution made by `empty_copy` of it learns the same again. -/
theorem C110_learned {P : Params} {data : List ℝ} {weights : Option (List ℝ)} (h : FitInput P data weights) (cap : ℝ) (base : Nat) :
    ∃ g j o', Nyga.fit P cap data weights = .ok g ∧
      (Object.new (some P.var) P.minSamples P.minImprovement).fit cap data weights = (⟨some P.var, P.minSamples, P.minImprovement, g⟩, .ok ()) ∧
      (⟨some P.var, P.minSamples, P.minImprovement, g⟩ : Object).toJson = .ok j ∧ Object.fromJson base j = .ok o' ∧
      SameAnswers g o'.circuit ∧ o'.emptyCopy.fit cap data weights = (⟨some P.var, P.minSamples, P.minImprovement, g⟩, .ok ()) := by
  obtain ⟨g, h1, h2, h3⟩ := C104_first_partial h cap
  have hfit : (Object.new (some P.var) P.minSamples P.minImprovement).fit cap data weights
      = (⟨some P.var, P.minSamples, P.minImprovement, g⟩, .ok ()) := by
    show (({ Object.new (some P.var) P.minSamples P.minImprovement with circuit := (Nyga.fitOn P cap data weights emptyCircuit).1 } : Object),
      (Nyga.fitOn P cap data weights emptyCircuit).2) = _
    rw [h1]
    rfl
  obtain ⟨E, e1, e2, _⟩ := h.result cap
  rw [h2] at e1
  have hleaf : ∀ n d, g.kind? n = some (.leaf d) → ∀ w p, d ≠ .symbolic w p ∧ d ≠ .integer w p := by
    intro n d hk
    rw [Except.ok.inj e1] at hk
    obtain ⟨x, hx, _, rfl⟩ := e2.of_leaf hk
    obtain ⟨y, _, rfl⟩ := List.mem_map.1 hx
    exact fun w p => ⟨by simp [entry, quantile], by simp [entry, quantile]⟩
  obtain ⟨j, o', j1, j2, j3, j4, j5, j6⟩ := C110_json ⟨some P.var, P.minSamples, P.minImprovement, g⟩ rfl h3.wf hleaf base
  refine ⟨g, j, o', h2, hfit, j1, j2, j6, ?_⟩
  rw [Object.emptyCopy, j3, j4, j5]
  exact hfit

/-- A distribution without a variable cannot be written to JSON. -/
theorem C110_no_variable (o : Object) (h : o.variable' = none) : o.toJson = .error .attributeError := by
  rw [Object.toJson, h]

example := C110_learned (P := ⟨0, 1, 0⟩) (data := [2, 1]) (weights := some [3, 1]) fitInput_example 1 5

end PM.Props
