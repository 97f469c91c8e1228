import Verif.Jax.CouplingLemmas
import Verif.Props.LayerMass
import Verif.Props.Indices

/-! # C89: coupling circuits are conditional distributions -/

namespace PM.Props
open PM.Jax Spec LayerEx MeasureTheory

/-- **C89, the full statement**: whatever the conditioner computes, the conditional likelihood of the circuit columns has the integral one
for every value of the conditioner columns. -/
def C89_full : Prop :=
  ∀ (types : ℕ → VarType) (c : Coupling) (k i : ℕ) (z : List ℝ) (x : (ℕ → ℝ) → List ℝ), Regular c.circuit → SmoothLayer c.circuit →
    DecomposableLayer c.circuit → TypedInputs types c.circuit → i < c.circuit.numberOfNodes →
    (nodeScopes c.circuit).getD i ∅ = Finset.range k → (c.conditioner z).length = numberOfParameters c.circuit.parameterLengths →
    (∀ y, RowOf c k z y (x y)) → mass types (Finset.range k) (fun y => conditionalLikelihood c i (x y)) = 1

mutual
theorem parameterCount : ∀ L : Layer, VectorParameters L → numberOfParameters L.parameterLengths = (parametersOf L).length
  | .input v nodes, h => by
    cases h with
    | input _ _ hn =>
      have h0 : nodes.any InputNode.isDiscrete = false := by
        rw [List.any_eq_false]
        intro f hf h2
        cases f <;> simp [InputNode.isDiscrete] at h2
        exact hn _ hf _ rfl
      have h1 : (nodes.filterMap locationOf).length = nodes.countP InputNode.isGaussian := by
        clear hn h0
        induction nodes with
        | nil => rfl
        | cons f nodes ih => cases f <;> simp [locationOf, InputNode.isGaussian, List.filterMap_cons, List.countP_cons, ih]
      have h2 : (nodes.filterMap logScaleOf).length = nodes.countP InputNode.isGaussian := by
        clear hn h0 h1
        induction nodes with
        | nil => rfl
        | cons f nodes ih => cases f <;> simp [logScaleOf, InputNode.isGaussian, List.filterMap_cons, List.countP_cons, ih]
      rw [parametersOf, List.length_append, h1, h2, Layer.parameterLengths, inputLengths, h0, if_neg (by simp)]
      by_cases h3 : nodes.any InputNode.isGaussian = true
      · rw [if_pos h3]
        simp [numberOfParameters]
      · rw [if_neg h3]
        have : nodes.countP InputNode.isGaussian = 0 := by
          rw [List.countP_eq_zero]
          intro f hf h4
          exact h3 (List.any_eq_true.2 ⟨f, hf, h4⟩)
        simp [numberOfParameters, this]
  | .sparseSum ws cs, h => by
    cases h with
    | sparseSum _ _ hc =>
      have := parameterCounts cs hc
      rw [numberOfParameters] at this
      rw [Layer.parameterLengths, parametersOf, numberOfParameters, List.sum_append, List.length_append, this]
      simp [List.length_flatMap]
  | .denseSum ws cs, h => by cases h
  | .product n es cs, h => by
    cases h with
    | product _ _ _ hc => exact parameterCounts cs hc
theorem parameterCounts : ∀ cs : List Layer, (∀ c ∈ cs, VectorParameters c) →
    numberOfParameters (childParameterLengths cs) = (parametersOfAll cs).length
  | [], _ => rfl
  | c :: cs, h => by
    have h1 := parameterCount c (h c (by simp))
    have h2 := parameterCounts cs fun x hx => h x (by simp [hx])
    rw [numberOfParameters] at h1 h2
    rw [childParameterLengths, parametersOfAll, numberOfParameters, List.sum_append, List.length_append, h1, h2]
end

/-- `create_circuit_from_parameters` keeps the structure and puts every parameter into its place, and no parameter is left over or used
twice. -/
theorem C89_assembled {L : Layer} (hL : VectorParameters L) {params : List ℝ} (hp : params.length = (parametersOf L).length) :
    ∃ L', createCircuit L params = .ok L' ∧ structureOf L' = structureOf L ∧ parametersOf L' = params.map LogP.fin := by
  obtain ⟨h1, h2⟩ := C49_slices L.parameterLengths params (by rw [parameterCount L hL, hp])
  obtain ⟨L', h3, h4, h5⟩ := setArrays_spec L hL (splitParameters L.parameterLengths params) [] h2
  rw [List.append_nil] at h3
  refine ⟨L', ?_, h4, by rw [h5, h1]⟩
  simp [createCircuit, h3, bind, Except.bind]

theorem gather_of {x : List ℝ} {cols : List ℕ} {z : List ℝ} (h : cols.map (fun j => x[j]?) = z.map some) : gather x 0 cols = z := by
  induction cols generalizing z with
  | nil =>
    cases z with
    | nil => rfl
    | cons _ _ => simp at h
  | cons j cols ih =>
    cases z with
    | nil => simp at h
    | cons a z =>
      simp only [List.map_cons, List.cons.injEq] at h
      have hj : j < x.length := (List.getElem?_eq_some_iff.1 h.1).1
      have h1 := ih h.2
      rw [gather] at h1 ⊢
      rw [List.map_cons, h1, Nat.min_eq_left (by omega), List.getD_eq_getElem?_getD, h.1]
      rfl

/-- The conditional log-likelihood of a row is the log-likelihood, at the values in the circuit columns, of the circuit that has the
structure of the template and the parameters computed from the values in the conditioner columns. -/
theorem C89_circuit {c : Coupling} (hL : VectorParameters c.circuit) {k : ℕ} {z : List ℝ} {y : ℕ → ℝ} {x : List ℝ}
    (hp : (c.conditioner z).length = (parametersOf c.circuit).length) (hx : RowOf c k z y x) :
    ∃ L', structureOf L' = structureOf c.circuit ∧ parametersOf L' = (c.conditioner z).map LogP.fin ∧
      c.conditionalLogLikelihood x = L'.logLikelihood ((List.range k).map y) := by
  obtain ⟨L', h1, h2, h3⟩ := C89_assembled hL hp
  refine ⟨L', h2, h3, ?_⟩
  rw [Coupling.conditionalLogLikelihood, gather_of hx.conditioner, h1,
    gather_of (z := (List.range k).map y) (by rw [hx.circuit, List.map_map]; rfl)]
  rfl

/-- C89 for circuits of sparse sum, product, uniform and Gaussian layers whose nested products are over initial segments of the variables;
missing: dense sum layers and discrete layers, for which `conditional_log_likelihood` raises an error, and other nestings, for which the
likelihood is wrong (C71). -/
theorem C89_conditional_partial (types : ℕ → VarType) {c : Coupling} {k i : ℕ} {z : List ℝ} {x : (ℕ → ℝ) → List ℝ}
    (hR : Regular c.circuit) (hS : SmoothLayer c.circuit) (hD : DecomposableLayer c.circuit) (hT : TypedInputs types c.circuit)
    (hi : i < c.circuit.numberOfNodes) (hs : (nodeScopes c.circuit).getD i ∅ = Finset.range k) (hA : Aligned k c.circuit)
    (hL : VectorParameters c.circuit) (hp : (c.conditioner z).length = (parametersOf c.circuit).length)
    (hx : ∀ y, RowOf c k z y (x y)) :
    mass types (Finset.range k) (fun y => conditionalLikelihood c i (x y)) = 1 ∧
      ∀ y, ∃ out, c.conditionalLogLikelihood (x y) = .ok out := by
  obtain ⟨L', h1, h2, h3⟩ := C89_assembled hL hp
  have he : ∀ y, c.conditionalLogLikelihood (x y) = L'.logLikelihood ((List.range k).map y) := by
    intro y
    rw [Coupling.conditionalLogLikelihood, gather_of (hx y).conditioner, h1,
      gather_of (z := (List.range k).map y) (by rw [(hx y).circuit, List.map_map]; rfl)]
    rfl
  have h4 := C71_normalized_partial types (k := k) (L := L') (i := i)
    (regular_of_structureOf (regular_structureOf hR) L' h2 (by
      rw [h3]
      intro p hp
      obtain ⟨q, _, rfl⟩ := List.mem_map.1 hp
      simp))
    (smooth_of_structureOf (smooth_structureOf hS) L' h2) (decomposable_of_structureOf (decomposable_structureOf hD) L' h2)
    (typed_of_structureOf (typed_structureOf hT) L' h2)
    (by rw [← numberOfNodes_structureOf, h2, numberOfNodes_structureOf]; exact hi)
    (by rw [← nodeScopes_structureOf, h2, nodeScopes_structureOf]; exact hs)
    (aligned_of_structureOf (aligned_structureOf hA) L' h2)
  refine ⟨?_, fun y => ?_⟩
  · rw [← h4.1]
    congr 1
    funext y
    unfold conditionalLikelihood computed
    rw [he]
    cases L'.logLikelihood ((List.range k).map y) <;> rfl
  · rw [he]
    exact h4.2 y

/-- A template over one variable: a mixture of two normal distributions, and the conditioner that shifts the first one by the value of the
first column. -/
noncomputable def shifted : Coupling where
  conditioner z := [z.getD 0 0, 1, 0, 0, 0, 1]
  conditionerColumns := [0]
  circuit := .sparseSum [⟨1, 2, [(0, 0, .fin 0), (0, 1, .fin 0)]⟩] [.input 0 [.gaussian 0 0 1, .gaussian 0 0 1]]
  circuitColumns := [1]

example (a : ℝ) : mass (fun _ => .real) (Finset.range 1) (fun y => conditionalLikelihood shifted 0 [a, y 0]) = 1 := by
  refine (C89_conditional_partial (z := [a]) _ ?_ ?_ ?_ ?_ (by simp [shifted, Layer.numberOfNodes]) (by simp only [shifted]; decide) ?_ ?_
    (by simp [shifted, parametersOf, parametersOfAll, locationOf, logScaleOf]) ?_).1
  · refine .sparseSum _ _ 1 ?_ (by simp) (.cons ⟨rfl, by simp [Layer.numberOfNodes]⟩ .nil) (by decide) ?_
    · intro c hc
      simp only [List.mem_singleton] at hc
      subst hc
      exact .input _ _
    · intro i hi
      obtain rfl : i = 0 := by omega
      exact ⟨_, List.mem_singleton.2 rfl, (0, 0, .fin 0), by simp, rfl, by simp⟩
  · refine .sparseSum _ _ ?_ (by decide)
    intro c hc
    simp only [List.mem_singleton] at hc
    subst hc
    exact .input _ _
  · refine .sparseSum _ _ ?_
    intro c hc
    simp only [List.mem_singleton] at hc
    subst hc
    exact .input _ _
  · refine .sparseSum _ _ ?_
    intro c hc
    simp only [List.mem_singleton] at hc
    subst hc
    exact .input _ _ (by simp [NodeFits])
  · exact .one _ (.sparseSum _ _ (by simp) (by
      intro c hc
      simp only [List.mem_singleton] at hc
      subst hc
      exact .input _))
  · refine .sparseSum _ _ ?_
    intro c hc
    simp only [List.mem_singleton] at hc
    subst hc
    exact .input _ _ (by simp)
  · intro y
    exact ⟨rfl, rfl⟩

/-- A template with a dense sum layer over two uniform distributions. -/
noncomputable def denseTemplate : Coupling where
  conditioner _ := [0]
  conditionerColumns := [0]
  circuit := .denseSum [[[.fin 0, .fin 0]]] [.input 0 [.uniform 0 1, .uniform 2 3]]
  circuitColumns := [1]

/-- C89 fails for dense sum layers: the number of parameters that is asked for is the number of rows, and no likelihood is computed. -/
theorem C89_full_false : ¬ C89_full := by
  intro h
  have h1 := h (fun _ => .real) denseTemplate 1 0 [0] (fun y => [0, y 0]) ?_ ?_ ?_ ?_ (by simp [denseTemplate, Layer.numberOfNodes])
    (by simp only [denseTemplate]; decide) (by simp only [denseTemplate]; decide) (fun y => ⟨rfl, rfl⟩)
  · have h2 : ∀ x, conditionalLikelihood denseTemplate 0 x = 0 := by
      intro x
      have : denseTemplate.conditionalLogLikelihood x = .error .valueError := by
        simp [Coupling.conditionalLogLikelihood, denseTemplate, createCircuit, Layer.setArrays, setChildArrays, setInput,
          InputNode.isDiscrete, InputNode.isGaussian, bind, Except.bind]
      rw [conditionalLikelihood, this]
    simp only [h2, mass, ENNReal.ofReal_zero, lintegral_zero] at h1
    exact zero_ne_one h1
  · refine .denseSum _ _ 1 ?_ (by simp) (.cons ⟨rfl, by simp [Layer.numberOfNodes]⟩ .nil) ?_
    · intro c hc
      simp only [List.mem_singleton] at hc
      subst hc
      exact .input _ _
    · intro i hi
      obtain rfl : i = 0 := by omega
      exact ⟨_, List.mem_singleton.2 rfl, .fin 0, by simp, by simp⟩
  · refine .denseSum _ _ ?_ (by decide)
    intro c hc
    simp only [List.mem_singleton] at hc
    subst hc
    exact .input _ _
  · refine .denseSum _ _ ?_
    intro c hc
    simp only [List.mem_singleton] at hc
    subst hc
    exact .input _ _
  · refine .denseSum _ _ ?_
    intro c hc
    simp only [List.mem_singleton] at hc
    subst hc
    exact .input _ _ (by norm_num [NodeFits])

end PM.Props
