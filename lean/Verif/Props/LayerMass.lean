import Verif.Jax.LayerMassMain
import Verif.Props.Layers

/-! # C71: layered circuits are normalized, whatever their parameters are -/

namespace PM.Props
open PM.Jax Spec LayerEx MeasureTheory

/-- **C71, the full statement**: for all parameters, the likelihoods computed for a node of a smooth and decomposable layered circuit over
the variables `0, …, k-1` have the integral one. -/
def C71_full : Prop :=
  ∀ (types : ℕ → VarType) (k : ℕ) (L : Layer) (i : ℕ), Regular L → SmoothLayer L → DecomposableLayer L → TypedInputs types L →
    i < L.numberOfNodes → (nodeScopes L).getD i ∅ = Finset.range k → mass types (Finset.range k) (computed L k i) = 1

/-- What a layered circuit describes is normalized, for every node. -/
theorem C71_described (types : ℕ → VarType) {L : Layer} (hR : Regular L) (hS : SmoothLayer L) (hD : DecomposableLayer L)
    (hT : TypedInputs types L) {i : ℕ} (hi : i < L.numberOfNodes) :
    mass types ((nodeScopes L).getD i ∅) (fun a => (layerValue a L).getD i 0) = 1 :=
  (layer_density L hR hS hD hT i hi).mass

/-- C71 for circuits whose nested products are over initial segments of the variables; missing: other circuits, for which the computed
likelihood is not what the circuit describes (C62). -/
theorem C71_normalized_partial (types : ℕ → VarType) {k : ℕ} {L : Layer} {i : ℕ} (hR : Regular L) (hS : SmoothLayer L)
    (hD : DecomposableLayer L) (hT : TypedInputs types L) (hi : i < L.numberOfNodes) (hs : (nodeScopes L).getD i ∅ = Finset.range k)
    (hA : Aligned k L) :
    mass types (Finset.range k) (computed L k i) = 1 ∧ ∀ a, ∃ out, L.logLikelihood ((List.range k).map a) = .ok out := by
  have hd := layer_density (types := types) L hR hS hD hT i hi
  have h1 : ∀ a : ℕ → ℝ, ∃ out, L.logLikelihood ((List.range k).map a) = .ok out ∧
      (out.getD i .negInf).exp = (layerValue a L).getD i 0 := by
    intro a
    obtain ⟨out, h1, h2⟩ := C62_aligned_partial L ((List.range k).map a) hR (by simpa using hA)
    refine ⟨out, h1, ?_⟩
    rw [exp_getD, h2]
    apply hd.dep
    intro v hv
    rw [hs, Finset.mem_range] at hv
    exact getD_range_map a hv 0
  have h2 : computed L k i = fun a => (layerValue a L).getD i 0 := by
    funext a
    obtain ⟨out, h3, h4⟩ := h1 a
    rw [computed, h3]
    exact h4
  refine ⟨?_, fun a => ?_⟩
  · rw [h2, ← hs]
    exact hd.mass
  · obtain ⟨out, h3, _⟩ := h1 a
    exact ⟨out, h3⟩

/-- An interval per variable; a product of two of the variables below a product. -/
noncomputable def nestedIntervals : Layer :=
  .product 1 [[(0, 0)], [(0, 0)]]
    [.input 0 [.uniform 0 1], .product 1 [[(0, 0)], [(0, 0)]] [.input 1 [.uniform 2 3], .input 2 [.uniform 4 5]]]

theorem regular_intervals : Regular nestedIntervals := by
  refine .product _ _ _ ?_ (.cons ?_ (.cons ?_ .nil))
  · intro c hc
    simp only [List.mem_cons, List.not_mem_nil, or_false] at hc
    rcases hc with rfl | rfl
    · exact .input _ _
    · refine .product _ _ _ ?_ (.cons ?_ (.cons ?_ .nil))
      · intro c hc
        simp only [List.mem_cons, List.not_mem_nil, or_false] at hc
        rcases hc with rfl | rfl <;> exact .input _ _
      · simp [Layer.numberOfNodes]
      · simp [Layer.numberOfNodes]
  · simp [Layer.numberOfNodes]
  · simp [Layer.numberOfNodes]

theorem smooth_intervals : SmoothLayer nestedIntervals := by
  refine .product _ _ _ ?_
  intro c hc
  simp only [List.mem_cons, List.not_mem_nil, or_false] at hc
  rcases hc with rfl | rfl
  · exact .input _ _
  · refine .product _ _ _ ?_
    intro c hc
    simp only [List.mem_cons, List.not_mem_nil, or_false] at hc
    rcases hc with rfl | rfl <;> exact .input _ _

theorem decomposable_intervals : DecomposableLayer nestedIntervals := by
  refine .product _ _ _ ?_ ?_
  · intro c hc
    simp only [List.mem_cons, List.not_mem_nil, or_false] at hc
    rcases hc with rfl | rfl
    · exact .input _ _
    · refine .product _ _ _ ?_ ?_
      · intro c hc
        simp only [List.mem_cons, List.not_mem_nil, or_false] at hc
        rcases hc with rfl | rfl <;> exact .input _ _
      · intro i hi
        obtain rfl : i = 0 := by omega
        decide
  · intro i hi
    obtain rfl : i = 0 := by omega
    decide

theorem typed_intervals : TypedInputs (fun _ => .real) nestedIntervals := by
  refine .product _ _ _ ?_
  intro c hc
  simp only [List.mem_cons, List.not_mem_nil, or_false] at hc
  rcases hc with rfl | rfl
  · exact .input _ _ (by simp [NodeFits])
  · refine .product _ _ _ ?_
    intro c hc
    simp only [List.mem_cons, List.not_mem_nil, or_false] at hc
    rcases hc with rfl | rfl <;> exact .input _ _ (by norm_num [NodeFits])

/-- C71 fails for nested product layers: the value of variable 2 is used for variable 1, too, and the likelihood is zero everywhere. -/
theorem C71_full_false : ¬ C71_full := by
  intro h
  have h1 := h (fun _ => .real) 3 nestedIntervals 0 regular_intervals smooth_intervals decomposable_intervals typed_intervals
    (by simp [nestedIntervals, Layer.numberOfNodes]) (by decide)
  have hu : uniqueSorted [1, 2] = [1, 2] := by decide
  have h2 : computed nestedIntervals 3 0 = fun _ => 0 := by
    funext a
    have hl : nestedIntervals.logLikelihood ((List.range 3).map a) = .ok [LogP.negInf] := by
      simp [nestedIntervals, Layer.logLikelihood, slicedLikelihoods, Layer.variables, allVariables, hu, gather,
        bind, Except.bind, productOut, productStep, InputNode.logDensity, List.range_succ]
      by_cases h4 : 4 < a 2 ∧ a 2 < 5
      · rw [if_neg (show ¬ (2 < a 2 ∧ a 2 < 3) from fun h => by linarith [h.2, h4.1])]
        simp
      · rw [if_neg h4]
        simp
    rw [computed, hl]
    rfl
  rw [h2] at h1
  simp [mass] at h1

/-- The hypotheses of `C71_normalized_partial` hold for a mixture of products of a normal distribution and a distribution over three states. -/
noncomputable def mixed : Layer :=
  .denseSum [[[.fin 0, .fin 1]]] [.product 2 [[(0, 0), (1, 1)], [(0, 1), (1, 0)]]
    [.input 0 [.gaussian 0 0 1, .gaussian 1 0 0], .input 1 [.discrete [.fin 0, .fin 1, .negInf], .discrete [.negInf, .negInf, .fin 3]]]]

example : mass (fun v => if v = 0 then .real else .states 3) (Finset.range 2) (computed mixed 2 0) = 1 := by
  refine (C71_normalized_partial _ ?_ ?_ ?_ ?_ (by simp [mixed, Layer.numberOfNodes]) (by decide) ?_).1
  · refine .denseSum _ _ 1 ?_ (by simp) (.cons ⟨rfl, by simp [Layer.numberOfNodes]⟩ .nil) ?_
    · intro c hc
      simp only [List.mem_singleton] at hc
      subst hc
      refine .product _ _ _ ?_ (.cons ?_ (.cons ?_ .nil))
      · intro c hc
        simp only [List.mem_cons, List.not_mem_nil, or_false] at hc
        rcases hc with rfl | rfl <;> exact .input _ _
      · simp [Layer.numberOfNodes]
      · simp [Layer.numberOfNodes]
    · intro i hi
      obtain rfl : i = 0 := by omega
      exact ⟨_, List.mem_singleton.2 rfl, .fin 0, by simp, by simp⟩
  · refine .denseSum _ _ ?_ (by decide)
    intro c hc
    simp only [List.mem_singleton] at hc
    subst hc
    refine .product _ _ _ ?_
    intro c hc
    simp only [List.mem_cons, List.not_mem_nil, or_false] at hc
    rcases hc with rfl | rfl <;> exact .input _ _
  · refine .denseSum _ _ ?_
    intro c hc
    simp only [List.mem_singleton] at hc
    subst hc
    refine .product _ _ _ ?_ (by decide)
    intro c hc
    simp only [List.mem_cons, List.not_mem_nil, or_false] at hc
    rcases hc with rfl | rfl <;> exact .input _ _
  · refine .denseSum _ _ ?_
    intro c hc
    simp only [List.mem_singleton] at hc
    subst hc
    refine .product _ _ _ ?_
    intro c hc
    simp only [List.mem_cons, List.not_mem_nil, or_false] at hc
    rcases hc with rfl | rfl <;> exact .input _ _ (by simp [NodeFits])
  · refine .denseSum _ _ _ ?_
    intro c hc
    simp only [List.mem_singleton] at hc
    subst hc
    have h : ∀ c ∈ [Layer.input 0 [.gaussian 0 0 1, .gaussian 1 0 0],
        .input 1 [.discrete [.fin 0, .fin 1, .negInf], .discrete [.negInf, .negInf, .fin 3]]], ∃ v < 2, OneVariable v c := by
      intro c hc
      simp only [List.mem_cons, List.not_mem_nil, or_false] at hc
      rcases hc with rfl | rfl
      · exact ⟨0, by omega, .input _⟩
      · exact ⟨1, by omega, .input _⟩
    exact .product _ _ _ _ (fun c hc hn => absurd (h c hc) hn) (fun c hc hn => absurd (h c hc) hn)

end PM.Props
