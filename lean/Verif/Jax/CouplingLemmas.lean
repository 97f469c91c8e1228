import Verif.Jax.Coupling
import Verif.Spec.Coupling

/-! # Lemmas on coupling circuits: the assembled circuit has the structure of the template and the given parameters -/

namespace PM.Jax
open PM.Spec

theorem structuresOf_eq : ∀ cs : List Layer, structuresOf cs = cs.map structureOf
  | [] => rfl
  | c :: cs => by rw [structuresOf, structuresOf_eq cs]; rfl

theorem parametersOfAll_eq : ∀ cs : List Layer, parametersOfAll cs = cs.flatMap parametersOf
  | [] => rfl
  | c :: cs => by rw [parametersOfAll, parametersOfAll_eq cs]; rfl

theorem numberOfNodes_structureOf (L : Layer) : (structureOf L).numberOfNodes = L.numberOfNodes := by
  cases L with
  | input v nodes => simp [structureOf, Layer.numberOfNodes]
  | sparseSum ws cs => cases ws <;> simp [structureOf, Layer.numberOfNodes, blankMatrix]
  | denseSum ws cs => cases ws <;> simp [structureOf, Layer.numberOfNodes]
  | product n es cs => simp [structureOf, Layer.numberOfNodes]

mutual
theorem variables_structureOf : ∀ L : Layer, (structureOf L).variables = L.variables
  | .input v nodes => by simp [structureOf, Layer.variables]
  | .sparseSum ws cs => by simp only [structureOf, Layer.variables]; exact firstVariables_structuresOf cs
  | .denseSum ws cs => by simp only [structureOf, Layer.variables]; exact firstVariables_structuresOf cs
  | .product n es cs => by simp only [structureOf, Layer.variables]; rw [allVariables_structuresOf cs]
theorem firstVariables_structuresOf : ∀ cs : List Layer, firstVariables (structuresOf cs) = firstVariables cs
  | [] => rfl
  | c :: cs => by simp only [structuresOf, firstVariables]; exact variables_structureOf c
theorem allVariables_structuresOf : ∀ cs : List Layer, allVariables (structuresOf cs) = allVariables cs
  | [] => rfl
  | c :: cs => by simp only [structuresOf, allVariables]; rw [variables_structureOf c, allVariables_structuresOf cs]
end

mutual
theorem nodeScopes_structureOf : ∀ L : Layer, nodeScopes (structureOf L) = nodeScopes L
  | .input v nodes => by simp only [structureOf, nodeScopes, List.map_map]; rfl
  | .sparseSum ws cs => by
    have h1 := numberOfNodes_structureOf (.sparseSum ws cs)
    rw [structureOf] at h1
    rw [structureOf, nodeScopes, nodeScopes, h1, layerScopes_structuresOf cs]
    refine List.map_congr_left fun i _ => ?_
    congr 1
    rw [List.zip_map_left, List.flatMap_map]
    congr 1
    funext p
    simp only [Prod.map_fst, Prod.map_snd, id_eq, blankMatrix, List.filter_map, List.map_map]
    rfl
  | .denseSum ws cs => by
    have h1 := numberOfNodes_structureOf (.denseSum ws cs)
    rw [structureOf] at h1
    rw [structureOf, nodeScopes, nodeScopes, h1, layerScopes_structuresOf cs]
  | .product n es cs => by
    rw [structureOf, nodeScopes, nodeScopes, layerScopes_structuresOf cs]
theorem layerScopes_structuresOf : ∀ cs : List Layer, layerScopes (structuresOf cs) = layerScopes cs
  | [] => rfl
  | c :: cs => by rw [structuresOf, layerScopes, layerScopes, nodeScopes_structureOf c, layerScopes_structuresOf cs]
end

/-! ## Properties of the structure -/

theorem regular_structureOf {L : Layer} (h : Regular L) : Regular (structureOf L) := by
  induction h with
  | input v nodes => exact .input _ _
  | sparseSum ws cs n children nonempty shapes indices weights ih =>
    rw [structureOf, structuresOf_eq]
    refine .sparseSum _ _ n ?_ (by simpa using nonempty) ?_ ?_ ?_
    · intro c hc
      obtain ⟨c', h1, rfl⟩ := List.mem_map.1 hc
      exact ih c' h1
    · rw [List.forall₂_map_left_iff, List.forall₂_map_right_iff]
      exact shapes.imp fun w c h => by simpa [blankMatrix, numberOfNodes_structureOf] using h
    · intro w hw e he
      obtain ⟨w', h1, rfl⟩ := List.mem_map.1 hw
      obtain ⟨e', h2, rfl⟩ := List.mem_map.1 he
      exact indices w' h1 e' h2
    · intro i hi
      obtain ⟨w, h1, e, h2, h3, h4⟩ := weights i hi
      exact ⟨_, List.mem_map.2 ⟨w, h1, rfl⟩, _, List.mem_map.2 ⟨e, h2, rfl⟩, h3, by simp⟩
  | denseSum ws cs n children nonempty shapes weights ih =>
    rw [structureOf, structuresOf_eq]
    refine .denseSum _ _ n ?_ nonempty ?_ weights
    · intro c hc
      obtain ⟨c', h1, rfl⟩ := List.mem_map.1 hc
      exact ih c' h1
    · rw [List.forall₂_map_right_iff]
      exact shapes.imp fun w c h => by simpa [numberOfNodes_structureOf] using h
  | product n es cs children indices ih =>
    rw [structureOf, structuresOf_eq]
    refine .product n es _ ?_ ?_
    · intro c hc
      obtain ⟨c', h1, rfl⟩ := List.mem_map.1 hc
      exact ih c' h1
    · rw [List.forall₂_map_right_iff]
      exact indices.imp fun w c h => by simpa [numberOfNodes_structureOf] using h

theorem regular_of_structureOf {M : Layer} (h : Regular M) : ∀ L : Layer, structureOf L = M →
    (∀ p ∈ parametersOf L, p ≠ LogP.negInf) → Regular L := by
  induction h with
  | input v nodes =>
    intro L h1 _
    cases L <;> simp [structureOf] at h1
    exact .input _ _
  | sparseSum ws cs n children nonempty shapes indices weights ih =>
    intro L h1 h2
    cases L with
    | sparseSum ws' cs' =>
      simp only [structureOf, structuresOf_eq, Layer.sparseSum.injEq] at h1
      obtain ⟨rfl, rfl⟩ := h1
      simp only [parametersOf, parametersOfAll_eq, List.mem_append, List.mem_flatMap, List.mem_map] at h2
      refine .sparseSum _ _ n ?_ (by simpa using nonempty) ?_ ?_ ?_
      · intro c hc
        exact ih _ (List.mem_map.2 ⟨c, hc, rfl⟩) c rfl fun p hp => h2 p (.inl ⟨c, hc, hp⟩)
      · rw [List.forall₂_map_left_iff, List.forall₂_map_right_iff] at shapes
        exact shapes.imp fun w c h => by simpa [blankMatrix, numberOfNodes_structureOf] using h
      · intro w hw e he
        exact indices _ (List.mem_map.2 ⟨w, hw, rfl⟩) (e.1, e.2.1, LogP.fin 0) (List.mem_map.2 ⟨e, he, rfl⟩)
      · intro i hi
        obtain ⟨w, h3, e, h4, h5, h6⟩ := weights i hi
        obtain ⟨w', h7, rfl⟩ := List.mem_map.1 h3
        obtain ⟨e', h8, rfl⟩ := List.mem_map.1 h4
        exact ⟨w', h7, e', h8, h5, h2 _ (.inr ⟨w', h7, e', h8, rfl⟩)⟩
    | _ => simp [structureOf] at h1
  | denseSum ws cs n children nonempty shapes weights ih =>
    intro L h1 h2
    cases L with
    | denseSum ws' cs' =>
      simp only [structureOf, structuresOf_eq, Layer.denseSum.injEq] at h1
      obtain ⟨rfl, rfl⟩ := h1
      simp only [parametersOf, parametersOfAll_eq, List.mem_flatMap] at h2
      refine .denseSum _ _ n ?_ nonempty ?_ weights
      · intro c hc
        exact ih _ (List.mem_map.2 ⟨c, hc, rfl⟩) c rfl fun p hp => h2 p ⟨c, hc, hp⟩
      · rw [List.forall₂_map_right_iff] at shapes
        exact shapes.imp fun w c h => by simpa [numberOfNodes_structureOf] using h
    | _ => simp [structureOf] at h1
  | product n es cs children indices ih =>
    intro L h1 h2
    cases L with
    | product n' es' cs' =>
      simp only [structureOf, structuresOf_eq, Layer.product.injEq] at h1
      obtain ⟨rfl, rfl, rfl⟩ := h1
      simp only [parametersOf, parametersOfAll_eq, List.mem_flatMap] at h2
      refine .product _ _ _ ?_ ?_
      · intro c hc
        exact ih _ (List.mem_map.2 ⟨c, hc, rfl⟩) c rfl fun p hp => h2 p ⟨c, hc, hp⟩
      · rw [List.forall₂_map_right_iff] at indices
        exact indices.imp fun w c h => by simpa [numberOfNodes_structureOf] using h
    | _ => simp [structureOf] at h1

theorem smooth_structureOf {L : Layer} (h : SmoothLayer L) : SmoothLayer (structureOf L) := by
  induction h with
  | input v nodes => exact .input _ _
  | sparseSum ws cs children same ih =>
    have hs := nodeScopes_structureOf (.sparseSum ws cs)
    rw [structureOf] at hs ⊢
    refine .sparseSum _ _ ?_ ?_
    · rw [structuresOf_eq]
      intro c hc
      obtain ⟨c', h1, rfl⟩ := List.mem_map.1 hc
      exact ih c' h1
    · rw [hs, layerScopes_structuresOf, List.zip_map_left]
      intro p hp e he
      obtain ⟨p', h1, rfl⟩ := List.mem_map.1 hp
      obtain ⟨e', h2, rfl⟩ := List.mem_map.1 he
      exact same p' h1 e' h2
  | denseSum ws cs children same ih =>
    have hs := nodeScopes_structureOf (.denseSum ws cs)
    rw [structureOf] at hs ⊢
    refine .denseSum _ _ ?_ ?_
    · rw [structuresOf_eq]
      intro c hc
      obtain ⟨c', h1, rfl⟩ := List.mem_map.1 hc
      exact ih c' h1
    · rw [hs, layerScopes_structuresOf]
      exact same
  | product n es cs children ih =>
    rw [structureOf, structuresOf_eq]
    refine .product _ _ _ ?_
    intro c hc
    obtain ⟨c', h1, rfl⟩ := List.mem_map.1 hc
    exact ih c' h1

theorem smooth_of_structureOf {M : Layer} (h : SmoothLayer M) : ∀ L : Layer, structureOf L = M → SmoothLayer L := by
  induction h with
  | input v nodes =>
    intro L h1
    cases L <;> simp [structureOf] at h1
    exact .input _ _
  | sparseSum ws cs children same ih =>
    intro L h1
    cases L with
    | sparseSum ws' cs' =>
      have hs := nodeScopes_structureOf (.sparseSum ws' cs')
      simp only [structureOf, Layer.sparseSum.injEq] at h1 hs
      obtain ⟨rfl, rfl⟩ := h1
      refine .sparseSum _ _ ?_ ?_
      · intro c hc
        exact ih _ (by rw [structuresOf_eq]; exact List.mem_map.2 ⟨c, hc, rfl⟩) c rfl
      · rw [hs, layerScopes_structuresOf, List.zip_map_left] at same
        intro p hp e he
        exact same _ (List.mem_map.2 ⟨p, hp, rfl⟩) (e.1, e.2.1, LogP.fin 0) (List.mem_map.2 ⟨e, he, rfl⟩)
    | _ => simp [structureOf] at h1
  | denseSum ws cs children same ih =>
    intro L h1
    cases L with
    | denseSum ws' cs' =>
      have hs := nodeScopes_structureOf (.denseSum ws' cs')
      simp only [structureOf, Layer.denseSum.injEq] at h1 hs
      obtain ⟨rfl, rfl⟩ := h1
      refine .denseSum _ _ ?_ ?_
      · intro c hc
        exact ih _ (by rw [structuresOf_eq]; exact List.mem_map.2 ⟨c, hc, rfl⟩) c rfl
      · rw [hs, layerScopes_structuresOf] at same
        exact same
    | _ => simp [structureOf] at h1
  | product n es cs children ih =>
    intro L h1
    cases L with
    | product n' es' cs' =>
      simp only [structureOf, Layer.product.injEq] at h1
      obtain ⟨rfl, rfl, rfl⟩ := h1
      refine .product _ _ _ ?_
      intro c hc
      exact ih _ (by rw [structuresOf_eq]; exact List.mem_map.2 ⟨c, hc, rfl⟩) c rfl
    | _ => simp [structureOf] at h1

theorem decomposable_structureOf {L : Layer} (h : DecomposableLayer L) : DecomposableLayer (structureOf L) := by
  induction h with
  | input v nodes => exact .input _ _
  | sparseSum ws cs children ih =>
    rw [structureOf, structuresOf_eq]
    refine .sparseSum _ _ ?_
    intro c hc
    obtain ⟨c', h1, rfl⟩ := List.mem_map.1 hc
    exact ih c' h1
  | denseSum ws cs children ih =>
    rw [structureOf, structuresOf_eq]
    refine .denseSum _ _ ?_
    intro c hc
    obtain ⟨c', h1, rfl⟩ := List.mem_map.1 hc
    exact ih c' h1
  | product n es cs children disjoint ih =>
    rw [structureOf]
    refine .product _ _ _ ?_ (by rw [layerScopes_structuresOf]; exact disjoint)
    rw [structuresOf_eq]
    intro c hc
    obtain ⟨c', h1, rfl⟩ := List.mem_map.1 hc
    exact ih c' h1

theorem decomposable_of_structureOf {M : Layer} (h : DecomposableLayer M) : ∀ L : Layer, structureOf L = M → DecomposableLayer L := by
  induction h with
  | input v nodes =>
    intro L h1
    cases L <;> simp [structureOf] at h1
    exact .input _ _
  | sparseSum ws cs children ih =>
    intro L h1
    cases L with
    | sparseSum ws' cs' =>
      simp only [structureOf, Layer.sparseSum.injEq] at h1
      obtain ⟨rfl, rfl⟩ := h1
      exact .sparseSum _ _ fun c hc => ih _ (by rw [structuresOf_eq]; exact List.mem_map.2 ⟨c, hc, rfl⟩) c rfl
    | _ => simp [structureOf] at h1
  | denseSum ws cs children ih =>
    intro L h1
    cases L with
    | denseSum ws' cs' =>
      simp only [structureOf, Layer.denseSum.injEq] at h1
      obtain ⟨rfl, rfl⟩ := h1
      exact .denseSum _ _ fun c hc => ih _ (by rw [structuresOf_eq]; exact List.mem_map.2 ⟨c, hc, rfl⟩) c rfl
    | _ => simp [structureOf] at h1
  | product n es cs children disjoint ih =>
    intro L h1
    cases L with
    | product n' es' cs' =>
      simp only [structureOf, Layer.product.injEq] at h1
      obtain ⟨rfl, rfl, rfl⟩ := h1
      refine .product _ _ _ (fun c hc => ih _ (by rw [structuresOf_eq]; exact List.mem_map.2 ⟨c, hc, rfl⟩) c rfl) ?_
      rw [layerScopes_structuresOf] at disjoint
      exact disjoint
    | _ => simp [structureOf] at h1

theorem nodeFits_blankNode (t : VarType) (f : InputNode) : NodeFits t (blankNode f) ↔ NodeFits t f := by
  cases f <;> cases t <;> simp [blankNode, NodeFits]

theorem typed_structureOf {types : ℕ → VarType} {L : Layer} (h : TypedInputs types L) : TypedInputs types (structureOf L) := by
  induction h with
  | input v nodes fits =>
    refine .input _ _ fun f hf => ?_
    obtain ⟨f', h1, rfl⟩ := List.mem_map.1 hf
    exact (nodeFits_blankNode _ _).2 (fits f' h1)
  | sparseSum ws cs children ih =>
    rw [structureOf, structuresOf_eq]
    refine .sparseSum _ _ fun c hc => ?_
    obtain ⟨c', h1, rfl⟩ := List.mem_map.1 hc
    exact ih c' h1
  | denseSum ws cs children ih =>
    rw [structureOf, structuresOf_eq]
    refine .denseSum _ _ fun c hc => ?_
    obtain ⟨c', h1, rfl⟩ := List.mem_map.1 hc
    exact ih c' h1
  | product n es cs children ih =>
    rw [structureOf, structuresOf_eq]
    refine .product _ _ _ fun c hc => ?_
    obtain ⟨c', h1, rfl⟩ := List.mem_map.1 hc
    exact ih c' h1

theorem typed_of_structureOf {types : ℕ → VarType} {M : Layer} (h : TypedInputs types M) :
    ∀ L : Layer, structureOf L = M → TypedInputs types L := by
  induction h with
  | input v nodes fits =>
    intro L h1
    cases L with
    | input v' nodes' =>
      simp only [structureOf, Layer.input.injEq] at h1
      obtain ⟨rfl, rfl⟩ := h1
      exact .input _ _ fun f hf => (nodeFits_blankNode _ _).1 (fits _ (List.mem_map.2 ⟨f, hf, rfl⟩))
    | _ => simp [structureOf] at h1
  | sparseSum ws cs children ih =>
    intro L h1
    cases L with
    | sparseSum ws' cs' =>
      simp only [structureOf, Layer.sparseSum.injEq] at h1
      obtain ⟨rfl, rfl⟩ := h1
      exact .sparseSum _ _ fun c hc => ih _ (by rw [structuresOf_eq]; exact List.mem_map.2 ⟨c, hc, rfl⟩) c rfl
    | _ => simp [structureOf] at h1
  | denseSum ws cs children ih =>
    intro L h1
    cases L with
    | denseSum ws' cs' =>
      simp only [structureOf, Layer.denseSum.injEq] at h1
      obtain ⟨rfl, rfl⟩ := h1
      exact .denseSum _ _ fun c hc => ih _ (by rw [structuresOf_eq]; exact List.mem_map.2 ⟨c, hc, rfl⟩) c rfl
    | _ => simp [structureOf] at h1
  | product n es cs children ih =>
    intro L h1
    cases L with
    | product n' es' cs' =>
      simp only [structureOf, Layer.product.injEq] at h1
      obtain ⟨rfl, rfl, rfl⟩ := h1
      exact .product _ _ _ fun c hc => ih _ (by rw [structuresOf_eq]; exact List.mem_map.2 ⟨c, hc, rfl⟩) c rfl
    | _ => simp [structureOf] at h1

theorem oneVariable_structureOf {v : ℕ} {L : Layer} (h : OneVariable v L) : OneVariable v (structureOf L) := by
  induction h with
  | input nodes => exact .input _
  | sparseSum ws cs nonempty children ih =>
    rw [structureOf, structuresOf_eq]
    refine .sparseSum _ _ (by simpa using nonempty) fun c hc => ?_
    obtain ⟨c', h1, rfl⟩ := List.mem_map.1 hc
    exact ih c' h1
  | denseSum ws cs nonempty children ih =>
    rw [structureOf, structuresOf_eq]
    refine .denseSum _ _ (by simpa using nonempty) fun c hc => ?_
    obtain ⟨c', h1, rfl⟩ := List.mem_map.1 hc
    exact ih c' h1

theorem oneVariable_of_structureOf {v : ℕ} {M : Layer} (h : OneVariable v M) : ∀ L : Layer, structureOf L = M → OneVariable v L := by
  induction h with
  | input nodes =>
    intro L h1
    cases L with
    | input v' nodes' =>
      simp only [structureOf, Layer.input.injEq] at h1
      obtain ⟨rfl, rfl⟩ := h1
      exact .input _
    | _ => simp [structureOf] at h1
  | sparseSum ws cs nonempty children ih =>
    intro L h1
    cases L with
    | sparseSum ws' cs' =>
      simp only [structureOf, Layer.sparseSum.injEq, structuresOf_eq] at h1
      obtain ⟨rfl, rfl⟩ := h1
      exact .sparseSum _ _ (by simpa using nonempty) fun c hc => ih _ (List.mem_map.2 ⟨c, hc, rfl⟩) c rfl
    | _ => simp [structureOf] at h1
  | denseSum ws cs nonempty children ih =>
    intro L h1
    cases L with
    | denseSum ws' cs' =>
      simp only [structureOf, Layer.denseSum.injEq, structuresOf_eq] at h1
      obtain ⟨rfl, rfl⟩ := h1
      exact .denseSum _ _ (by simpa using nonempty) fun c hc => ih _ (List.mem_map.2 ⟨c, hc, rfl⟩) c rfl
    | _ => simp [structureOf] at h1

theorem oneVariable_iff (v : ℕ) (L : Layer) : OneVariable v (structureOf L) ↔ OneVariable v L :=
  ⟨fun h => oneVariable_of_structureOf h L rfl, oneVariable_structureOf⟩

theorem aligned_structureOf {k : ℕ} {L : Layer} (h : Aligned k L) : Aligned k (structureOf L) := by
  induction h with
  | one c h => exact .one _ (oneVariable_structureOf h)
  | sparseSum k ws cs children ih =>
    rw [structureOf, structuresOf_eq]
    refine .sparseSum _ _ _ fun c hc => ?_
    obtain ⟨c', h1, rfl⟩ := List.mem_map.1 hc
    exact ih c' h1
  | denseSum k ws cs children ih =>
    rw [structureOf, structuresOf_eq]
    refine .denseSum _ _ _ fun c hc => ?_
    obtain ⟨c', h1, rfl⟩ := List.mem_map.1 hc
    exact ih c' h1
  | product k n es cs initial children ih =>
    rw [structureOf, structuresOf_eq]
    refine .product _ _ _ _ (fun c hc => ?_) fun c hc => ?_
    · obtain ⟨c', h1, rfl⟩ := List.mem_map.1 hc
      simpa only [oneVariable_iff, variables_structureOf] using initial c' h1
    · obtain ⟨c', h1, rfl⟩ := List.mem_map.1 hc
      simpa only [oneVariable_iff, variables_structureOf] using ih c' h1

theorem aligned_of_structureOf {k : ℕ} {M : Layer} (h : Aligned k M) : ∀ L : Layer, structureOf L = M → Aligned k L := by
  induction h with
  | one c h => exact fun L h1 => .one _ (oneVariable_of_structureOf h L h1)
  | sparseSum k ws cs children ih =>
    intro L h1
    cases L with
    | sparseSum ws' cs' =>
      simp only [structureOf, Layer.sparseSum.injEq, structuresOf_eq] at h1
      obtain ⟨rfl, rfl⟩ := h1
      exact .sparseSum _ _ _ fun c hc => ih _ (List.mem_map.2 ⟨c, hc, rfl⟩) c rfl
    | _ => simp [structureOf] at h1
  | denseSum k ws cs children ih =>
    intro L h1
    cases L with
    | denseSum ws' cs' =>
      simp only [structureOf, Layer.denseSum.injEq, structuresOf_eq] at h1
      obtain ⟨rfl, rfl⟩ := h1
      exact .denseSum _ _ _ fun c hc => ih _ (List.mem_map.2 ⟨c, hc, rfl⟩) c rfl
    | _ => simp [structureOf] at h1
  | product k n es cs initial children ih =>
    intro L h1
    cases L with
    | product n' es' cs' =>
      simp only [structureOf, Layer.product.injEq, structuresOf_eq] at h1
      obtain ⟨rfl, rfl, rfl⟩ := h1
      refine .product _ _ _ _ (fun c hc => ?_) fun c hc h2 => ?_
      · simpa only [oneVariable_iff, variables_structureOf] using initial _ (List.mem_map.2 ⟨c, hc, rfl⟩)
      · have := ih _ (List.mem_map.2 ⟨c, hc, rfl⟩) (by simpa only [oneVariable_iff] using h2) c rfl
        simpa only [variables_structureOf] using this
    | _ => simp [structureOf] at h1

/-! ## Assembling -/

theorem setGaussians_spec : ∀ (nodes : List InputNode) (locs scales : List ℝ), locs.length = nodes.countP InputNode.isGaussian →
    scales.length = nodes.countP InputNode.isGaussian →
    (setGaussians nodes locs scales).map blankNode = nodes.map blankNode ∧
      (setGaussians nodes locs scales).filterMap locationOf = locs.map LogP.fin ∧
      (setGaussians nodes locs scales).filterMap logScaleOf = scales.map LogP.fin
  | [], locs, scales, h1, h2 => by
    simp only [List.countP_nil, List.length_eq_zero_iff] at h1 h2
    subst h1 h2
    simp [setGaussians]
  | .gaussian l s m :: nodes, locs, scales, h1, h2 => by
    rw [List.countP_cons_of_pos (by rfl)] at h1 h2
    obtain ⟨a, locs, rfl⟩ := List.exists_cons_of_length_eq_add_one h1
    obtain ⟨b, scales, rfl⟩ := List.exists_cons_of_length_eq_add_one h2
    have ih := setGaussians_spec nodes locs scales (by simpa using h1) (by simpa using h2)
    simp [setGaussians, blankNode, locationOf, logScaleOf, ih]
  | .uniform a b :: nodes, locs, scales, h1, h2 => by
    have ih := setGaussians_spec nodes locs scales (by simpa [InputNode.isGaussian] using h1) (by simpa [InputNode.isGaussian] using h2)
    simp [setGaussians, blankNode, locationOf, logScaleOf, ih, List.filterMap_cons]
  | .dirac a b :: nodes, locs, scales, h1, h2 => by
    have ih := setGaussians_spec nodes locs scales (by simpa [InputNode.isGaussian] using h1) (by simpa [InputNode.isGaussian] using h2)
    simp [setGaussians, blankNode, locationOf, logScaleOf, ih, List.filterMap_cons]
  | .discrete a :: nodes, locs, scales, h1, h2 => by
    have ih := setGaussians_spec nodes locs scales (by simpa [InputNode.isGaussian] using h1) (by simpa [InputNode.isGaussian] using h2)
    simp [setGaussians, blankNode, locationOf, logScaleOf, ih, List.filterMap_cons]

theorem setValues_spec (w : Coo) (values : List ℝ) (h : values.length = w.entries.length) :
    blankMatrix (w.setValues values) = blankMatrix w ∧ (w.setValues values).entries.map (fun e => e.2.2) = values.map LogP.fin := by
  obtain ⟨rows, cols, entries⟩ := w
  simp only [Coo.setValues, blankMatrix, Coo.mk.injEq, true_and] at h ⊢
  induction entries generalizing values with
  | nil =>
    simp only [List.length_nil, List.length_eq_zero_iff] at h
    simp [h]
  | cons e entries ih =>
    obtain ⟨v, values, rfl⟩ := List.exists_cons_of_length_eq_add_one h
    have := ih values (by simpa using h)
    simp [this]

theorem setWeights_spec : ∀ (ws : List Coo) (front rest : List (List ℝ)), front.map List.length = ws.map (fun w => w.entries.length) →
    ∃ ws', setWeights ws (front ++ rest) = (ws', rest) ∧ ws'.map blankMatrix = ws.map blankMatrix ∧
      (ws'.flatMap fun w => w.entries.map fun e => e.2.2) = front.flatten.map LogP.fin
  | [], front, rest, h => by
    simp only [List.map_nil, List.map_eq_nil_iff] at h
    subst h
    exact ⟨[], rfl, rfl, rfl⟩
  | w :: ws, front, rest, h => by
    cases front with
    | nil => simp at h
    | cons f front =>
      simp only [List.map_cons, List.cons.injEq] at h
      obtain ⟨ws', h1, h2, h3⟩ := setWeights_spec ws front rest h.2
      have h4 := setValues_spec w f h.1
      refine ⟨w.setValues f :: ws', by simp [setWeights, h1], by simp [h2, h4.1], ?_⟩
      simp only [List.flatMap_cons, h3, h4.2, List.flatten_cons, List.map_append]

theorem setInput_spec (nodes : List InputNode) (hn : ∀ f ∈ nodes, ∀ logs, f ≠ .discrete logs) (front rest : List (List ℝ))
    (h : front.map List.length = inputLengths nodes) :
    ∃ nodes', setInput nodes (front ++ rest) = .ok (nodes', rest) ∧ nodes'.map blankNode = nodes.map blankNode ∧
      nodes'.filterMap locationOf ++ nodes'.filterMap logScaleOf = front.flatten.map LogP.fin := by
  have h1 : nodes.any InputNode.isDiscrete = false := by
    rw [List.any_eq_false]
    intro f hf h2
    cases f <;> simp [InputNode.isDiscrete] at h2
    exact hn _ hf _ rfl
  rw [inputLengths, h1, if_neg (by simp)] at h
  rw [setInput, h1, if_neg (by simp)]
  by_cases h2 : nodes.any InputNode.isGaussian = true
  · rw [if_pos h2] at h ⊢
    match front, h with
    | [], h => simp at h
    | [a], h => simp at h
    | [a, b], h =>
      simp only [List.map_cons, List.map_nil, List.cons.injEq, and_true] at h
      obtain ⟨h3, h4, h5⟩ := setGaussians_spec nodes a b h.1 h.2
      exact ⟨_, rfl, by simpa using h3, by simp [h4, h5]⟩
    | a :: b :: c :: l, h => simp at h
  · rw [if_neg h2] at h ⊢
    simp only [List.map_eq_nil_iff] at h
    subst h
    refine ⟨nodes, rfl, rfl, ?_⟩
    have h3 : ∀ f ∈ nodes, locationOf f = none ∧ logScaleOf f = none := by
      intro f hf
      cases f with
      | gaussian => exact absurd (List.any_eq_true.2 ⟨_, hf, rfl⟩) h2
      | _ => exact ⟨rfl, rfl⟩
    rw [List.filterMap_eq_nil_iff.2 fun f hf => (h3 f hf).1, List.filterMap_eq_nil_iff.2 fun f hf => (h3 f hf).2]
    rfl

theorem split_lengths {α : Type} : ∀ (front : List (List α)) (l l' : List ℕ), front.map List.length = l ++ l' →
    ∃ a b, front = a ++ b ∧ a.map List.length = l ∧ b.map List.length = l' := by
  intro front l l' h
  exact List.map_eq_append_iff.1 h

mutual
theorem setArrays_spec : ∀ (L : Layer), VectorParameters L → ∀ front rest : List (List ℝ), front.map List.length = L.parameterLengths →
    ∃ L', L.setArrays (front ++ rest) = .ok (L', rest) ∧ structureOf L' = structureOf L ∧
      parametersOf L' = front.flatten.map LogP.fin
  | .input v nodes, hv, front, rest, h => by
    cases hv with
    | input _ _ hn =>
      obtain ⟨nodes', h1, h2, h3⟩ := setInput_spec nodes hn front rest h
      refine ⟨.input v nodes', ?_, ?_, ?_⟩
      · simp [Layer.setArrays, h1, bind, Except.bind]
      · rw [structureOf, structureOf, h2]
      · rw [parametersOf, h3]
  | .sparseSum ws cs, hv, front, rest, h => by
    cases hv with
    | sparseSum _ _ hc =>
      rw [Layer.parameterLengths] at h
      obtain ⟨a, b, rfl, h1, h2⟩ := split_lengths _ _ _ h
      obtain ⟨cs', h3, h4, h5⟩ := setChildArrays_spec cs hc a (b ++ rest) h1
      obtain ⟨ws', h6, h7, h8⟩ := setWeights_spec ws b rest h2
      refine ⟨.sparseSum ws' cs', ?_, ?_, ?_⟩
      · simp [Layer.setArrays, h3, h6, bind, Except.bind]
      · rw [structureOf, structureOf, h4, h7]
      · rw [parametersOf, h5, h8, List.flatten_append, List.map_append]
  | .denseSum ws cs, hv, front, rest, h => by cases hv
  | .product n es cs, hv, front, rest, h => by
    cases hv with
    | product _ _ _ hc =>
      rw [Layer.parameterLengths] at h
      obtain ⟨cs', h3, h4, h5⟩ := setChildArrays_spec cs hc front rest h
      refine ⟨.product n es cs', ?_, ?_, ?_⟩
      · simp [Layer.setArrays, h3, bind, Except.bind]
      · rw [structureOf, structureOf, h4]
      · rw [parametersOf, h5]
theorem setChildArrays_spec : ∀ (cs : List Layer), (∀ c ∈ cs, VectorParameters c) → ∀ front rest : List (List ℝ),
    front.map List.length = childParameterLengths cs →
    ∃ cs', setChildArrays cs (front ++ rest) = .ok (cs', rest) ∧ structuresOf cs' = structuresOf cs ∧
      parametersOfAll cs' = front.flatten.map LogP.fin
  | [], _, front, rest, h => by
    simp only [childParameterLengths, List.map_eq_nil_iff] at h
    subst h
    exact ⟨[], rfl, rfl, rfl⟩
  | c :: cs, hc, front, rest, h => by
    rw [childParameterLengths] at h
    obtain ⟨a, b, rfl, h1, h2⟩ := split_lengths _ _ _ h
    obtain ⟨c', h3, h4, h5⟩ := setArrays_spec c (hc c (by simp)) a (b ++ rest) h1
    obtain ⟨cs', h6, h7, h8⟩ := setChildArrays_spec cs (fun x hx => hc x (by simp [hx])) b rest h2
    refine ⟨c' :: cs', ?_, ?_, ?_⟩
    · simp [setChildArrays, h3, h6, bind, Except.bind]
    · rw [structuresOf, structuresOf, h4, h7]
    · rw [parametersOfAll, h5, h8, List.flatten_append, List.map_append]
end

end PM.Jax
