import Verif.Spec.Fit
import Verif.Jax.LayersLemmas
import Verif.Jax.LayerMassMain

/-!
# Training keeps the skeleton, and the skeleton determines the structure
-/

namespace PM.Jax
open PM.Spec

theorem blank_step (p : LogP) (u : ℝ) : blankLog (stepLog p u) = blankLog p := by
  cases p <;> rfl

theorem blank_eq_negInf {p : LogP} : blankLog p = .negInf ↔ p = .negInf := by
  cases p <;> simp [blankLog]

theorem blank_row : ∀ (ps : List LogP) (us : List ℝ), (updateRow ps us).1.map blankLog = ps.map blankLog
  | [], _ => rfl
  | p :: ps, us => by simp [updateRow, blank_step, blank_row ps]

theorem blank_rows : ∀ (m : List (List LogP)) (us : List ℝ),
    ((updateRows m us).1.map fun row => row.map blankLog) = m.map fun row => row.map blankLog
  | [], _ => rfl
  | row :: m, us => by simp [updateRows, blank_row, blank_rows m]

theorem blank_matrices : ∀ (ms : List (List (List LogP))) (us : List ℝ),
    ((updateMatrices ms us).1.map fun w => w.map fun row => row.map blankLog) = ms.map fun w => w.map fun row => row.map blankLog
  | [], _ => rfl
  | m :: ms, us => by simp [updateMatrices, blank_rows, blank_matrices ms]

theorem blank_entries : ∀ (es : List (ℕ × ℕ × LogP)) (us : List ℝ),
    ((updateEntries es us).1.map fun e => (e.1, e.2.1, blankLog e.2.2)) = es.map fun e => (e.1, e.2.1, blankLog e.2.2)
  | [], _ => rfl
  | e :: es, us => by simp [updateEntries, blank_step, blank_entries es]

theorem blank_sparse : ∀ (ws : List Coo) (us : List ℝ),
    ((updateSparse ws us).1.map fun w => (⟨w.rows, w.cols, w.entries.map fun e => (e.1, e.2.1, blankLog e.2.2)⟩ : Coo)) =
      ws.map fun w => ⟨w.rows, w.cols, w.entries.map fun e => (e.1, e.2.1, blankLog e.2.2)⟩
  | [], _ => rfl
  | w :: ws, us => by simp [updateSparse, blank_entries, blank_sparse ws]

theorem blank_locations : ∀ (nodes : List InputNode) (us : List ℝ), (updateLocations nodes us).1.map blankInput = nodes.map blankInput
  | [], _ => rfl
  | f :: nodes, us => by cases f <;> simp [updateLocations, blankInput, blank_locations nodes]

theorem blank_scales : ∀ (nodes : List InputNode) (us : List ℝ), (updateScales nodes us).1.map blankInput = nodes.map blankInput
  | [], _ => rfl
  | f :: nodes, us => by cases f <;> simp [updateScales, blankInput, blank_scales nodes]

theorem blank_discrete : ∀ (nodes : List InputNode) (us : List ℝ), (updateDiscrete nodes us).1.map blankInput = nodes.map blankInput
  | [], _ => rfl
  | f :: nodes, us => by cases f <;> simp [updateDiscrete, blankInput, blank_discrete nodes, blank_row]

theorem blank_input (nodes : List InputNode) (us : List ℝ) : (updateInput nodes us).1.map blankInput = nodes.map blankInput := by
  unfold updateInput
  simp only [blank_discrete, blank_scales, blank_locations]

mutual
theorem skeleton_applyUpdates : ∀ (L : Layer) (us : List ℝ), skeleton (L.applyUpdates us).1 = skeleton L
  | .input v nodes, us => by simp only [Layer.applyUpdates, skeleton, blank_input]
  | .sparseSum ws cs, us => by simp only [Layer.applyUpdates, skeleton, blank_sparse, skeletons_applyUpdates cs]
  | .denseSum ws cs, us => by simp only [Layer.applyUpdates, skeleton, blank_matrices, skeletons_applyUpdates cs]
  | .product n es cs, us => by simp only [Layer.applyUpdates, skeleton, skeletons_applyUpdates cs]
theorem skeletons_applyUpdates : ∀ (cs : List Layer) (us : List ℝ), skeletons (applyChildUpdates cs us).1 = skeletons cs
  | [], _ => rfl
  | c :: cs, us => by simp only [applyChildUpdates, skeletons, skeleton_applyUpdates c, skeletons_applyUpdates cs]
end

theorem skeletons_eq (cs : List Layer) : skeletons cs = cs.map skeleton := by
  induction cs with
  | nil => rfl
  | cons c cs ih => rw [skeletons, ih, List.map_cons]

theorem skeleton_numberOfNodes (L : Layer) : (skeleton L).numberOfNodes = L.numberOfNodes := by
  cases L with
  | input v nodes => simp [skeleton, Layer.numberOfNodes]
  | sparseSum ws cs => cases ws <;> simp [skeleton, Layer.numberOfNodes]
  | denseSum ws cs => cases ws <;> simp [skeleton, Layer.numberOfNodes]
  | product n es cs => simp [skeleton, Layer.numberOfNodes]

mutual
theorem skeleton_variables : ∀ L : Layer, (skeleton L).variables = L.variables
  | .input v nodes => rfl
  | .sparseSum ws [] => rfl
  | .sparseSum ws (c :: cs) => by simp only [skeleton, skeletons, Layer.variables, firstVariables, skeleton_variables c]
  | .denseSum ws [] => rfl
  | .denseSum ws (c :: cs) => by simp only [skeleton, skeletons, Layer.variables, firstVariables, skeleton_variables c]
  | .product n es cs => by simp only [skeleton, Layer.variables, skeletons_variables cs]
theorem skeletons_variables : ∀ cs : List Layer, allVariables (skeletons cs) = allVariables cs
  | [] => rfl
  | c :: cs => by simp only [skeletons, allVariables, skeleton_variables c, skeletons_variables cs]
end

theorem filter_blank (es : List (ℕ × ℕ × LogP)) (i : ℕ) {β : Type} (F : ℕ → β) :
    (((es.map fun e => (e.1, e.2.1, blankLog e.2.2)).filter fun e => e.1 == i).map fun e => F e.2.1) =
      (es.filter fun e => e.1 == i).map fun e => F e.2.1 := by
  rw [List.filter_map, List.map_map]
  rfl

mutual
theorem skeleton_nodeScopes : ∀ L : Layer, nodeScopes (skeleton L) = nodeScopes L
  | .input v nodes => by simp [skeleton, nodeScopes, Function.comp_def]
  | .sparseSum ws cs => by
    have h := skeleton_numberOfNodes (.sparseSum ws cs)
    simp only [skeleton] at h
    simp only [skeleton, nodeScopes, h, skeletons_layerScopes cs]
    refine List.map_congr_left fun i _ => ?_
    congr 1
    rw [List.zip_map_left, List.flatMap_map]
    refine List.flatMap_congr fun p _ => ?_
    exact filter_blank p.1.entries i fun j => p.2.getD j ∅
  | .denseSum ws cs => by
    have h := skeleton_numberOfNodes (.denseSum ws cs)
    simp only [skeleton] at h
    simp only [skeleton, nodeScopes, h, skeletons_layerScopes cs]
    refine List.map_congr_left fun i _ => ?_
    congr 1
    rw [List.zip_map_left, List.flatMap_map]
    refine List.flatMap_congr fun p _ => ?_
    simp only [Prod.map]
    have : (List.map (fun row => List.map blankLog row) p.1).getD i [] = (p.1.getD i []).map blankLog := by
      rw [List.getD_eq_getElem?_getD, List.getD_eq_getElem?_getD, List.getElem?_map]
      cases p.1[i]? <;> rfl
    rw [this, List.zip_map_left, List.map_map]
    rfl
  | .product n es cs => by simp only [skeleton, nodeScopes, skeletons_layerScopes cs]
theorem skeletons_layerScopes : ∀ cs : List Layer, layerScopes (skeletons cs) = layerScopes cs
  | [] => rfl
  | c :: cs => by simp only [skeletons, layerScopes, skeleton_nodeScopes c, skeletons_layerScopes cs]
end

theorem forall_mem_skeletons {cs : List Layer} {P : Layer → Prop} : (∀ c ∈ skeletons cs, P c) ↔ ∀ c ∈ cs, P (skeleton c) := by
  rw [skeletons_eq]
  simp

theorem skeleton_oneVariable (v : ℕ) : ∀ L : Layer, OneVariable v (skeleton L) ↔ OneVariable v L := by
  apply Layer.induct
  intro L ih
  cases L with
  | input w nodes =>
    rw [skeleton]
    exact ⟨fun h => by cases h; exact .input _, fun h => by cases h; exact .input _⟩
  | sparseSum ws cs =>
    rw [skeleton]
    constructor
    · intro h
      cases h with
      | sparseSum _ _ nonempty children =>
        exact .sparseSum _ _ (by rintro rfl; exact nonempty rfl) fun c hc => (ih c hc).1 (forall_mem_skeletons.1 children c hc)
    · intro h
      cases h with
      | sparseSum _ _ nonempty children =>
        exact .sparseSum _ _ (by rw [skeletons_eq]; simpa using nonempty) (forall_mem_skeletons.2 fun c hc => (ih c hc).2 (children c hc))
  | denseSum ws cs =>
    rw [skeleton]
    constructor
    · intro h
      cases h with
      | denseSum _ _ nonempty children =>
        exact .denseSum _ _ (by rintro rfl; exact nonempty rfl) fun c hc => (ih c hc).1 (forall_mem_skeletons.1 children c hc)
    · intro h
      cases h with
      | denseSum _ _ nonempty children =>
        exact .denseSum _ _ (by rw [skeletons_eq]; simpa using nonempty) (forall_mem_skeletons.2 fun c hc => (ih c hc).2 (children c hc))
  | product n es cs =>
    rw [skeleton]
    exact ⟨fun h => (by cases h), fun h => (by cases h)⟩

theorem skeleton_aligned : ∀ (L : Layer) (k : ℕ), Aligned k (skeleton L) ↔ Aligned k L := by
  apply Layer.induct
  intro L ih k
  constructor
  · intro h
    cases L with
    | input w nodes =>
      rw [skeleton] at h
      cases h with
      | one _ h => exact .one _ ((skeleton_oneVariable 0 (.input w nodes)).1 h)
    | sparseSum ws cs =>
      have h0 := h
      rw [skeleton] at h
      cases h with
      | one _ h => exact .one _ ((skeleton_oneVariable 0 (.sparseSum ws cs)).1 h)
      | sparseSum _ _ _ children => exact .sparseSum _ _ _ fun c hc => (ih c hc k).1 (forall_mem_skeletons.1 children c hc)
    | denseSum ws cs =>
      rw [skeleton] at h
      cases h with
      | one _ h => exact .one _ ((skeleton_oneVariable 0 (.denseSum ws cs)).1 h)
      | denseSum _ _ _ children => exact .denseSum _ _ _ fun c hc => (ih c hc k).1 (forall_mem_skeletons.1 children c hc)
    | product n es cs =>
      rw [skeleton] at h
      cases h with
      | one _ h => exact .one _ ((skeleton_oneVariable 0 (.product n es cs)).1 h)
      | product _ _ _ _ initial children =>
        rw [forall_mem_skeletons] at initial children
        simp only [skeleton_oneVariable, skeleton_variables] at initial children
        exact .product _ _ _ _ initial fun c hc hn => (ih c hc _).1 (children c hc hn)
  · intro h
    cases L with
    | input w nodes =>
      cases h with
      | one _ h => exact .one _ ((skeleton_oneVariable 0 (.input w nodes)).2 h)
    | sparseSum ws cs =>
      cases h with
      | one _ h => exact .one _ ((skeleton_oneVariable 0 (.sparseSum ws cs)).2 h)
      | sparseSum _ _ _ children => exact .sparseSum _ _ _ (forall_mem_skeletons.2 fun c hc => (ih c hc k).2 (children c hc))
    | denseSum ws cs =>
      cases h with
      | one _ h => exact .one _ ((skeleton_oneVariable 0 (.denseSum ws cs)).2 h)
      | denseSum _ _ _ children => exact .denseSum _ _ _ (forall_mem_skeletons.2 fun c hc => (ih c hc k).2 (children c hc))
    | product n es cs =>
      cases h with
      | one _ h => exact .one _ ((skeleton_oneVariable 0 (.product n es cs)).2 h)
      | product _ _ _ _ initial children =>
        refine .product _ _ _ _ ?_ ?_
        · rw [forall_mem_skeletons]
          simp only [skeleton_oneVariable, skeleton_variables]
          exact initial
        · rw [forall_mem_skeletons]
          simp only [skeleton_oneVariable, skeleton_variables]
          exact fun c hc hn => (ih c hc _).2 (children c hc hn)

theorem skeleton_decomposable : ∀ L : Layer, DecomposableLayer (skeleton L) ↔ DecomposableLayer L := by
  apply Layer.induct
  intro L ih
  cases L with
  | input w nodes => exact ⟨fun _ => .input _ _, fun _ => .input _ _⟩
  | sparseSum ws cs =>
    rw [skeleton]
    exact ⟨fun h => by cases h with | sparseSum _ _ h => exact .sparseSum _ _ fun c hc => (ih c hc).1 (forall_mem_skeletons.1 h c hc),
      fun h => by cases h with | sparseSum _ _ h => exact .sparseSum _ _ (forall_mem_skeletons.2 fun c hc => (ih c hc).2 (h c hc))⟩
  | denseSum ws cs =>
    rw [skeleton]
    exact ⟨fun h => by cases h with | denseSum _ _ h => exact .denseSum _ _ fun c hc => (ih c hc).1 (forall_mem_skeletons.1 h c hc),
      fun h => by cases h with | denseSum _ _ h => exact .denseSum _ _ (forall_mem_skeletons.2 fun c hc => (ih c hc).2 (h c hc))⟩
  | product n es cs =>
    rw [skeleton]
    constructor
    · intro h
      cases h with
      | product _ _ _ h hd =>
        rw [skeletons_layerScopes] at hd
        exact .product _ _ _ (fun c hc => (ih c hc).1 (forall_mem_skeletons.1 h c hc)) hd
    · intro h
      cases h with
      | product _ _ _ h hd =>
        refine .product _ _ _ (forall_mem_skeletons.2 fun c hc => (ih c hc).2 (h c hc)) ?_
        rw [skeletons_layerScopes]
        exact hd

theorem skeleton_smooth : ∀ L : Layer, SmoothLayer (skeleton L) ↔ SmoothLayer L := by
  apply Layer.induct
  intro L ih
  cases L with
  | input w nodes => exact ⟨fun _ => .input _ _, fun _ => .input _ _⟩
  | product n es cs =>
    rw [skeleton]
    exact ⟨fun h => by cases h with | product _ _ _ h => exact .product _ _ _ fun c hc => (ih c hc).1 (forall_mem_skeletons.1 h c hc),
      fun h => by cases h with | product _ _ _ h => exact .product _ _ _ (forall_mem_skeletons.2 fun c hc => (ih c hc).2 (h c hc))⟩
  | sparseSum ws cs =>
    have key : (∀ p ∈ (ws.map fun w => (⟨w.rows, w.cols, w.entries.map fun e => (e.1, e.2.1, blankLog e.2.2)⟩ : Coo)).zip (layerScopes (skeletons cs)),
        ∀ e ∈ p.1.entries, p.2.getD e.2.1 ∅ = (nodeScopes (skeleton (.sparseSum ws cs))).getD e.1 ∅) ↔
        ∀ p ∈ ws.zip (layerScopes cs), ∀ e ∈ p.1.entries, p.2.getD e.2.1 ∅ = (nodeScopes (.sparseSum ws cs)).getD e.1 ∅ := by
      rw [skeleton_nodeScopes, skeletons_layerScopes, List.zip_map_left]
      simp only [List.forall_mem_map, Prod.map, id]
    simp only [skeleton] at key ⊢
    constructor
    · intro h
      cases h with
      | sparseSum _ _ h hsame => exact .sparseSum _ _ (fun c hc => (ih c hc).1 (forall_mem_skeletons.1 h c hc)) (key.1 hsame)
    · intro h
      cases h with
      | sparseSum _ _ h hsame => exact .sparseSum _ _ (forall_mem_skeletons.2 fun c hc => (ih c hc).2 (h c hc)) (key.2 hsame)
  | denseSum ws cs =>
    have key := skeleton_nodeScopes (.denseSum ws cs)
    simp only [skeleton] at key ⊢
    constructor
    · intro h
      cases h with
      | denseSum _ _ h hsame =>
        rw [key, skeletons_layerScopes] at hsame
        exact .denseSum _ _ (fun c hc => (ih c hc).1 (forall_mem_skeletons.1 h c hc)) hsame
    · intro h
      cases h with
      | denseSum _ _ h hsame =>
        refine .denseSum _ _ (forall_mem_skeletons.2 fun c hc => (ih c hc).2 (h c hc)) ?_
        rw [key, skeletons_layerScopes]
        exact hsame

theorem blankInput_fits (t : VarType) (f : InputNode) : NodeFits t (blankInput f) ↔ NodeFits t f := by
  cases f <;> cases t <;> simp [blankInput, NodeFits, blank_eq_negInf]

theorem skeleton_typed (types : ℕ → VarType) : ∀ L : Layer, TypedInputs types (skeleton L) ↔ TypedInputs types L := by
  apply Layer.induct
  intro L ih
  cases L with
  | input w nodes =>
    rw [skeleton]
    constructor
    · intro h
      cases h with
      | input _ _ fits =>
        simp only [List.forall_mem_map, blankInput_fits] at fits
        exact .input _ _ fits
    · intro h
      cases h with
      | input _ _ fits =>
        refine .input _ _ ?_
        simp only [List.forall_mem_map, blankInput_fits]
        exact fits
  | sparseSum ws cs =>
    rw [skeleton]
    exact ⟨fun h => by cases h with | sparseSum _ _ h => exact .sparseSum _ _ fun c hc => (ih c hc).1 (forall_mem_skeletons.1 h c hc),
      fun h => by cases h with | sparseSum _ _ h => exact .sparseSum _ _ (forall_mem_skeletons.2 fun c hc => (ih c hc).2 (h c hc))⟩
  | denseSum ws cs =>
    rw [skeleton]
    exact ⟨fun h => by cases h with | denseSum _ _ h => exact .denseSum _ _ fun c hc => (ih c hc).1 (forall_mem_skeletons.1 h c hc),
      fun h => by cases h with | denseSum _ _ h => exact .denseSum _ _ (forall_mem_skeletons.2 fun c hc => (ih c hc).2 (h c hc))⟩
  | product n es cs =>
    rw [skeleton]
    exact ⟨fun h => by cases h with | product _ _ _ h => exact .product _ _ _ fun c hc => (ih c hc).1 (forall_mem_skeletons.1 h c hc),
      fun h => by cases h with | product _ _ _ h => exact .product _ _ _ (forall_mem_skeletons.2 fun c hc => (ih c hc).2 (h c hc))⟩

theorem skeleton_regular : ∀ L : Layer, Regular (skeleton L) ↔ Regular L := by
  apply Layer.induct
  intro L ih
  cases L with
  | input w nodes => exact ⟨fun _ => .input _ _, fun _ => .input _ _⟩
  | product n es cs =>
    rw [skeleton]
    have key : List.Forall₂ (fun (e : List (ℕ × ℕ)) (c : Layer) => ∀ p ∈ e, p.1 < n ∧ p.2 < c.numberOfNodes) es (skeletons cs) ↔
        List.Forall₂ (fun (e : List (ℕ × ℕ)) (c : Layer) => ∀ p ∈ e, p.1 < n ∧ p.2 < c.numberOfNodes) es cs := by
      rw [skeletons_eq, List.forall₂_map_right_iff]
      simp only [skeleton_numberOfNodes]
    constructor
    · intro h
      cases h with
      | product _ _ _ h hi => exact .product _ _ _ (fun c hc => (ih c hc).1 (forall_mem_skeletons.1 h c hc)) (key.1 hi)
    · intro h
      cases h with
      | product _ _ _ h hi => exact .product _ _ _ (forall_mem_skeletons.2 fun c hc => (ih c hc).2 (h c hc)) (key.2 hi)
  | sparseSum ws cs =>
    rw [skeleton, skeletons_eq]
    constructor
    · intro h
      cases h with
      | sparseSum _ _ n h hne hsh hi hw =>
        refine .sparseSum _ _ n (fun c hc => (ih c hc).1 (h _ (List.mem_map_of_mem hc))) (by simpa using hne) ?_ ?_ ?_
        · rw [List.forall₂_map_left_iff, List.forall₂_map_right_iff] at hsh
          simpa only [skeleton_numberOfNodes] using hsh
        · simp only [List.forall_mem_map] at hi
          exact hi
        · simpa [blank_eq_negInf] using hw
    · intro h
      cases h with
      | sparseSum _ _ n h hne hsh hi hw =>
        refine .sparseSum _ _ n (List.forall_mem_map.2 fun c hc => (ih c hc).2 (h c hc)) (by simpa using hne) ?_ ?_ ?_
        · rw [List.forall₂_map_left_iff, List.forall₂_map_right_iff]
          simpa only [skeleton_numberOfNodes] using hsh
        · simp only [List.forall_mem_map]
          exact hi
        · simpa [blank_eq_negInf] using hw
  | denseSum ws cs =>
    have hrow : ∀ (w : List (List LogP)) (i : ℕ), (List.map (fun row => List.map blankLog row) w).getD i [] = (w.getD i []).map blankLog := by
      intro w i
      rw [List.getD_eq_getElem?_getD, List.getD_eq_getElem?_getD, List.getElem?_map]
      cases w[i]? <;> rfl
    rw [skeleton, skeletons_eq]
    constructor
    · intro h
      cases h with
      | denseSum _ _ n h hne hsh hw =>
        refine .denseSum _ _ n (fun c hc => (ih c hc).1 (h _ (List.mem_map_of_mem hc))) (by simpa using hne) ?_ ?_
        · rw [List.forall₂_map_left_iff, List.forall₂_map_right_iff] at hsh
          simpa [skeleton_numberOfNodes] using hsh
        · intro i hi
          obtain ⟨w', hw', l', hl', hne'⟩ := hw i hi
          obtain ⟨w, hw1, rfl⟩ := List.mem_map.1 hw'
          rw [hrow] at hl'
          obtain ⟨l, hl1, rfl⟩ := List.mem_map.1 hl'
          exact ⟨w, hw1, l, hl1, fun h => hne' (blank_eq_negInf.2 h)⟩
    · intro h
      cases h with
      | denseSum _ _ n h hne hsh hw =>
        refine .denseSum _ _ n (List.forall_mem_map.2 fun c hc => (ih c hc).2 (h c hc)) (by simpa using hne) ?_ ?_
        · rw [List.forall₂_map_left_iff, List.forall₂_map_right_iff]
          simpa [skeleton_numberOfNodes] using hsh
        · intro i hi
          obtain ⟨w, hw1, l, hl, hne'⟩ := hw i hi
          refine ⟨_, List.mem_map_of_mem hw1, blankLog l, ?_, fun h => hne' (blank_eq_negInf.1 h)⟩
          rw [hrow]
          exact List.mem_map_of_mem hl

end PM.Jax
