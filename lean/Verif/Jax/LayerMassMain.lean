import Verif.Jax.LayerMass

/-! The nodes of layered circuits are densities. -/

namespace PM.Jax
open Spec MeasureTheory

variable {types : ℕ → VarType}

theorem layerScopes_eq' (cs : List Layer) : layerScopes cs = cs.map nodeScopes := by
  induction cs with
  | nil => rfl
  | cons c cs ih => rw [layerScopes, ih, List.map_cons]

theorem getD_range_map {α : Type} (f : ℕ → α) {n i : ℕ} (h : i < n) (d : α) : ((List.range n).map f).getD i d = f i := by
  rw [List.getD_eq_getElem _ _ (by simpa using h)]
  simp

theorem zip_eq_zipIdx (row : List LogP) (vs : List ℝ) (h : row.length = vs.length) :
    (row.map LogP.exp).zip vs = row.zipIdx.map fun e => (e.1.exp, vs.getD e.2 0) := by
  apply List.ext_getElem
  · simp [h]
  · intro k hk1 hk2
    have : k < vs.length := by simp at hk1; omega
    simp [this]

theorem sum_pos_of_terms {T : Terms} (h0 : ∀ t ∈ T, 0 ≤ t.1) {t : ℝ × ((ℕ → ℝ) → ℝ) × Finset ℕ} (ht : t ∈ T) (hp : 0 < t.1) :
    0 < (T.map fun t => t.1).sum := by
  refine lt_of_lt_of_le hp (List.single_le_sum ?_ _ (List.mem_map.2 ⟨t, ht, rfl⟩))
  intro x hx
  obtain ⟨t', ht', rfl⟩ := List.mem_map.1 hx
  exact h0 t' ht'

/-- The nodes of layered circuits are densities. -/
theorem layer_density : ∀ L : Layer, Regular L → SmoothLayer L → DecomposableLayer L → TypedInputs types L → ∀ i < L.numberOfNodes,
    Density types (fun a => (layerValue a L).getD i 0) ((nodeScopes L).getD i ∅) := by
  apply Layer.induct
  intro L ih hR hS hD hT i hi
  cases hR with
  | input v nodes =>
    cases hT with
    | input _ _ fits =>
      have hi' : i < nodes.length := hi
      have h := input_density (fits nodes[i] (List.getElem_mem hi'))
      have e1 : (nodeScopes (.input v nodes)).getD i ∅ = {v} := by
        rw [nodeScopes, List.getD_eq_getElem _ _ (by simpa using hi')]
        simp
      have e2 : ∀ a, (layerValue a (.input v nodes)).getD i 0 = (nodes[i].logDensity (a v)).exp := by
        intro a
        rw [layerValue, List.getD_eq_getElem _ _ (by simpa using hi')]
        simp
      rw [e1]
      simp only [e2]
      exact h
  | sparseSum ws cs n children nonempty shapes indices weights =>
    cases hS with
    | sparseSum _ _ childrenS same =>
    cases hD with
    | sparseSum _ _ childrenD =>
    cases hT with
    | sparseSum _ _ childrenT =>
    have hn : (Layer.sparseSum ws cs).numberOfNodes = n := by
      cases shapes with
      | nil => exact absurd rfl nonempty
      | cons h _ => exact h.1
    have hind : ∀ p ∈ ws.zip cs, ∀ e ∈ p.1.entries, e.2.1 < p.2.numberOfNodes := by
      intro p hp e he
      have h1 := List.forall₂_iff_zip.1 shapes
      rw [← (h1.2 hp).2]
      exact (indices p.1 (List.of_mem_zip hp).1 e he).2
    let T : Terms := (ws.zip cs).flatMap fun p => (p.1.entries.filter fun e => e.1 == i).map fun e =>
      (e.2.2.exp, (fun a => (layerValue a p.2).getD e.2.1 0), (nodeScopes p.2).getD e.2.1 ∅)
    have eT : ∀ a, (layerValue a (.sparseSum ws cs)).getD i 0 = weightedMean (T.map fun t => (t.1, t.2.1 a)) := by
      intro a
      rw [layerValue, getD_range_map _ hi, layerValues_eq, List.zip_map_right, List.flatMap_map, List.map_flatMap]
      congr 2
      funext p
      simp [sparseTerms, List.map_map, Function.comp_def]
    simp only [eT]
    have hTm : ∀ t ∈ T, 0 ≤ t.1 ∧ Density types t.2.1 ((nodeScopes (.sparseSum ws cs)).getD i ∅) := by
      intro t ht
      obtain ⟨p, hp, ht⟩ := List.mem_flatMap.1 ht
      obtain ⟨e, he, rfl⟩ := List.mem_map.1 ht
      rw [List.mem_filter, beq_iff_eq] at he
      refine ⟨LogP.exp_nonneg _, ?_⟩
      have hc := (List.of_mem_zip hp).2
      have := ih p.2 hc (children _ hc) (childrenS _ hc) (childrenD _ hc) (childrenT _ hc) e.2.1 (hind p hp e he.1)
      have hs := same (p.1, nodeScopes p.2) (by
        rw [layerScopes_eq', List.zip_map_right]
        exact List.mem_map.2 ⟨p, hp, rfl⟩) e he.1
      rw [he.2] at hs
      rw [← hs]
      exact this
    apply mean_density T hTm
    obtain ⟨w, hw, e, he, hei, hne⟩ := weights i (hn ▸ hi)
    obtain ⟨c, hc⟩ : ∃ c, (w, c) ∈ ws.zip cs := by
      obtain ⟨k, hk, rfl⟩ := List.getElem_of_mem hw
      have hl := shapes.length_eq
      exact ⟨cs[k], by rw [List.mem_iff_getElem]; exact ⟨k, by simp; omega, by simp⟩⟩
    exact sum_pos_of_terms (fun t ht => (hTm t ht).1)
      (List.mem_flatMap.2 ⟨_, hc, List.mem_map.2 ⟨e, List.mem_filter.2 ⟨he, by simpa using hei⟩, rfl⟩⟩) (LogP.exp_pos.2 hne)
  | denseSum ws cs n children nonempty shapes weights =>
    cases hS with
    | denseSum _ _ childrenS same =>
    cases hD with
    | denseSum _ _ childrenD =>
    cases hT with
    | denseSum _ _ childrenT =>
    have hn : (Layer.denseSum ws cs).numberOfNodes = n := by
      cases shapes with
      | nil => exact absurd rfl nonempty
      | cons h _ => exact h.1
    have hrow : ∀ p ∈ ws.zip cs, (p.1.getD i []).length = p.2.numberOfNodes := by
      intro p hp
      have h1 := (List.forall₂_iff_zip.1 shapes).2 hp
      have : i < p.1.length := by rw [h1.1]; omega
      rw [List.getD_eq_getElem _ _ this]
      exact h1.2 _ (List.getElem_mem this)
    let T : Terms := (ws.zip cs).flatMap fun p => (p.1.getD i []).zipIdx.map fun e =>
      (e.1.exp, (fun a => (layerValue a p.2).getD e.2 0), (nodeScopes p.2).getD e.2 ∅)
    have eT : ∀ a, (layerValue a (.denseSum ws cs)).getD i 0 = weightedMean (T.map fun t => (t.1, t.2.1 a)) := by
      intro a
      rw [layerValue, getD_range_map _ hi, layerValues_eq, List.zip_map_right, List.flatMap_map, List.map_flatMap]
      congr 1
      rw [List.flatMap_def, List.flatMap_def]
      congr 1
      apply List.map_congr_left
      intro p hp
      simp only [denseTerms, List.map_map]
      exact zip_eq_zipIdx _ _ ((hrow p hp).trans (layerValue_length a p.2).symm)
    simp only [eT]
    have hTm : ∀ t ∈ T, 0 ≤ t.1 ∧ Density types t.2.1 ((nodeScopes (.denseSum ws cs)).getD i ∅) := by
      intro t ht
      obtain ⟨p, hp, ht⟩ := List.mem_flatMap.1 ht
      obtain ⟨e, he, rfl⟩ := List.mem_map.1 ht
      refine ⟨LogP.exp_nonneg _, ?_⟩
      have hc := (List.of_mem_zip hp).2
      have hlt : e.2 < p.2.numberOfNodes := by
        have := List.snd_lt_of_mem_zipIdx he
        rw [hrow p hp] at this
        omega
      have := ih p.2 hc (children _ hc) (childrenS _ hc) (childrenD _ hc) (childrenT _ hc) e.2 hlt
      have hlen : (nodeScopes p.2).length = p.2.numberOfNodes := by cases p.2 <;> simp [nodeScopes, Layer.numberOfNodes]
      have hs := same (nodeScopes p.2) (by rw [layerScopes_eq']; exact List.mem_map.2 ⟨_, hc, rfl⟩) ((nodeScopes p.2).getD e.2 ∅) (by
        rw [List.getD_eq_getElem _ _ (by omega)]
        exact List.getElem_mem _) ((nodeScopes (.denseSum ws cs)).getD i ∅) (by
        rw [List.getD_eq_getElem _ _ (by simpa [nodeScopes] using hi)]
        exact List.getElem_mem _)
      rw [← hs]
      exact this
    apply mean_density T hTm
    obtain ⟨w, hw, l, hl, hne⟩ := weights i (hn ▸ hi)
    obtain ⟨c, hc⟩ : ∃ c, (w, c) ∈ ws.zip cs := by
      obtain ⟨k, hk, rfl⟩ := List.getElem_of_mem hw
      have hl := shapes.length_eq
      exact ⟨cs[k], by rw [List.mem_iff_getElem]; exact ⟨k, by simp; omega, by simp⟩⟩
    obtain ⟨k, hk, rfl⟩ := List.getElem_of_mem hl
    exact sum_pos_of_terms (fun t ht => (hTm t ht).1)
      (List.mem_flatMap.2 ⟨_, hc, List.mem_map.2 ⟨((w.getD i [])[k], k), List.mem_iff_getElem.2 ⟨k, by simpa using hk, by simp⟩, rfl⟩⟩)
      (LogP.exp_pos.2 hne)
  | product n es cs children indices =>
    cases hS with
    | product _ _ _ childrenS =>
    cases hD with
    | product _ _ _ childrenD disjoint =>
    cases hT with
    | product _ _ _ childrenT =>
    have hi' : i < n := hi
    let T : List (((ℕ → ℝ) → ℝ) × Finset ℕ) := (es.zip cs).flatMap fun p => (p.1.filter fun e => e.1 == i).map fun e =>
      ((fun a => (layerValue a p.2).getD e.2 0), (nodeScopes p.2).getD e.2 ∅)
    have eT : ∀ a, (layerValue a (.product n es cs)).getD i 0 = (T.map fun t => t.1 a).prod := by
      intro a
      rw [layerValue, getD_range_map _ hi', layerValues_eq, List.zip_map_right, List.flatMap_map, List.map_flatMap]
      congr 2
      funext p
      simp [productFactors, List.map_map, Function.comp_def]
    have eS : T.map Prod.snd = (es.zip (layerScopes cs)).flatMap fun p => (p.1.filter fun e => e.1 == i).map fun e => p.2.getD e.2 ∅ := by
      rw [layerScopes_eq', List.zip_map_right, List.flatMap_map, List.map_flatMap]
      congr 1
      funext p
      simp [List.map_map, Function.comp_def]
    have eN : (nodeScopes (.product n es cs)).getD i ∅ = unionOf (T.map Prod.snd) := by
      rw [nodeScopes, getD_range_map _ hi', eS]
    rw [eN]
    simp only [eT]
    refine prod_density T ?_ (by rw [eS]; exact disjoint i hi')
    intro t ht
    obtain ⟨p, hp, ht⟩ := List.mem_flatMap.1 ht
    obtain ⟨e, he, rfl⟩ := List.mem_map.1 ht
    have hc := (List.of_mem_zip hp).2
    exact ih p.2 hc (children _ hc) (childrenS _ hc) (childrenD _ hc) (childrenT _ hc) e.2
      (((List.forall₂_iff_zip.1 indices).2 hp) e (List.mem_filter.1 he).1).2

end PM.Jax
