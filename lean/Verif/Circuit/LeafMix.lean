import Verif.Circuit.Denotes
import Verif.Circuit.NormalizeLemmas
import Verif.Circuit.CondInv

/-!
# Mixtures of leaves

A sum unit to which leaf units are added one after the other.
-/

namespace PM.Graph

open Spec

/-- `u = SumUnit()`, then `u.add_subcircuit(LeafUnit(d), w)` for all entries: identity of the unit, distribution, weight. -/
def leafMix (u : Node) (E : List (Node × Leaf × LogP)) : Circuit :=
  (newUnit u .sum).addAll u (partsOf (fun x : Node × Leaf × LogP => newUnit x.1 (.leaf x.2.1)) (fun x => x.1)
    (fun x => some x.2.2) E)

theorem leafMix_append (u : Node) (E : List (Node × Leaf × LogP)) (x : Node × Leaf × LogP) :
    leafMix u (E ++ [x]) = (leafMix u E).addSubcircuit (newUnit x.1 (.leaf x.2.1)) u x.1 (some x.2.2) := by
  simp [leafMix, addAll, partsOf, List.foldl_append]

/-- The identities are those of different new units. -/
structure FreshIds (u : Node) (E : List (Node × Leaf × LogP)) : Prop where
  nodup : (E.map Prod.fst).Nodup
  notMem : u ∉ E.map Prod.fst

variable {u : Node} {E : List (Node × Leaf × LogP)}

theorem FreshIds.assembled (h : FreshIds u E) :
    Assembled (newUnit u .sum) u (partsOf (fun x : Node × Leaf × LogP => newUnit x.1 (.leaf x.2.1)) (fun x => x.1)
      (fun x => some x.2.2) E) (leafMix u E) u := by
  refine assembled_parts (by simp) (fun _ _ _ => rfl) (fun i _ => layered_newUnit _ _) ?_ ?_
  · intro i hi hu
    simp only [ids_newUnit, List.mem_singleton] at hu
    exact h.notMem (List.mem_map.2 ⟨i, hi, hu.symm⟩)
  · refine (List.pairwise_map.1 h.nodup).imp ?_
    intro a b hab n hn hn'
    simp only [ids_newUnit, List.mem_singleton] at hn hn'
    exact hab (hn.symm.trans hn')

theorem FreshIds.layered (h : FreshIds u E) : Layered (leafMix u E) u := h.assembled.layered

theorem FreshIds.kind (h : FreshIds u E) : (leafMix u E).kind? u = some .sum := kind_assembled h.assembled

theorem FreshIds.kindLeaf (h : FreshIds u E) {x : Node × Leaf × LogP} (hx : x ∈ E) :
    (leafMix u E).kind? x.1 = some (.leaf x.2.1) := by
  rw [kind_assembled_part h.assembled hx (by simp), kind?_newUnit]

theorem FreshIds.out (h : FreshIds u E) : (leafMix u E).outEdges u = E.map fun x => ⟨u, x.1, some x.2.2⟩ :=
  out_assembled h.assembled

theorem FreshIds.succ (h : FreshIds u E) : (leafMix u E).succ u = E.map Prod.fst := succ_assembled h.assembled

theorem FreshIds.ids (h : FreshIds u E) {n : Node} : n ∈ (leafMix u E).ids ↔ n = u ∨ n ∈ E.map Prod.fst := by
  rw [mem_ids_assembled h.assembled]
  simp only [ids_newUnit, List.mem_singleton, List.mem_map]
  exact or_congr_right (exists_congr fun i => and_congr_right fun _ => eq_comm)

theorem FreshIds.of_leaf (h : FreshIds u E) {n : Node} {d : Leaf} (hk : (leafMix u E).kind? n = some (.leaf d)) :
    ∃ x ∈ E, x.1 = n ∧ x.2.1 = d := by
  rcases h.ids.1 (mem_ids_of_kind? hk) with rfl | hn
  · rw [h.kind] at hk; cases hk
  · obtain ⟨x, hx, rfl⟩ := List.mem_map.1 hn
    rw [h.kindLeaf hx] at hk
    injection hk with hk
    injection hk with hk
    exact ⟨x, hx, rfl, hk⟩

theorem FreshIds.sum_iff (h : FreshIds u E) {n : Node} : (leafMix u E).kind? n = some .sum ↔ n = u := by
  refine ⟨fun hk => ?_, fun hn => hn ▸ h.kind⟩
  rcases h.ids.1 (mem_ids_of_kind? hk) with hn | hn
  · exact hn
  · obtain ⟨x, hx, rfl⟩ := List.mem_map.1 hn
    rw [h.kindLeaf hx] at hk
    cases hk

theorem FreshIds.not_prod (h : FreshIds u E) {n : Node} : (leafMix u E).kind? n ≠ some .prod := by
  intro hk
  rcases h.ids.1 (mem_ids_of_kind? hk) with rfl | hn
  · rw [h.kind] at hk; cases hk
  · obtain ⟨x, hx, rfl⟩ := List.mem_map.1 hn
    rw [h.kindLeaf hx] at hk
    cases hk

theorem FreshIds.denotes (h : FreshIds u E) (hne : E ≠ []) {v : Var} (hd : ∀ x ∈ E, x.2.1.Valid ∧ x.2.1.var = v) :
    Denotes (leafMix u E) u {v} (fun ℓ => (E.map fun x => x.2.2.exp * ℓ x.2.1).sum) := by
  refine (denotes_sum (G := fun x : Node × Leaf × LogP => newUnit x.1 (.leaf x.2.1)) (o := fun x => x.1)
    (W := fun x => x.2.2) (F := fun x ℓ => ℓ x.2.1) (U := {v}) hne ?_ ?_ ?_).1
  · intro x hx
    rw [← (hd x hx).2]
    exact denotes_leaf _ (hd x hx).1
  · intro i hi hu
    simp only [ids_newUnit, List.mem_singleton] at hu
    exact h.notMem (List.mem_map.2 ⟨i, hi, hu.symm⟩)
  · refine (List.pairwise_map.1 h.nodup).imp ?_
    intro a b hab n hn hn'
    simp only [ids_newUnit, List.mem_singleton] at hn hn'
    exact hab (hn.symm.trans hn')

/-- A new leaf has a new identity. -/
theorem FreshIds.append (h : FreshIds u E) (d : Leaf) (w : LogP) : FreshIds u (E ++ [((leafMix u E).fresh, d, w)]) := by
  have hf : ∀ n ∈ (leafMix u E).ids, n ≠ (leafMix u E).fresh := fun n hn => (lt_fresh hn).ne
  refine ⟨?_, ?_⟩
  · rw [List.map_append, List.nodup_append]
    refine ⟨h.nodup, by simp, ?_⟩
    intro a ha b hb
    simp only [List.map_cons, List.map_nil, List.mem_singleton] at hb
    subst hb
    exact hf a (h.ids.2 (.inr ha))
  · rw [List.map_append, List.mem_append, not_or]
    refine ⟨h.notMem, ?_⟩
    simp only [List.map_cons, List.map_nil, List.mem_singleton]
    exact hf u (h.ids.2 (.inl rfl))

theorem FreshIds.nil : FreshIds u [] := ⟨by simp, by simp⟩

theorem leafMix_nil : leafMix u [] = newUnit u .sum := rfl

/-- Normalizing weights that sum to one changes nothing. -/
theorem FreshIds.normalize (h : FreshIds u E) (hne : E ≠ []) (hs : (E.map fun x => x.2.2.exp).sum = 1) :
    (leafMix u E).normalize = .ok (leafMix u E) := by
  have hout : ∀ n, (leafMix u E).kind? n = some .sum → (leafMix u E).outEdges n ≠ [] := by
    intro n hk
    rw [h.sum_iff.1 hk, h.out]
    simpa using hne
  rw [normalize_eq h.layered.wf h.layered.weighted hout]
  have ht : (leafMix u E).logTotal u = .fin 0 := by
    rw [logTotal, h.out, List.map_map]
    have : ((fun e : Edge => e.weight.getD 0) ∘ fun x : Node × Leaf × LogP => (⟨u, x.1, some x.2.2⟩ : Edge))
        = fun x => x.2.2 := rfl
    rw [this, LogP.logsumexp, List.map_map]
    have h2 : (LogP.exp ∘ fun x : Node × Leaf × LogP => x.2.2) = fun x => x.2.2.exp := rfl
    rw [h2, hs]
    simp [LogP.log]
  have he : (leafMix u E).edges.map ((leafMix u E).normEdge (leafMix u E).sumNodes) = (leafMix u E).edges := by
    conv_rhs => rw [← List.map_id (leafMix u E).edges]
    apply List.map_congr_left
    intro e _
    unfold normEdge
    split
    · rename_i hm
      have hu := h.sum_iff.1 ((mem_sumNodes h.layered.wf).1 hm)
      cases e with
      | mk s d w =>
        dsimp only at hu
        subst hu
        simp only [ht]
        cases w with
        | none => rfl
        | some w => cases w <;> simp
    · rfl
  rw [he]

end PM.Graph
