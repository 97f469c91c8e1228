import Verif.Jax.Classify
import Verif.Spec.Classify
import Verif.Jax.ToNxLemmas
import Verif.Jax.LayersLemmas
import Verif.Jax.ConvertLemmas

/-! Helper lemmas for classification circuits; the property theorems are in `Verif/Props/Classify.lean`. -/

namespace PM.Jax
open Spec

theorem shifts_eq (i : ℕ) (cs : List Layer) : shifts i cs = cs.map (Layer.shift i) := by
  induction cs with
  | nil => rfl
  | cons c cs ih => simp [shifts, ih]

theorem deepcopies_ok {cs : List Layer} (h : ∀ c ∈ cs, c.deepcopy = .ok c) : deepcopies cs = .ok cs := by
  induction cs with
  | nil => rfl
  | cons c cs ih =>
    rw [deepcopies, h c (by simp), ih fun d hd => h d (by simp [hd])]
    rfl

theorem deepcopy_ok : ∀ L : Layer, DenseInputs L → L.deepcopy = .ok L := by
  refine Layer.induct fun L ih h => ?_
  cases h with
  | input v nodes h =>
    rw [Layer.deepcopy, if_neg]
    rw [List.any_eq_true]
    rintro ⟨f, hf, hn⟩
    rcases h f hf with ⟨a, b, rfl⟩ | ⟨μ, s, t, rfl⟩ <;> simp [InputNode.noCopy] at hn
  | sparseSum ws cs children => rw [Layer.deepcopy, deepcopies_ok (cs := cs) fun c hc => ih c hc (children c hc)]; rfl
  | denseSum ws cs children => rw [Layer.deepcopy, deepcopies_ok (cs := cs) fun c hc => ih c hc (children c hc)]; rfl
  | product n es cs children => rw [Layer.deepcopy, deepcopies_ok (cs := cs) fun c hc => ih c hc (children c hc)]; rfl

theorem numberOfNodes_shift (i : ℕ) (L : Layer) : (L.shift i).numberOfNodes = L.numberOfNodes := by
  cases L <;> rfl

theorem layerValue_shift (i : ℕ) (a b : ℕ → ℝ) (k : ℕ) (hab : ∀ v < k, a (if i ≤ v then v + 1 else v) = b v) :
    ∀ L : Layer, IndicesBelow k L → layerValue a (L.shift i) = layerValue b L := by
  refine Layer.induct fun L ih h => ?_
  have kids : ∀ cs : List Layer, (∀ c ∈ cs, layerValue a (c.shift i) = layerValue b c) → layerValues a (shifts i cs) = layerValues b cs := by
    intro cs hc
    rw [shifts_eq, layerValues_eq, layerValues_eq, List.map_map]
    exact List.map_congr_left fun c h => hc c h
  cases h with
  | input v nodes h => simp only [Layer.shift, layerValue, hab v h]
  | sparseSum ws cs children =>
    have hk := kids cs fun c hc => ih c hc (children c hc)
    simp only [Layer.shift, layerValue, hk]
    rfl
  | denseSum ws cs children =>
    have hk := kids cs fun c hc => ih c hc (children c hc)
    simp only [Layer.shift, layerValue, hk]
    rfl
  | product n es cs children =>
    have hk := kids cs fun c hc => ih c hc (children c hc)
    simp only [Layer.shift, layerValue, hk]

theorem shift_last {k : ℕ} : ∀ L : Layer, IndicesBelow k L → L.shift k = L := by
  refine Layer.induct fun L ih h => ?_
  have kids : ∀ cs : List Layer, (∀ c ∈ cs, c.shift k = c) → shifts k cs = cs := by
    intro cs hc
    rw [shifts_eq]
    conv_rhs => rw [← List.map_id cs]
    exact List.map_congr_left fun c h => hc c h
  cases h with
  | input v nodes h => simp [Layer.shift, Nat.not_le.2 h]
  | sparseSum ws cs children => rw [Layer.shift, kids cs fun c hc => ih c hc (children c hc)]
  | denseSum ws cs children => rw [Layer.shift, kids cs fun c hc => ih c hc (children c hc)]
  | product n es cs children => rw [Layer.shift, kids cs fun c hc => ih c hc (children c hc)]

theorem regular_shift (i : ℕ) : ∀ L : Layer, Regular L → Regular (L.shift i) := by
  refine Layer.induct fun L ih h => ?_
  have kids : ∀ cs : List Layer, (∀ c ∈ cs, Regular (c.shift i)) → ∀ c ∈ shifts i cs, Regular c := by
    intro cs hc c hm
    rw [shifts_eq] at hm
    obtain ⟨d, hd, rfl⟩ := List.mem_map.1 hm
    exact hc d hd
  cases h with
  | input v nodes => exact .input _ _
  | sparseSum ws cs n children nonempty shapes indices weights =>
    refine .sparseSum _ _ n (kids cs fun c hc => ih c hc (children c hc)) nonempty ?_ indices weights
    rw [shifts_eq, List.forall₂_map_right_iff]
    exact shapes.imp fun w c h => by rw [numberOfNodes_shift]; exact h
  | denseSum ws cs n children nonempty shapes weights =>
    refine .denseSum _ _ n (kids cs fun c hc => ih c hc (children c hc)) nonempty ?_ weights
    rw [shifts_eq, List.forall₂_map_right_iff]
    exact shapes.imp fun w c h => by rw [numberOfNodes_shift]; exact h
  | product n es cs children indices =>
    refine .product _ _ _ (kids cs fun c hc => ih c hc (children c hc)) ?_
    rw [shifts_eq, List.forall₂_map_right_iff]
    exact indices.imp fun w c h => by rw [numberOfNodes_shift]; exact h

/-- Where a new variable is inserted. -/
theorem uniqueSorted_insert {vars : List ℕ} (hv : vars.Pairwise (· < ·)) {c : ℕ} (hc : c ∉ vars) :
    ∃ A B : List ℕ, vars = A ++ B ∧ uniqueSorted (vars ++ [c]) = A ++ c :: B ∧ c ∉ A ∧ (∀ a ∈ A, a < c) ∧ ∀ b ∈ B, c < b := by
  refine ⟨vars.filter (· < c), vars.filter fun v => !decide (v < c), ?_, ?_, by simp, by simp, ?_⟩
  rotate_right
  · intro b hb
    simp only [List.mem_filter, Bool.not_eq_true', decide_eq_false_iff_not, not_lt] at hb
    exact lt_of_le_of_ne hb.2 fun h => hc (h ▸ hb.1)
  · have hp := List.filter_append_perm (· < c) vars
    refine (List.Perm.eq_of_pairwise' (r := (· ≤ ·)) ?_ (hv.imp le_of_lt) hp).symm
    rw [List.pairwise_append]
    refine ⟨(hv.filter _).imp le_of_lt, (hv.filter _).imp le_of_lt, ?_⟩
    intro a ha b hb
    simp only [List.mem_filter, Bool.not_eq_true', decide_eq_false_iff_not, not_lt, decide_eq_true_eq] at ha hb
    omega
  · have hn : (vars ++ [c]).Nodup := by
      rw [List.nodup_append]
      refine ⟨hv.imp fun h => h.ne, by simp, ?_⟩
      intro a ha b hb
      rw [List.mem_singleton] at hb
      subst hb
      exact fun h => hc (h ▸ ha)
    rw [uniqueSorted, hn.dedup]
    have hp : (vars.filter (· < c) ++ c :: vars.filter fun v => !decide (v < c)).Perm (vars ++ [c]) := by
      refine List.perm_middle.trans ?_
      refine ((List.filter_append_perm (· < c) vars).cons c).trans ?_
      exact (List.perm_append_singleton c vars).symm
    refine List.Perm.eq_of_pairwise' (r := (· ≤ ·)) (List.pairwise_insertionSort _ _) ?_ ((List.perm_insertionSort _ _).trans hp.symm)
    rw [List.pairwise_append, List.pairwise_cons]
    refine ⟨(hv.filter _).imp le_of_lt, ⟨?_, (hv.filter _).imp le_of_lt⟩, ?_⟩
    · intro b hb
      simp only [List.mem_filter, Bool.not_eq_true', decide_eq_false_iff_not, not_lt] at hb
      exact hb.2
    · intro a ha b hb
      simp only [List.mem_filter, decide_eq_true_eq] at ha
      rcases List.mem_cons.1 hb with rfl | hb
      · exact ha.2.le
      · simp only [List.mem_filter, Bool.not_eq_true', decide_eq_false_iff_not, not_lt] at hb
        omega

/-- The values of the class layer: one for the class itself. -/
theorem classLayer_value {i n k : ℕ} (hk : k < n) {a : ℕ → ℝ} (ha : a i = (k : ℝ)) :
    layerValue a (classLayer i n) = (List.range n).map fun j => if j = k then (1 : ℝ) else 0 := by
  simp only [classLayer, layerValue, List.map_map]
  apply List.map_congr_left
  intro j hj
  rw [List.mem_range] at hj
  simp only [Function.comp_apply, InputNode.logDensity, ha, List.length_map, List.length_range, stateIndex_nat hk]
  have hl : ((List.range n).map fun l => LogP.log (if l = j then 1 else 0)).getD k .negInf = LogP.log (if k = j then 1 else 0) := by
    rw [List.getD_eq_getElem _ _ (by simpa using hk)]
    simp
  have hs : (((List.range n).map fun l => LogP.log (if l = j then 1 else 0)).map LogP.exp).sum = 1 := by
    rw [List.map_map]
    have : ((List.range n).map (LogP.exp ∘ fun l => LogP.log (if l = j then 1 else 0))) = (List.range n).map fun l => if l = j then (1 : ℝ) else 0 := by
      apply List.map_congr_left
      intro l _
      simp only [Function.comp_apply]
      rw [LogP.exp_log (by split <;> norm_num)]
    rw [this, List.sum_map_ite_eq]
    simp [List.count_eq_one_of_mem List.nodup_range (List.mem_range.2 hj)]
  have he := LogP.exp_logsumexp ((List.range n).map fun l => LogP.log (if l = j then 1 else 0))
  rw [hs] at he
  rw [LogP.exp_sub (LogP.exp_pos.1 (by rw [he]; norm_num)), he, div_one, hl, LogP.exp_log (by split <;> norm_num)]
  simp only [eq_comm]

end PM.Jax
