import Verif.Circuit.NormalizeLemmas
import Verif.Spec.Integral
import Verif.Props.Examples

/-! # C12: `normalize` -/

namespace PM.Props

open Spec Graph

variable {D : Type}

/-- **C12.** If every sum unit has an edge with a weight above `-inf`, `normalize` succeeds and divides every linear
weight by the sum of the weights of its unit; units and edges stay the same. -/
theorem C12_normalize {g : Graph D} (hw : g.WF) (hwt : Weighted g)
    (hpos : ∀ n, g.kind? n = some .sum → ∃ e ∈ g.outEdges n, 0 < linWeight e) :
    ∃ g', g.normalize = .ok g' ∧ g'.nodes = g.nodes ∧
      g'.edges.map (fun e => (e.src, e.dst)) = g.edges.map (fun e => (e.src, e.dst)) ∧
      (∀ n, g.kind? n = some .sum → (g'.outEdges n).map linWeight =
        (g.outEdges n).map fun e => linWeight e / ((g.outEdges n).map linWeight).sum) ∧
      (∀ n, g.kind? n ≠ some .sum → g'.outEdges n = g.outEdges n) := by
  have hne : ∀ n, g.kind? n = some .sum → g.outEdges n ≠ [] := by
    intro n hk h
    obtain ⟨e, he, _⟩ := hpos n hk
    rw [h] at he
    simp at he
  refine ⟨_, normalize_eq hw hwt hne, rfl, ?_, ?_, ?_⟩
  · simp [Function.comp_def, normEdge_src, normEdge_dst]
  · intro n hk
    rw [outEdges_normEdge, List.map_map]
    apply List.map_congr_left
    intro e he
    have hsrc := (mem_outEdges.1 he).2
    have htot : 0 < ((g.outEdges n).map linWeight).sum := by
      obtain ⟨e', he', hpe⟩ := hpos n hk
      exact lt_of_lt_of_le hpe (List.single_le_sum (by
        intro x hx; obtain ⟨e'', _, rfl⟩ := List.mem_map.1 hx; exact linWeight_nonneg e'') _ (List.mem_map.2 ⟨e', he', rfl⟩))
    have hlt : g.logTotal n ≠ .negInf := by
      rw [← LogP.exp_pos, exp_logTotal hwt hk]; exact htot
    have hmem : e.src ∈ g.sumNodes := (mem_sumNodes hw).2 (hsrc ▸ hk)
    simp only [Function.comp, normEdge]
    rw [if_pos hmem, hsrc]
    have hsome := hwt n hk e he
    cases hwe : e.weight with
    | none => simp [hwe] at hsome
    | some w =>
      rw [← exp_logTotal hwt hk]
      simp only [linWeight, hwe, Option.map_some]
      exact LogP.exp_sub hlt
  · intro n hk
    rw [outEdges_normEdge]
    conv_rhs => rw [← List.map_id (g.outEdges n)]
    apply List.map_congr_left
    intro e he
    have hsrc := (mem_outEdges.1 he).2
    have : e.src ∉ g.sumNodes := fun h => hk (hsrc ▸ (mem_sumNodes hw).1 h)
    simp [normEdge, this]

/-- **C12.** After `normalize` the weights of every sum unit sum to one. -/
theorem C12_sums_to_one {g : Graph D} (hw : g.WF) (hwt : Weighted g)
    (hpos : ∀ n, g.kind? n = some .sum → ∃ e ∈ g.outEdges n, 0 < linWeight e) :
    ∃ g', g.normalize = .ok g' ∧ NormalizedSums g' := by
  obtain ⟨g', h1, h2, _, h4, _⟩ := C12_normalize hw hwt hpos
  refine ⟨g', h1, ?_⟩
  intro n hk
  have hk' : g.kind? n = some .sum := by rw [← hk]; simp [kind?, h2]
  rw [h4 n hk']
  have htot : 0 < ((g.outEdges n).map linWeight).sum := by
    obtain ⟨e', he', hpe⟩ := hpos n hk'
    exact lt_of_lt_of_le hpe (List.single_le_sum (by
      intro x hx; obtain ⟨e'', _, rfl⟩ := List.mem_map.1 hx; exact linWeight_nonneg e'') _ (List.mem_map.2 ⟨e', he', rfl⟩))
  have : ∀ (l : List Edge) (c : ℝ), (l.map fun e => linWeight e / c).sum = (l.map linWeight).sum / c := by
    intro l c
    induction l with
    | nil => simp
    | cons a l ih => simp [ih, add_div]
  rw [this, div_self htot.ne']

/-- **C12.** Normalizing a circuit whose sum units are normalized changes nothing; so normalizing twice is normalizing
once. -/
theorem C12_idempotent {g : Graph D} (hw : g.WF) (hwt : Weighted g) (hn : NormalizedSums g) : g.normalize = .ok g := by
  have hne : ∀ n, g.kind? n = some .sum → g.outEdges n ≠ [] := by
    intro n hk h
    have := hn n hk
    rw [h] at this
    simp at this
  rw [normalize_eq hw hwt hne]
  congr 1
  have : g.edges.map (g.normEdge g.sumNodes) = g.edges := by
    conv_rhs => rw [← List.map_id g.edges]
    apply List.map_congr_left
    intro e he
    unfold normEdge
    split
    · rename_i hm
      have hk := (mem_sumNodes hw).1 hm
      have h0 : g.logTotal e.src = .fin 0 := by
        apply LogP.exp_injective
        rw [exp_logTotal hwt hk, hn _ hk]
        simp
      have hsome := hwt e.src hk e (mem_outEdges.2 ⟨he, rfl⟩)
      obtain ⟨s, d, w⟩ := e
      cases w with
      | none => simp at hsome
      | some w =>
        simp only at h0
        simp only [h0, Option.map_some, id]
        cases w with
        | negInf => simp
        | fin w => simp
    · rfl
  rw [this]

/-- Two normalizations in a row. -/
theorem C12_twice {g : Graph D} (hw : g.WF) (hwt : Weighted g)
    (hpos : ∀ n, g.kind? n = some .sum → ∃ e ∈ g.outEdges n, 0 < linWeight e) :
    ∃ g', g.normalize = .ok g' ∧ g'.normalize = .ok g' := by
  have hne : ∀ n, g.kind? n = some .sum → g.outEdges n ≠ [] := by
    intro n hk h
    obtain ⟨e, he, _⟩ := hpos n hk
    rw [h] at he
    simp at he
  obtain ⟨g', h1, h2⟩ := C12_sums_to_one hw hwt hpos
  refine ⟨g', h1, C12_idempotent ?_ ?_ h2⟩
  · rw [normalize_eq hw hwt hne] at h1
    injection h1 with h1
    subst h1
    refine ⟨hw.nodup, ?_, ?_, ?_⟩
    · have := hw.edgeNodup
      simpa [Function.comp_def, normEdge_src, normEdge_dst] using this
    · intro e he
      obtain ⟨e', he', rfl⟩ := List.mem_map.1 he
      rw [normEdge_src]
      exact hw.srcMem e' he'
    · intro e he
      obtain ⟨e', he', rfl⟩ := List.mem_map.1 he
      rw [normEdge_dst]
      exact hw.dstMem e' he'
  · rw [normalize_eq hw hwt hne] at h1
    injection h1 with h1
    subst h1
    intro n hk e he
    rw [outEdges_normEdge] at he
    obtain ⟨e', he', rfl⟩ := List.mem_map.1 he
    have := hwt n hk e' he'
    unfold normEdge
    split
    · simpa using this
    · exact this

/-- **C12.** The quotient of any two weights of a sum unit is unchanged (stated without division). -/
theorem C12_ratios {g : Graph D} (hw : g.WF) (hwt : Weighted g)
    (hpos : ∀ n, g.kind? n = some .sum → ∃ e ∈ g.outEdges n, 0 < linWeight e) :
    ∃ g', g.normalize = .ok g' ∧ ∀ n, g.kind? n = some .sum → ∀ i j (hi : i < (g.outEdges n).length)
      (hj : j < (g.outEdges n).length) (hi' : i < (g'.outEdges n).length) (hj' : j < (g'.outEdges n).length),
        linWeight (g'.outEdges n)[i] * linWeight (g.outEdges n)[j]
          = linWeight (g'.outEdges n)[j] * linWeight (g.outEdges n)[i] := by
  obtain ⟨g', h1, _, _, h4, _⟩ := C12_normalize hw hwt hpos
  refine ⟨g', h1, ?_⟩
  intro n hk i j hi hj hi' hj'
  have h := h4 n hk
  have hget : ∀ k (hk1 : k < (g.outEdges n).length) (hk2 : k < (g'.outEdges n).length),
      linWeight (g'.outEdges n)[k] = linWeight (g.outEdges n)[k] / ((g.outEdges n).map linWeight).sum := by
    intro k hk1 hk2
    have := congrArg (fun l => l[k]?) h
    simp only [List.getElem?_map, List.getElem?_eq_getElem hk1, List.getElem?_eq_getElem hk2, Option.map_some] at this
    injection this
  rw [hget i hi hi', hget j hj hj']
  ring

/-- A sum unit with weights 2 and 3 meets the hypotheses. -/
noncomputable def two3 : Graph Leaf where
  nodes := [(0, .sum), (1, .leaf (.uniform 0 0 1 .closed .closed)), (2, .leaf (.uniform 0 1 2 .closed .closed))]
  edges := [⟨0, 1, some (.fin (Real.log 2))⟩, ⟨0, 2, some (.fin (Real.log 3))⟩]

example : two3.WF ∧ Weighted two3 ∧ (∀ n, two3.kind? n = some .sum → ∃ e ∈ two3.outEdges n, 0 < linWeight e) ∧
    ¬ NormalizedSums two3 := by
  refine ⟨⟨by decide, by decide, by simp [two3, ids], by simp [two3, ids]⟩, fun n h => ?_, fun n h => ?_, fun h => ?_⟩
  · exact Ex.forall_kind (g := two3) (P := fun n k => k = .sum → ∀ e ∈ two3.outEdges n, e.weight.isSome)
      (by simp [two3, outEdges]) n _ h rfl
  · exact Ex.forall_kind (g := two3) (P := fun n k => k = .sum → ∃ e ∈ two3.outEdges n, 0 < linWeight e)
      (by
        have : 0 < linWeight ⟨0, 1, some (.fin (Real.log 2))⟩ := Real.exp_pos _
        simp [two3, outEdges]
        exact ⟨_, ⟨.inl rfl, rfl⟩, this⟩) n _ h rfl
  · have := h 0 (by rfl)
    have h2 : linWeight ⟨0, 1, some (.fin (Real.log 2))⟩ = 2 := Real.exp_log (by norm_num)
    have h3 : linWeight ⟨0, 2, some (.fin (Real.log 3))⟩ = 3 := Real.exp_log (by norm_num)
    simp [two3, outEdges, h2, h3] at this
    norm_num at this

end PM.Props
