import Verif.Spec.JptSupport
import Verif.Learn.JptMode

/-! Helper lemmas: where the distribution of a column is positive. -/

namespace PM.Learn.Jpt
open Classical Graph Spec

/-- The distribution of a continuous column is positive between any two entries. -/
theorem column_covers {cap : ℝ} {rows : List Row} {P : Nyga.Params} {i : ℕ}
    (hci : ColumnFits rows (.continuous P, i)) {g : Circuit} {r : Node} {F : (Leaf → ℝ) → ℝ}
    (h : ColumnResult cap rows (.continuous P, i) g r F) {p : Var → ℝ} (hp : Inside rows (.continuous P, i) (p P.var)) :
    0 < F fun d => leafDensity d (p d.var) := by
  have heq := h.eq
  have hL := h.denotes.layered
  set col := rows.map fun x => x.real i with hcol
  obtain ⟨⟨x, hx, hxt⟩, y, hy, hyt⟩ := hp
  by_cases h2 : ∃ x ∈ col, ∃ y ∈ col, x ≠ y
  · have hI : Props.FitInput P col none := ⟨hci.1, hci.2, h2, by simp⟩
    obtain ⟨g', r', hfit, hL', hk', hleaf, _, hcov, _, _⟩ := Props.C39_fit hI cap
    simp only [columnCircuit, bind, Except.bind] at heq
    rw [← hcol, hfit] at heq
    simp only [hL'.root, Except.ok.injEq, Prod.mk.injEq] at heq
    obtain ⟨rfl, rfl⟩ := heq
    obtain ⟨c, hc, hin⟩ := (hcov (p P.var)).2 ⟨⟨_, List.mem_map.2 ⟨x, hx, rfl⟩, hxt⟩, _, List.mem_map.2 ⟨y, hy, rfl⟩, hyt⟩
    obtain ⟨e, he, rfl⟩ := List.mem_map.1 hc
    obtain ⟨f, hf⟩ := exists_circuitValue hL.graded.acyclic fun d => leafDensity d (p d.var)
    rw [← h.denotes.value _ f hf, hf.sum _ hk']
    have hnn := circuitValue_nonneg hL.wf hL.graded.acyclic hf fun n d hk => leafDensity_nonneg (h.denotes.valid n d hk) _
    have hpos : 0 < f e.dst := by
      obtain ⟨lo, hi, b, hlt, hk⟩ := hleaf e.dst hc
      obtain ⟨v, lo', hi', l', r', hk2, hmem⟩ := hin
      rw [hk] at hk2
      simp only [Option.some.injEq, Kind.leaf.injEq, Leaf.uniform.injEq] at hk2
      obtain ⟨rfl, rfl, rfl, rfl, rfl⟩ := hk2
      rw [hf.leaf _ _ hk]
      have := sub_pos.2 hlt
      refine lt_of_lt_of_eq (one_div_pos.2 this) (Eq.symm ?_)
      exact if_pos hmem
    have hw := (Props.C40_weights_partial hI hfit hL.root).1
    refine lt_of_lt_of_le (mul_pos (hw e he) hpos) (List.single_le_sum ?_ _ (List.mem_map.2 ⟨e, he, rfl⟩))
    intro a ha
    obtain ⟨e', he', rfl⟩ := List.mem_map.1 ha
    exact mul_nonneg (hw e' he').le (hnn _ (succ_mem_ids hL.wf (dst_mem_succ he')))
  · push Not at h2
    have hxy := h2 _ (List.mem_map.2 ⟨x, hx, rfl⟩) _ (List.mem_map.2 ⟨y, hy, rfl⟩)
    exact h.pos x hx p (le_antisymm (hyt.trans hxy.ge) hxt) trivial

theorem column_positive_iff {cap : ℝ} (hcap : 0 < cap) {rows : List Row} (hne : rows ≠ []) {ci : Column × ℕ}
    (hci : ColumnFits rows ci) {g : Circuit} {r : Node} {F : (Leaf → ℝ) → ℝ} (h : ColumnResult cap rows ci g r F)
    (hh : ∀ x ∈ rows, HashesToItself x ci) (p : Var → ℝ) :
    0 < (F fun d => leafDensity d (p d.var)) ↔ Resembles p rows ci := by
  obtain ⟨c, i⟩ := ci
  constructor
  · intro hp
    have hin := column_inside hcap hne hci h hp
    cases c with
    | other v => exact hci.elim
    | continuous P => exact hin
    | symbolic v dm =>
      obtain ⟨x, hx, e, he, h1, h2⟩ := hin
      exact ⟨x, hx, e, he, h1, h2⟩
    | integer v =>
      obtain ⟨x, hx, h1⟩ := hin
      refine ⟨x, hx, ?_⟩
      have := hh x hx
      rw [pyHash_eq this.1 this.2] at h1
      exact h1
  · intro hp
    cases c with
    | other v => exact hci.elim
    | continuous P => exact column_covers hci h hp
    | symbolic v dm =>
      obtain ⟨x, hx, hxp⟩ := hp
      exact h.pos x hx p hxp (hh x hx)
    | integer v =>
      obtain ⟨x, hx, hxp⟩ := hp
      exact h.pos x hx p hxp (hh x hx)

end PM.Learn.Jpt
