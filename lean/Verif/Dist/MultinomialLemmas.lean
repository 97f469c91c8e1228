import Verif.Spec.Multinomial
import Verif.Events.Algebra
import Mathlib.Tactic.Linarith
import Mathlib.Data.List.GetD
import Mathlib.Tactic.Ring
import Mathlib.Algebra.BigOperators.Field

/-! # Lemmas about multinomial tables -/

namespace PM

open Spec

theorem mem_cartesian : ∀ {ls : List (List ℕ)} {i : List ℕ}, i ∈ cartesian ls ↔ List.Forall₂ (· ∈ ·) i ls := by
  intro ls
  induction ls with
  | nil => intro i; simp [cartesian]
  | cons l ls ih =>
    intro i
    simp only [cartesian, List.mem_flatMap, List.mem_map]
    constructor
    · rintro ⟨a, ha, j, hj, rfl⟩
      exact .cons ha (ih.1 hj)
    · intro h
      cases h with
      | cons ha hj => exact ⟨_, ha, _, ih.2 hj, rfl⟩

theorem nodup_cartesian : ∀ {ls : List (List ℕ)}, (∀ l ∈ ls, l.Nodup) → (cartesian ls).Nodup := by
  intro ls
  induction ls with
  | nil => intro _; simp [cartesian]
  | cons l ls ih =>
    intro h
    have h1 := ih fun l hl => h l (by simp [hl])
    simp only [cartesian]
    rw [List.nodup_flatMap]
    refine ⟨fun a _ => h1.map (by intro x y hxy; simpa using hxy), ?_⟩
    refine (h l (by simp)).imp ?_
    intro a b hab
    simp only [Function.onFun, List.disjoint_left, List.mem_map]
    rintro _ ⟨x, _, rfl⟩ ⟨y, _, hy⟩
    injection hy with hy _
    exact hab hy.symm

namespace NdArray

theorem mem_cells {shape i : List ℕ} : i ∈ cells shape ↔ IsCell shape i := by
  rw [cells, mem_cartesian, List.forall₂_map_right_iff, IsCell]
  simp only [List.mem_range]

theorem nodup_cells (shape : List ℕ) : (cells shape).Nodup := by
  apply nodup_cartesian
  intro l hl
  obtain ⟨n, _, rfl⟩ := List.mem_map.1 hl
  exact List.nodup_range

open Classical in
theorem cellMass_eq (a : NdArray) (A : Set (List ℕ)) :
    cellMass a A = (((cells a.shape).filter fun i => i ∈ A).map a.get).sum := by
  have hset : {i | IsCell a.shape i ∧ i ∈ A} = (((cells a.shape).filter fun i => i ∈ A).toFinset : Set (List ℕ)) := by
    ext i
    simp [mem_cells]
  rw [cellMass, hset, finsum_mem_coe_finset, List.sum_toFinset _ ((nodup_cells _).filter _)]

theorem total_eq (a : NdArray) : a.total = cellMass a Set.univ := by
  rw [cellMass_eq]
  simp [total]

/-- A duplicate-free list of cells. -/
theorem sum_list_eq (a : NdArray) {l : List (List ℕ)} (hn : l.Nodup) (hl : ∀ i ∈ l, IsCell a.shape i) :
    (l.map a.get).sum = cellMass a {i | i ∈ l} := by
  classical
  have hset : {i | IsCell a.shape i ∧ i ∈ {i | i ∈ l}} = (l.toFinset : Set (List ℕ)) := by
    ext i
    simp only [Set.mem_ofPred_eq, List.coe_toFinset]
    exact ⟨fun h => h.2, fun h => ⟨hl i h, h⟩⟩
  rw [cellMass, hset, finsum_mem_coe_finset, List.sum_toFinset _ hn]

theorem cellMass_congr {a b : NdArray} {A B : Set (List ℕ)} (hs : a.shape = b.shape)
    (hA : ∀ i, IsCell a.shape i → (i ∈ A ↔ i ∈ B)) (hg : ∀ i, IsCell a.shape i → i ∈ A → a.get i = b.get i) :
    cellMass a A = cellMass b B := by
  have hset : {i | IsCell a.shape i ∧ i ∈ A} = {i | IsCell b.shape i ∧ i ∈ B} := by
    ext i
    simp only [Set.mem_ofPred_eq, ← hs]
    exact and_congr_right fun h => hA i h
  rw [cellMass, cellMass, ← hset]
  exact finsum_mem_congr rfl fun i hi => hg i hi.1 hi.2

theorem cellMass_nonneg {a : NdArray} {A : Set (List ℕ)} (h : ∀ i, IsCell a.shape i → 0 ≤ a.get i) : 0 ≤ cellMass a A := by
  classical
  rw [cellMass_eq]
  apply List.sum_nonneg
  intro x hx
  obtain ⟨i, hi, rfl⟩ := List.mem_map.1 hx
  exact h i (mem_cells.1 (List.mem_of_mem_filter hi))

theorem cellMass_divBy (a : NdArray) (x : ℝ) (A : Set (List ℕ)) : cellMass (a.divBy x) A = cellMass a A / x := by
  classical
  rw [cellMass_eq, cellMass_eq]
  simp only [divBy]
  generalize (cells a.shape).filter (fun i => decide (i ∈ A)) = l
  induction l with
  | nil => simp
  | cons i l ih => simp only [List.map_cons, List.sum_cons, ih, add_div]

theorem project_nil {α : Type} (i : List α) : project [] i = [] := by simp [project]

theorem project_cons {α : Type} (b : Bool) (keep : List Bool) (a : α) (i : List α) :
    project (b :: keep) (a :: i) = if b then a :: project keep i else project keep i := by
  cases b <;> simp [project]

theorem isCell_project : ∀ {shape i : List ℕ} (keep : List Bool), IsCell shape i →
    IsCell (project keep shape) (project keep i) := by
  intro shape i keep h
  induction h generalizing keep with
  | nil => cases keep <;> simp [project, IsCell]
  | @cons a n i s ha h ih =>
    cases keep with
    | nil => simp [project, IsCell]
    | cons b keep =>
      rw [project_cons, project_cons]
      cases b with
      | true => exact .cons ha (ih keep)
      | false => exact ih keep

/-- Summing out axes does not change sums over sets of cells of the remaining axes. -/
theorem cellMass_sumAxes (a : NdArray) (keep : List Bool) (A : Set (List ℕ)) :
    cellMass (a.sumAxes keep) A = cellMass a {i | project keep i ∈ A} := by
  classical
  rw [cellMass_eq, cellMass_eq]
  simp only [sumAxes]
  have h1 : ∀ (l js : List (List ℕ)), js.Nodup → (∀ i ∈ l, project keep i ∈ js) →
      ((js.filter fun j => j ∈ A).map fun j => ((l.filter fun i => project keep i == j).map a.get).sum).sum =
        ((l.filter fun i => i ∈ {i | project keep i ∈ A}).map a.get).sum := by
    intro l js hn hl
    induction l with
    | nil => simp
    | cons i l ih =>
      have h2 : ∀ j, (((i :: l).filter fun i => project keep i == j).map a.get).sum =
          (if project keep i = j then a.get i else 0) + ((l.filter fun i => project keep i == j).map a.get).sum := by
        intro j
        rw [List.filter_cons]
        by_cases h : project keep i = j <;> simp [h]
      simp only [h2]
      rw [List.sum_map_add, ih fun i hi => hl i (by simp [hi])]
      have h3 : (((js.filter fun j => j ∈ A)).map fun j => if project keep i = j then a.get i else 0).sum =
          if project keep i ∈ A then a.get i else 0 := by
        have hnf := hn.filter (fun j => decide (j ∈ A))
        by_cases hA : project keep i ∈ A
        · have hm : project keep i ∈ js.filter fun j => j ∈ A := by
            simp [hA, hl i (by simp)]
          rw [if_pos hA]
          revert hm hnf
          generalize (js.filter fun j => decide (j ∈ A)) = js'
          intro hnf hm
          induction js' with
          | nil => simp at hm
          | cons j js' ih' =>
            rw [List.nodup_cons] at hnf
            simp only [List.map_cons, List.sum_cons]
            by_cases hj : project keep i = j
            · rw [if_pos hj]
              have : (js'.map fun j => if project keep i = j then a.get i else 0).sum = 0 := by
                apply List.sum_eq_zero
                intro x hx
                obtain ⟨j', hj', rfl⟩ := List.mem_map.1 hx
                rw [if_neg]
                rintro h
                exact hnf.1 (hj ▸ h ▸ hj')
              rw [this, add_zero]
            · rw [if_neg hj, zero_add]
              rcases List.mem_cons.1 hm with h | h
              · exact absurd h hj
              · exact ih' hnf.2 h
        · rw [if_neg hA]
          apply List.sum_eq_zero
          intro x hx
          obtain ⟨j, hj, rfl⟩ := List.mem_map.1 hx
          rw [if_neg]
          rintro rfl
          simp [hA] at hj
      rw [h3, List.filter_cons]
      by_cases hA : project keep i ∈ A <;> simp [hA]
  exact h1 _ _ (nodup_cells _) fun i hi => mem_cells.2 (isCell_project keep (mem_cells.1 hi))

theorem project_map_filter {α : Type} (P : α → Bool) (l : List α) : project (l.map P) l = l.filter P := by
  induction l with
  | nil => rfl
  | cons a l ih =>
    rw [List.map_cons, project_cons, ih, List.filter_cons]

theorem project_map {α β : Type} (f : α → β) (keep : List Bool) (l : List α) :
    project keep (l.map f) = (project keep l).map f := by
  induction l generalizing keep with
  | nil => cases keep <;> simp [project]
  | cons a l ih =>
    cases keep with
    | nil => simp [project]
    | cons b keep =>
      rw [List.map_cons, project_cons, project_cons, ih]
      cases b <;> simp

/-- The cells of the original table that lie over a cell of the kept axes. -/
theorem project_eq_iff {α : Type} (P : α → Bool) : ∀ {vs : List α} {i j : List ℕ}, vs.Nodup → i.length = vs.length →
    j.length = (vs.filter P).length →
    (project (vs.map P) i = j ↔ ∀ p ∈ (vs.filter P).zip j, p ∈ vs.zip i) := by
  intro vs
  induction vs with
  | nil =>
    intro i j _ hi hj
    simp only [List.filter_nil, List.length_nil, List.length_eq_zero_iff] at hj
    subst hj
    simp [project]
  | cons v vs ih =>
    intro i j hn hi hj
    rw [List.nodup_cons] at hn
    cases i with
    | nil => simp at hi
    | cons a i =>
      have hi' : i.length = vs.length := by simpa using hi
      rw [List.map_cons, project_cons]
      by_cases hv : P v = true
      · rw [List.filter_cons_of_pos hv] at hj ⊢
        cases j with
        | nil => simp at hj
        | cons b j =>
          have hj' : j.length = (vs.filter P).length := by simpa using hj
          rw [if_pos hv, List.cons.injEq, ih hn.2 hi' hj', List.zip_cons_cons, List.zip_cons_cons]
          constructor
          · rintro ⟨rfl, h⟩ p hp
            rcases List.mem_cons.1 hp with rfl | hp
            · simp
            · exact List.mem_cons_of_mem _ (h p hp)
          · intro h
            have h1 := h (v, b) (by simp)
            refine ⟨?_, fun p hp => ?_⟩
            · rcases List.mem_cons.1 h1 with h1 | h1
              · injection h1 with _ h1
                exact h1.symm
              · exact absurd (List.of_mem_zip h1).1 hn.1
            · rcases List.mem_cons.1 (h p (List.mem_cons_of_mem _ hp)) with rfl | h2
              · exact absurd (List.mem_of_mem_filter (List.of_mem_zip hp).1) hn.1
              · exact h2
      · rw [List.filter_cons_of_neg hv] at hj ⊢
        rw [if_neg hv, ih hn.2 hi' hj, List.zip_cons_cons]
        refine forall_congr' fun p => forall_congr' fun hp => ?_
        refine ⟨fun h => List.mem_cons_of_mem _ h, fun h => ?_⟩
        rcases List.mem_cons.1 h with rfl | h
        · exact absurd (List.mem_of_mem_filter (List.of_mem_zip hp).1) hn.1
        · exact h

end NdArray

namespace Multinomial

open NdArray

variable {T : Multinomial}

theorem _root_.PM.Spec.Table.total_pos (hT : Table T) : 0 < T.probs.total := by
  rw [total_eq]
  exact hT.pos

theorem _root_.PM.Spec.Table.vars_nodup (hT : Table T) : T.vars.Nodup := hT.vars.of_map _

theorem cellMass_normalize (T : Multinomial) (A : Set (List ℕ)) :
    cellMass T.normalize.probs A = cellMass T.probs A / cellMass T.probs Set.univ := by
  rw [normalize, cellMass_divBy, total_eq]

theorem _root_.PM.Spec.Table.normalize (hT : Table T) : Table T.normalize ∧ cellMass T.normalize.probs Set.univ = 1 := by
  have h1 : cellMass T.normalize.probs Set.univ = 1 := by
    rw [cellMass_normalize, div_self hT.pos.ne']
  refine ⟨⟨hT.vars, hT.domains, hT.shape, ?_, ?_⟩, h1⟩
  · intro i hi
    exact div_nonneg (hT.nonneg i hi) hT.total_pos.le
  · rw [h1]
    exact one_pos

/-- The cells of `T` over the cell `j` of the variables `ks`. -/
theorem mem_fibre (hT : Table T) {vs : List SymVar} {i j : List ℕ} (hi : IsCell T.probs.shape i)
    (hj : IsCell ((T.vars.filter fun v => decide (v ∈ vs)).map fun v => v.domain.length) j) :
    project (T.vars.map fun v => decide (v ∈ vs)) i = j ↔
      ∀ p ∈ (T.vars.filter fun v => decide (v ∈ vs)).zip j, p ∈ T.vars.zip i := by
  apply project_eq_iff
  · exact hT.vars_nodup
  · rw [hi.length_eq, hT.shape, List.length_map]
  · rw [List.Forall₂.length_eq hj, List.length_map]

theorem cellMass_singleton (a : NdArray) {j : List ℕ} (hj : IsCell a.shape j) : cellMass a {j} = a.get j := by
  have := sum_list_eq a (l := [j]) (by simp) (by simpa using hj)
  simp only [List.map_cons, List.map_nil, List.sum_cons, List.sum_nil, add_zero, List.mem_singleton] at this
  rw [this]
  rfl

theorem sumAxes_get (hT : Table T) (vs : List SymVar) {j : List ℕ}
    (hj : IsCell ((T.vars.filter fun v => decide (v ∈ vs)).map fun v => v.domain.length) j) :
    (T.probs.sumAxes (T.vars.map fun v => decide (v ∈ vs))).get j =
      cellMass T.probs {i | ∀ p ∈ (T.vars.filter fun v => decide (v ∈ vs)).zip j, p ∈ T.vars.zip i} := by
  have hs : (T.probs.sumAxes (T.vars.map fun v => decide (v ∈ vs))).shape =
      (T.vars.filter fun v => decide (v ∈ vs)).map fun v => v.domain.length := by
    simp only [sumAxes, hT.shape, project_map, project_map_filter]
  rw [← cellMass_singleton _ (by rw [hs]; exact hj), cellMass_sumAxes]
  refine cellMass_congr rfl ?_ fun _ _ _ => rfl
  intro i hi
  exact mem_fibre hT hi hj

theorem marginal_eq (hT : Table T) (vs : List SymVar)
    (hs : (vs.map fun v => v.domain.length) = (T.vars.filter fun v => decide (v ∈ vs)).map fun v => v.domain.length) :
    T.marginal vs = .ok (normalize ⟨vs, T.probs.sumAxes (T.vars.map fun v => decide (v ∈ vs))⟩) := by
  have : shapeOf vs = (T.probs.sumAxes (T.vars.map fun v => decide (v ∈ vs))).shape := by
    simp only [sumAxes, hT.shape, project_map, project_map_filter]
    exact hs
  rw [marginal, make, if_pos this]
  rfl

theorem marginal_error (hT : Table T) (vs : List SymVar)
    (hs : (vs.map fun v => v.domain.length) ≠ (T.vars.filter fun v => decide (v ∈ vs)).map fun v => v.domain.length) :
    T.marginal vs = .error .valueError := by
  have : shapeOf vs ≠ (T.probs.sumAxes (T.vars.map fun v => decide (v ∈ vs))).shape := by
    simp only [sumAxes, hT.shape, project_map, project_map_filter]
    exact hs
  rw [marginal, make, if_neg this]
  rfl

theorem filter_sublist {α : Type} [DecidableEq α] : ∀ {l vs : List α}, vs.Sublist l → l.Nodup →
    l.filter (fun v => decide (v ∈ vs)) = vs := by
  intro l vs h
  induction h with
  | slnil => simp
  | @cons vs l a h ih =>
    intro hn
    rw [List.nodup_cons] at hn
    rw [List.filter_cons_of_neg, ih hn.2]
    simpa using fun ha => hn.1 (h.subset ha)
  | @cons_cons vs l a h ih =>
    intro hn
    rw [List.nodup_cons] at hn
    rw [List.filter_cons_of_pos (by simp)]
    congr 1
    rw [← ih hn.2]
    apply List.filter_congr
    intro x hx
    have hne : x ≠ a := fun h => hn.1 (h ▸ hx)
    simp only [List.mem_cons, hne, false_or, ih hn.2]

/-! ### Events -/

theorem keys_fillMissing (hT : Table T) {E : SimpleEvent} (hE : TableEvent T E) :
    ((T.fillMissing E).map Prod.fst).Nodup := by
  rw [fillMissing, List.map_append, List.nodup_append]
  refine ⟨hE.keys, ?_, ?_⟩
  · rw [List.map_map]
    exact (hT.vars.sublist (List.filter_sublist.map _))
  · intro a ha b hb hab
    subst hab
    rw [List.map_map] at hb
    obtain ⟨v, hv, rfl⟩ := List.mem_map.1 hb
    have := (List.mem_filter.1 hv).2
    obtain ⟨p, hp, hpv⟩ := List.mem_map.1 ha
    simp only [Bool.not_eq_true', List.any_eq_false] at this
    exact this p hp (by simpa using hpv)

theorem get_of_mem {E : SimpleEvent} (hn : (E.map Prod.fst).Nodup) {p : Var × VSet} (hp : p ∈ E) :
    E.get p.1 = .ok p.2 := by
  rw [SimpleEvent.get, SimpleEvent.find?_of_mem hn hp]

/-- The symbols of a variable in a filled event. -/
theorem symbolsOf_fill (hT : Table T) {E : SimpleEvent} (hE : TableEvent T E) {v : SymVar} (hv : v ∈ T.vars) :
    ∃ S : List ℤ, symbolsOf (T.fillMissing E) v.var = .ok S ∧ S.Nodup ∧ (∀ k ∈ S, k ∈ v.domain) ∧
      ∀ k ∈ v.domain, (k ∈ S ↔ ∀ p ∈ E, p.1 = v.var → p.2.Mem (k : ℝ)) := by
  by_cases h : ∃ A, (v.var, A) ∈ E
  · obtain ⟨A, hA⟩ := h
    obtain ⟨S, rfl, hS, hSd⟩ := hE.symbols v hv A hA
    refine ⟨S, ?_, hS, hSd, ?_⟩
    · have := get_of_mem (keys_fillMissing hT hE) (p := (v.var, .symbols S)) (List.mem_append_left _ hA)
      rw [symbolsOf, this]
      rfl
    · intro k _
      constructor
      · intro hk p hp hpv
        have h1 := get_of_mem hE.keys hp
        have h2 := get_of_mem hE.keys hA
        rw [hpv, h2] at h1
        injection h1 with h1
        rw [← h1]
        exact ⟨k, hk, rfl⟩
      · intro hk
        obtain ⟨k', hk', he⟩ := hk _ hA rfl
        have : k' = k := by exact_mod_cast he
        exact this ▸ hk'
  · refine ⟨v.domain, ?_, hT.domains v hv, fun _ h => h, ?_⟩
    · have hm : (v.var, VSet.symbols v.domain) ∈ T.fillMissing E := by
        refine List.mem_append_right _ (List.mem_map.2 ⟨v, ?_, rfl⟩)
        rw [List.mem_filter]
        refine ⟨hv, ?_⟩
        simp only [Bool.not_eq_true', List.any_eq_false]
        intro p hp hpv
        have hpv : p.1 = v.var := by simpa using hpv
        exact h ⟨p.2, by rw [← hpv]; exact hp⟩
      have := get_of_mem (keys_fillMissing hT hE) hm
      rw [symbolsOf, this]
      rfl
    · intro k hk
      refine ⟨fun _ p hp hpv => absurd ⟨p.2, by rw [← hpv]; exact hp⟩ h, fun _ => hk⟩

theorem mapM_indexOf {dom : List ℤ} : ∀ {S : List ℤ}, (∀ k ∈ S, k ∈ dom) →
    S.mapM (indexOf dom) = .ok (S.map fun k => dom.idxOf k) := by
  intro S
  induction S with
  | nil => intro _; rfl
  | cons k S ih =>
    intro h
    have hk : indexOf dom k = .ok (dom.idxOf k) := by rw [indexOf, if_pos (h k (by simp))]
    rw [List.mapM_cons, hk, ih fun k hk => h k (by simp [hk])]
    rfl

theorem mem_indices {dom S : List ℤ} (hn : dom.Nodup) (hS : ∀ k ∈ S, k ∈ dom) {a : ℕ} :
    a ∈ S.map (fun k => dom.idxOf k) ↔ a < dom.length ∧ dom.getD a 0 ∈ S := by
  rw [List.mem_map]
  constructor
  · rintro ⟨k, hk, rfl⟩
    have hlt := List.idxOf_lt_length_of_mem (hS k hk)
    refine ⟨hlt, ?_⟩
    rw [List.getD_eq_getElem _ _ hlt, List.getElem_idxOf]
    exact hk
  · rintro ⟨h, hk⟩
    refine ⟨_, hk, ?_⟩
    rw [List.getD_eq_getElem _ _ h]
    exact hn.idxOf_getElem a h

/-- `indices_from_simple_event` on a filled event. -/
theorem indices_fill (hT : Table T) {E : SimpleEvent} (hE : TableEvent T E) :
    ∃ I, T.indices (T.fillMissing E) = .ok I ∧ (∀ l ∈ I, l.Nodup) ∧
      ∀ i, i ∈ cartesian I ↔ IsCell T.probs.shape i ∧ CellIn T E i := by
  have key : ∀ vs : List SymVar, (∀ v ∈ vs, v ∈ T.vars) → ∃ I : List (List ℕ),
      (vs.mapM fun v => do
        let S ← symbolsOf (T.fillMissing E) v.var
        S.mapM (indexOf v.domain)) = Except.ok I ∧ (∀ l ∈ I, l.Nodup) ∧
      ∀ i, List.Forall₂ (· ∈ ·) i I ↔ List.Forall₂ (fun a v => a < v.domain.length ∧
        ∀ p ∈ E, p.1 = v.var → p.2.Mem ((v.domain.getD a 0 : ℤ) : ℝ)) i vs := by
    intro vs
    induction vs with
    | nil => intro _; exact ⟨[], rfl, by simp, by simp⟩
    | cons v vs ih =>
      intro h
      obtain ⟨I, h1, h2, h3⟩ := ih fun v hv => h v (by simp [hv])
      have hv := h v (by simp)
      obtain ⟨S, hS, hSn, hSd, hSm⟩ := symbolsOf_fill hT hE hv
      refine ⟨(S.map fun k => v.domain.idxOf k) :: I, ?_, ?_, ?_⟩
      · rw [List.mapM_cons, hS, h1]
        simp only [bind, Except.bind, mapM_indexOf hSd]
        rfl
      · intro l hl
        rcases List.mem_cons.1 hl with rfl | hl
        · refine (List.nodup_map_iff_inj_on hSn).2 ?_
          intro x hx y hy hxy
          exact (List.idxOf_inj (hSd x hx)).1 hxy
        · exact h2 l hl
      · intro i
        cases i with
        | nil => simp
        | cons a i =>
          rw [List.forall₂_cons, List.forall₂_cons, h3 i, mem_indices (hT.domains v hv) hSd]
          refine and_congr_left fun _ => and_congr_right fun ha => ?_
          refine hSm _ ?_
          rw [List.getD_eq_getElem _ _ ha]
          exact List.getElem_mem ha
  obtain ⟨I, h1, h2, h3⟩ := key T.vars fun _ h => h
  refine ⟨I, h1, h2, fun i => ?_⟩
  rw [mem_cartesian, h3 i, List.forall₂_iff_zip, IsCell, hT.shape, List.forall₂_map_right_iff, List.forall₂_iff_zip]
  have hz : ∀ (R : ℕ → SymVar → Prop), (∀ {a b}, (a, b) ∈ i.zip T.vars → R a b) ↔ ∀ vk ∈ T.vars.zip i, R vk.2 vk.1 := by
    intro R
    constructor
    · intro h vk hvk
      apply h
      rw [List.mem_iff_getElem] at hvk ⊢
      obtain ⟨n, hn, rfl⟩ := hvk
      simp only [List.length_zip] at hn
      refine ⟨n, by simp only [List.length_zip]; omega, ?_⟩
      simp
    · intro h a b hab
      apply h (b, a)
      rw [List.mem_iff_getElem] at hab ⊢
      obtain ⟨n, hn, he⟩ := hab
      simp only [List.length_zip] at hn
      refine ⟨n, by simp only [List.length_zip]; omega, ?_⟩
      simp only [List.getElem_zip, Prod.mk.injEq] at he ⊢
      exact ⟨he.2, he.1⟩
  rw [hz, hz, CellIn]
  constructor
  · rintro ⟨h, h'⟩
    exact ⟨⟨h, fun vk hvk => (h' vk hvk).1⟩, fun vk hvk => (h' vk hvk).2⟩
  · rintro ⟨⟨h, h'⟩, h''⟩
    exact ⟨h, fun vk hvk => ⟨h' vk hvk, h'' vk hvk⟩⟩

theorem probSimple_fill (hT : Table T) {E : SimpleEvent} (hE : TableEvent T E) :
    T.probSimple (T.fillMissing E) = .ok (cellMass T.probs {i | CellIn T E i}) := by
  obtain ⟨I, h1, h2, h3⟩ := indices_fill hT hE
  rw [probSimple, h1]
  simp only [bind, Except.bind, pure, Except.pure, sumIx]
  rw [sum_list_eq _ (nodup_cartesian h2) fun i hi => ((h3 i).1 hi).1]
  congr 1
  refine cellMass_congr rfl ?_ fun _ _ _ => rfl
  intro i hi
  exact (h3 i).trans ⟨fun h => h.2, fun h => ⟨hi, h⟩⟩

theorem cellMass_union (a : NdArray) {A B : Set (List ℕ)} (h : ∀ i, IsCell a.shape i → ¬ (i ∈ A ∧ i ∈ B)) :
    cellMass a {i | i ∈ A ∨ i ∈ B} = cellMass a A + cellMass a B := by
  classical
  rw [cellMass_eq, cellMass_eq, cellMass_eq]
  have h' : ∀ i ∈ cells a.shape, ¬ (i ∈ A ∧ i ∈ B) := fun i hi => h i (mem_cells.1 hi)
  generalize cells a.shape = l at h'
  induction l with
  | nil => simp
  | cons i l ih =>
    have h1 := h' i (by simp)
    have h2 := ih fun i hi => h' i (by simp [hi])
    simp only [List.filter_cons, Set.mem_ofPred_eq, decide_eq_true_eq] at h2 ⊢
    by_cases hA : i ∈ A
    · have hB : i ∉ B := fun hB => h1 ⟨hA, hB⟩
      simp only [hA, hB, true_or, if_true, if_false, List.map_cons, List.sum_cons, h2]
      ring
    · by_cases hB : i ∈ B
      · simp only [hA, hB, or_true, if_true, if_false, List.map_cons, List.sum_cons, h2]
        ring
      · simp only [hA, hB, or_self, if_false, h2]

theorem cellMass_empty (a : NdArray) {A : Set (List ℕ)} (h : ∀ i, i ∉ A) : cellMass a A = 0 := by
  classical
  rw [cellMass_eq, List.filter_eq_nil_iff.2 (by simpa using fun i _ => h i)]
  rfl

theorem probability_eq (hT : Table T) {E : List SimpleEvent} (hE : ∀ e ∈ E, TableEvent T e) (hd : DisjointEvents T E) :
    T.probability E = .ok (cellMass T.probs {i | ∃ e ∈ E, CellIn T e i}) := by
  have key : ∀ E : List SimpleEvent, (∀ e ∈ E, TableEvent T e) → DisjointEvents T E →
      ∃ ps : List ℝ, (E.map T.fillMissing).mapM T.probSimple = .ok ps ∧
        ps.sum = cellMass T.probs {i | ∃ e ∈ E, CellIn T e i} := by
    intro E
    induction E with
    | nil => intro _ _; exact ⟨[], rfl, (cellMass_empty _ (by simp)).symm⟩
    | cons e E ih =>
      intro hE hd
      rw [DisjointEvents, List.pairwise_cons] at hd
      obtain ⟨ps, h1, h2⟩ := ih (fun e he => hE e (by simp [he])) hd.2
      refine ⟨cellMass T.probs {i | CellIn T e i} :: ps, ?_, ?_⟩
      · rw [List.map_cons, List.mapM_cons, probSimple_fill hT (hE e (by simp)), h1]
        rfl
      · rw [List.sum_cons, h2, ← cellMass_union]
        · refine cellMass_congr rfl ?_ fun _ _ _ => rfl
          intro i _
          simp
        · rintro i hi ⟨hi1, e', he', hi2⟩
          exact hd.1 e' he' i hi ⟨hi1, hi2⟩
  obtain ⟨ps, h1, h2⟩ := key E hE hd
  rw [probability, h1, ← h2]
  rfl

open Classical in
theorem foldlM_eq (hT : Table T) : ∀ {E : List SimpleEvent}, (∀ e ∈ E, TableEvent T e) → DisjointEvents T E →
    ∀ a : NdArray, a.shape = T.probs.shape → ∃ b : NdArray, (E.map T.fillMissing).foldlM
      (fun a e => do return a.add (T.probs.restrictIx (← T.indices e))) a = Except.ok b ∧ b.shape = T.probs.shape ∧
      ∀ i, IsCell T.probs.shape i → b.get i = a.get i + if ∃ e ∈ E, CellIn T e i then T.probs.get i else 0 := by
  intro E
  induction E with
  | nil => intro _ _ a ha; exact ⟨a, rfl, ha, by simp⟩
  | cons e E ih =>
    intro hE hd a ha
    rw [DisjointEvents, List.pairwise_cons] at hd
    obtain ⟨I, h1, h2, h3⟩ := indices_fill hT (hE e (by simp))
    obtain ⟨b, h4, h5, h6⟩ := ih (fun e he => hE e (by simp [he])) hd.2 (a.add (T.probs.restrictIx I)) ha
    refine ⟨b, ?_, h5, ?_⟩
    · rw [List.map_cons, List.foldlM_cons, h1]
      exact h4
    · intro i hi
      rw [h6 i hi]
      simp only [NdArray.add, restrictIx, h3 i, hi, true_and, List.mem_cons, exists_eq_or_imp]
      by_cases he : CellIn T e i
      · have : ¬ ∃ e' ∈ E, CellIn T e' i := by
          rintro ⟨e', he', h⟩
          exact hd.1 e' he' i hi ⟨he, h⟩
        simp [he, this]
      · simp [he]

end Multinomial
end PM
