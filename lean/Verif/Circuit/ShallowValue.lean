import Verif.Circuit.ShallowRec
import Verif.Circuit.SimplifyLemmas
import Verif.Circuit.ValueLemmas
import Mathlib.Algebra.BigOperators.Group.List.Basic
import Mathlib.Algebra.BigOperators.Ring.List

/-! Helper lemmas: the value of the shallow circuit. -/

namespace PM.Graph

open Spec

variable {D : Type}

theorem Rep.of_drawn {g : Graph D} {t : UTree D} (h : Drawn g t) :
    Rep g.kind? (fun n => (g.outEdges n).map fun e => (e.dst, e.weight)) t := by
  induction h with
  | leaf h1 h2 =>
    refine .leaf h1 ?_
    unfold Graph.succ at h2
    rw [List.map_eq_nil_iff] at h2 ⊢
    exact h2
  | inner h1 h2 h3 ih => exact .inner h1 h2 ih

theorem Rep.leaf_out {K : Node → Option (Kind D)} {O : Outs} {t : UTree D} (h : Rep K O t) :
    ∀ l ∈ t.lvs, K l.1 = some (.leaf l.2) ∧ O l.1 = [] := by
  induction h with
  | leaf h1 h2 =>
    intro l hl
    rw [UTree.lvs, List.mem_singleton] at hl
    rw [hl]
    exact ⟨h1, h2⟩
  | inner h1 h2 h3 ih =>
    intro l hl
    rw [lvs_inner] at hl
    obtain ⟨c, hc, hl⟩ := List.mem_flatMap.1 hl
    exact ih c hc l hl

theorem foldr_max_le_sum : ∀ l : List ℕ, l.foldr max 0 ≤ l.sum
  | [] => le_rfl
  | a :: l => by
    have := foldr_max_le_sum l
    simp only [List.foldr_cons, List.sum_cons]
    omega

theorem height_le : ∀ (t : UTree D), t.height ≤ t.inn.length
  | .leaf n d => by rw [UTree.height]; exact Nat.zero_le _
  | .inner n b cs => by
    rw [UTree.height, inn_inner, List.length_cons, List.length_flatMap]
    refine Nat.succ_le_succ ((foldr_max_le_sum _).trans ?_)
    refine List.sum_le_sum fun c hc => ?_
    exact height_le c.2
decreasing_by all_goals exact UTree.size_lt ‹_›

theorem lvs_flatten {t : UTree D} (h : WellBuilt t) : ∀ l ∈ t.lvs, ∃ q ∈ flatten t, l ∈ q.2 := by
  induction h with
  | @leaf n d =>
    intro l hl
    rw [UTree.lvs] at hl
    exact ⟨_, by rw [flatten_leaf]; exact List.mem_singleton.2 rfl, hl⟩
  | @sum n cs h1 h2 h3 ih =>
    intro l hl
    rw [lvs_inner] at hl
    obtain ⟨c, hc, hl⟩ := List.mem_flatMap.1 hl
    obtain ⟨q, hq, hlq⟩ := ih c hc l hl
    refine ⟨(c.1.getD 0 + .fin weightKey, q.2), ?_, hlq⟩
    rw [flatten]
    refine List.mem_flatMap.2 ⟨(c.1, c.2.isSum, flatten c.2), ?_, List.mem_map.2 ⟨q, hq, rfl⟩⟩
    rw [(List.filter_append_perm _ _).mem_iff]
    exact List.mem_map.2 ⟨c, hc, rfl⟩
  | @prod n cs h1 h2 h3 ih =>
    intro l hl
    rw [lvs_inner] at hl
    obtain ⟨c, hc, hl⟩ := List.mem_flatMap.1 hl
    obtain ⟨q, hq, hlq⟩ := ih c hc l hl
    rw [flatten]
    set fs := cs.map fun c => (c.1, c.2.isSum, flatten c.2) with hfs
    have hmem : ∀ f, f ∈ (fs.filter (fun f => f.2.1) ++ fs.filter fun f => !f.2.1) ↔ f ∈ fs := fun f =>
      (List.filter_append_perm _ _).mem_iff
    obtain ⟨cb, hcb, hqcb⟩ := exists_combination_with (ls := (fs.filter (fun f => f.2.1) ++ fs.filter fun f => !f.2.1).map fun f => f.2.2) (by
      intro x hx
      obtain ⟨f, hf, rfl⟩ := List.mem_map.1 hx
      rw [hmem] at hf
      obtain ⟨c, hc, rfl⟩ := List.mem_map.1 hf
      exact flatten_ne_nil (h3 c hc)) (flatten c.2) (by
      refine List.mem_map.2 ⟨(c.1, c.2.isSum, flatten c.2), ?_, rfl⟩
      rw [hmem]
      exact List.mem_map.2 ⟨c, hc, rfl⟩) q hq
    exact ⟨_, List.mem_map.2 ⟨cb, hcb, rfl⟩, List.mem_flatMap.2 ⟨q, hqcb, hlq⟩⟩

/-- The sum of the products of the leaves, without weights. -/
noncomputable def flatTotal (ℓ : D → ℝ) (fs : List (LogP × List (Node × D))) : ℝ := (fs.map fun q => (q.2.map fun l => ℓ l.2).prod).sum

theorem sum_flatMap_real {α : Type} (f : α → List ℝ) : ∀ l : List α, (l.flatMap f).sum = (l.map fun a => (f a).sum).sum
  | [] => rfl
  | a :: l => by rw [List.flatMap_cons, List.sum_append, List.map_cons, List.sum_cons, sum_flatMap_real f l]

theorem prod_flatMap_real {α : Type} (f : α → List ℝ) : ∀ l : List α, (l.flatMap f).prod = (l.map fun a => (f a).prod).prod
  | [] => rfl
  | a :: l => by rw [List.flatMap_cons, List.prod_append, List.map_cons, List.prod_cons, prod_flatMap_real f l]

theorem sum_combinations {α : Type} (v : α → ℝ) : ∀ ls : List (List α),
    ((combinations ls).map fun cb => (cb.map v).prod).sum = (ls.map fun l => (l.map v).sum).prod
  | [] => by simp [combinations]
  | l :: ls => by
    rw [combinations, List.map_cons, List.prod_cons, ← sum_combinations v ls, List.map_flatMap, sum_flatMap_real]
    simp only [List.map_map, Function.comp_def, List.map_cons, List.prod_cons]
    rw [← List.sum_map_mul_right]
    refine congrArg List.sum (List.map_congr_left fun a _ => ?_)
    rw [← List.sum_map_mul_left]

theorem flatTotal_prod (ℓ : D → ℝ) (ls : List (List (LogP × List (Node × D)))) :
    flatTotal ℓ ((combinations ls).map fun cb => (.fin 1, cb.flatMap fun q => q.2)) = (ls.map (flatTotal ℓ)).prod := by
  have h := sum_combinations (fun q : LogP × List (Node × D) => (q.2.map fun l => ℓ l.2).prod) ls
  rw [show (ls.map (flatTotal ℓ)).prod = (ls.map fun l => (l.map fun q => (q.2.map fun l => ℓ l.2).prod).sum).prod from rfl, ← h]
  unfold flatTotal
  rw [List.map_map]
  refine congrArg List.sum (List.map_congr_left fun cb _ => ?_)
  simp only [Function.comp_apply, List.map_flatMap, prod_flatMap_real]

theorem flatTotal_flatten (ℓ : D → ℝ) : ∀ t : UTree D, flatTotal ℓ (flatten t) = t.total ℓ
  | .leaf n d => by simp [flatten_leaf, flatTotal, UTree.total]
  | .inner n true cs => by
    rw [flatten, UTree.total, flatTotal, List.map_flatMap, sum_flatMap_real]
    rw [((List.filter_append_perm _ _).map _).sum_eq, List.map_map]
    refine congrArg List.sum (List.map_congr_left fun c hc => ?_)
    rw [← flatTotal_flatten ℓ c.2]
    simp only [Function.comp_apply, List.map_map, flatTotal]
    rfl
  | .inner n false cs => by
    rw [flatten, UTree.total, flatTotal_prod, List.map_map]
    rw [((List.filter_append_perm _ _).map _).prod_eq, List.map_map]
    refine congrArg List.prod (List.map_congr_left fun c hc => ?_)
    rw [← flatTotal_flatten ℓ c.2]
    rfl
decreasing_by all_goals exact UTree.size_lt ‹_›

/-- The value of the flat part. -/
noncomputable def flatValue (ℓ : D → ℝ) (fs : List (LogP × List (Node × D))) : ℝ :=
  (fs.map fun q => q.1.exp * (q.2.map fun l => ℓ l.2).prod).sum

theorem flatValue_leaf (ℓ : D → ℝ) (n : Node) (d : D) : flatValue ℓ (flatten (.leaf n d)) = ℓ d := by
  simp [flatten_leaf, flatValue]

theorem flatValue_sum (ℓ : D → ℝ) (n : Node) (cs : List (Option LogP × UTree D)) :
    flatValue ℓ (flatten (.inner n true cs)) = Real.exp 1 * (cs.map fun c => (c.1.getD 0).exp * c.2.total ℓ).sum := by
  rw [flatten, flatValue, List.map_flatMap, sum_flatMap_real]
  rw [((List.filter_append_perm _ _).map _).sum_eq, List.map_map, ← List.sum_map_mul_left]
  refine congrArg List.sum (List.map_congr_left fun c hc => ?_)
  rw [← flatTotal_flatten ℓ c.2]
  simp only [Function.comp_apply, List.map_map, flatTotal]
  rw [← List.sum_map_mul_left, ← List.sum_map_mul_left]
  refine congrArg List.sum (List.map_congr_left fun q hq => ?_)
  simp only [Function.comp_apply, LogP.exp_add, LogP.exp_fin, weightKey]
  ring

theorem flatValue_prod (ℓ : D → ℝ) (n : Node) (cs : List (Option LogP × UTree D)) :
    flatValue ℓ (flatten (.inner n false cs)) = Real.exp 1 * (cs.map fun c => c.2.total ℓ).prod := by
  have h := flatTotal_flatten ℓ (.inner n false cs)
  rw [UTree.total] at h
  rw [← h, flatten, flatValue, flatTotal, List.map_map, List.map_map, ← List.sum_map_mul_left]
  rfl

theorem value_view {g : Graph D} {K : Node → Option (Kind D)} {O : Outs} (h : View g K O) {F : Flat D} (hF : RepFlat K O F) {ℓ : D → ℝ}
    {f : Node → ℝ} (hf : CircuitValue g ℓ f) : f F.m = flatValue ℓ (F.prods.map fun q => (q.1, q.2.2)) := by
  have hs := hf.sum F.m (by rw [h.kind, hF.sum])
  have e1 : ((g.outEdges F.m).map fun e => linWeight e * f e.dst) =
      ((g.outEdges F.m).map fun e => (e.dst, e.weight)).map fun a => (match a.2 with | some w => w.exp | none => 0) * f a.1 := by
    rw [List.map_map]; rfl
  rw [hs, e1, h.out, hF.out, flatValue, List.map_map, List.map_map]
  refine congrArg List.sum (List.map_congr_left fun q hq => ?_)
  have hp := hf.prod q.2.1 (by rw [h.kind, hF.prod q hq])
  have e2 : ((g.outEdges q.2.1).map fun e => f e.dst) = ((g.outEdges q.2.1).map fun e => (e.dst, e.weight)).map fun a => f a.1 := by
    rw [List.map_map]; rfl
  simp only [Function.comp_apply]
  rw [hp, e2, h.out, hF.pout q hq, List.map_map]
  refine congrArg (q.1.exp * ·) (congrArg List.prod (List.map_congr_left fun l hl => ?_))
  simp only [Function.comp_apply]
  exact hf.leaf l.1 l.2 (by rw [h.kind, hF.leaf q hq l hl])

theorem value_drawn {g : Graph D} {t : UTree D} (h : Drawn g t) (hb : WellBuilt t) {ℓ : D → ℝ} {f : Node → ℝ} (hf : CircuitValue g ℓ f) :
    f t.root = t.value ℓ := by
  induction h with
  | leaf h1 h2 => rw [UTree.value, UTree.root]; exact hf.leaf _ _ h1
  | @inner n b cs h1 h2 h3 ih =>
    cases hb with
    | sum b1 b2 b3 =>
      rw [UTree.value, UTree.root, hf.sum n (by simpa using h1)]
      have e1 : ((g.outEdges n).map fun e => linWeight e * f e.dst) =
          ((g.outEdges n).map fun e => (e.dst, e.weight)).map fun a => (match a.2 with | some w => w.exp | none => 0) * f a.1 := by
        rw [List.map_map]; rfl
      rw [e1, h2, List.map_map]
      refine congrArg List.sum (List.map_congr_left fun c hc => ?_)
      obtain ⟨x, hx⟩ := b2 c hc
      simp only [Function.comp_apply, ih c hc (b3 c hc), hx, Option.getD_some]
    | prod b1 b2 b3 =>
      rw [UTree.value, UTree.root, hf.prod n (by simpa using h1)]
      have e1 : ((g.outEdges n).map fun e => f e.dst) =
          ((g.outEdges n).map fun e => (e.dst, e.weight)).map fun a => f a.1 := by
        rw [List.map_map]; rfl
      rw [e1, h2, List.map_map]
      refine congrArg List.prod (List.map_congr_left fun c hc => ?_)
      simp only [Function.comp_apply, ih c hc (b3 c hc)]

theorem le_nextUnit {g : Graph D} {u : ℕ} (h : u ∈ g.ids) : u < g.nextUnit :=
  Nat.lt_succ_of_le (foldr_max_le h)

theorem toShallow_tree {g : Graph D} {t : UTree D} (h : IsTree g t) :
    ∃ g' K' O' F, g.toShallow = .ok g' ∧ View g' K' O' ∧ RepFlat K' O' F ∧ F.prods.map (fun q => (q.1, q.2.2)) = flatten t ∧
      ShallowForm g' F.m := by
  have hrep := Rep.of_drawn h.drawn
  set O : Outs := fun n => (g.outEdges n).map fun e => (e.dst, e.weight) with hO
  have hview : View g g.kind? O := ⟨h.wf, fun _ => rfl, fun _ => rfl⟩
  have hsrc : ∀ u v, To O u v → u ∈ t.inn := by
    intro u v ht
    rcases h.all u (hview.mem_ids.2 (hview.src ht)) with e | e
    · exact e
    · obtain ⟨l, hl, e⟩ := List.mem_map.1 e
      rw [To, ← e, (hrep.leaf_out l hl).2] at ht
      simp at ht
  have hpre : Pre ⟨g, g.nextUnit⟩ g.kind? O t none none :=
    ⟨hview, hrep, h.inn, fun u hu => le_nextUnit (hview.mem_ids.2 hu), fun v hv u ht => .inl (hsrc u v ht), by simp, h.built⟩
  have hheight : t.height < g.nodes.length + 1 := by
    refine Nat.lt_succ_of_le ((height_le t).trans ?_)
    have : t.inn.length ≤ g.ids.length := (h.inn.subperm fun u hu => hview.mem_ids.2 (hrep.kind_ne hu)).length_le
    simpa [ids] using this
  obtain ⟨s', K', O', F, h1, h2⟩ := shallowing_post _ t hheight hpre
  have hrootmem : t.root ∈ g.ids := by
    rw [hview.mem_ids]
    cases hrep with
    | leaf a b => simp [UTree.root, a]
    | inner a b c => simp [UTree.root, a]
  have hreach : ∀ u ∈ g.ids, (∀ v, ¬ To O v u) → u = t.root := by
    have key : ∀ {t : UTree D}, Rep g.kind? O t → ∀ u, u ∈ t.inn ∨ u ∈ t.lvs.map Prod.fst → u = t.root ∨ ∃ v, To O v u := by
      intro t ht
      induction ht with
      | leaf a b =>
        intro u hu
        rw [UTree.inn, UTree.lvs] at hu
        left
        simpa [UTree.root] using hu
      | @inner n b cs a b c ih =>
        intro u hu
        have hu' : u = n ∨ ∃ c ∈ cs, u ∈ c.2.inn ∨ u ∈ c.2.lvs.map Prod.fst := by
          rw [inn_inner, lvs_inner] at hu
          rcases hu with hu | hu
          · rcases List.mem_cons.1 hu with e | hu
            · exact .inl e
            · obtain ⟨c, hc, hu⟩ := List.mem_flatMap.1 hu
              exact .inr ⟨c, hc, .inl hu⟩
          · rw [List.map_flatMap] at hu
            obtain ⟨c, hc, hu⟩ := List.mem_flatMap.1 hu
            exact .inr ⟨c, hc, .inr hu⟩
        rcases hu' with e | ⟨c, hc, hu'⟩
        · exact .inl e
        · right
          rcases ih c hc u hu' with e | e
          · refine ⟨n, ?_⟩
            rw [To, b, List.map_map]
            exact List.mem_map.2 ⟨c, hc, e.symm⟩
          · exact e
    intro u hu hno
    rcases key hrep u (h.all u hu) with e | ⟨v, e⟩
    · exact e
    · exact absurd e (hno v)
  have hrootin : ∀ u, ¬ To O u t.root := by
    intro u ht
    have hu := hsrc u _ ht
    by_cases hl : ∃ d, g.kind? t.root = some (.leaf d)
    · cases hrep with
      | leaf a b => rw [UTree.inn] at hu; simp at hu
      | @inner n b cs a b c =>
        obtain ⟨d, hd⟩ := hl
        simp only [UTree.root] at hd
        rw [a] at hd
        split_ifs at hd <;> simp at hd
    · push Not at hl
      exact root_notMem_innBelow h.inn (hrep.to_below u hu _ ht hl)
  have hroot : g.root = .ok t.root := by
    refine root_of h.wf hrootmem ?_ fun u hu hin => hreach u hu fun v hv => ?_
    · rw [inEdges_eq_nil]
      rintro ⟨a, b, w⟩ he rfl
      exact hrootin a (hview.to_iff.2 ⟨w, he⟩)
    · obtain ⟨w, hw⟩ := hview.to_iff.1 hv
      rw [inEdges_eq_nil] at hin
      exact hin _ hw rfl
  refine ⟨s'.g, K', O', F, ?_, h2.view, h2.flat, h2.shape, ?_⟩
  · simp only [toShallow, hroot, h1, bind, Except.bind, pure, Except.pure]
  · have hsuccr : s'.g.succ F.m = F.pids := by rw [h2.view.succ, h2.flat.out, List.map_map]; rfl
    have hsuccp : ∀ q ∈ F.prods, s'.g.succ q.2.1 = q.2.2.map Prod.fst := fun q hq => by
      rw [h2.view.succ, h2.flat.pout q hq, List.map_map]; rfl
    have hnodes : ∀ u ∈ s'.g.ids, u = F.m ∨ u ∈ s'.g.succ F.m ∨ ∃ c ∈ s'.g.succ F.m, u ∈ s'.g.succ c := by
      intro u hu
      rw [h2.view.mem_ids] at hu
      by_cases hc : u ∈ t.inn ∨ g.nextUnit ≤ u
      · rcases h2.clean u hc with e | ⟨e, _⟩
        · rw [hsuccr]
          rcases List.mem_cons.1 e with e | e
          · exact .inl e
          · exact .inr (.inl e)
        · exact absurd e hu
      · rw [not_or] at hc
        rw [h2.frameK u (not_le.1 hc.2) hc.1] at hu
        rcases h.all u (hview.mem_ids.2 hu) with e | e
        · exact absurd e hc.1
        · obtain ⟨l, hl, e⟩ := List.mem_map.1 e
          obtain ⟨q, hq, hlq⟩ := lvs_flatten h.built l hl
          rw [← h2.shape] at hq
          obtain ⟨q', hq', rfl⟩ := List.mem_map.1 hq
          refine .inr (.inr ⟨q'.2.1, by rw [hsuccr]; exact List.mem_map.2 ⟨q', hq', rfl⟩, ?_⟩)
          rw [hsuccp q' hq']
          exact List.mem_map.2 ⟨l, hlq, e⟩
    refine ⟨root_of h2.view.wf (h2.view.mem_ids.2 (by rw [h2.flat.sum]; simp)) ?_ ?_, by rw [h2.view.kind, h2.flat.sum], hnodes, ?_⟩
    · rw [inEdges_eq_nil]
      rintro ⟨a, b, w⟩ he rfl
      have := h2.inM hpre (h2.view.to_iff.2 ⟨w, he⟩)
      simp at this
    · intro u hu hin
      rw [inEdges_eq_nil] at hin
      have hno : ∀ v, u ∉ s'.g.succ v := by
        intro v hv
        rw [h2.view.succ] at hv
        obtain ⟨w, hw⟩ := h2.view.to_iff.1 hv
        exact hin _ hw rfl
      rcases hnodes u hu with e | e | ⟨c, _, e⟩
      · exact e
      · exact absurd e (hno _)
      · exact absurd e (hno _)
    · intro c hc
      rw [hsuccr] at hc
      obtain ⟨q, hq, rfl⟩ := List.mem_map.1 hc
      refine ⟨by rw [h2.view.kind, h2.flat.prod q hq], fun l hl => ?_⟩
      rw [hsuccp q hq] at hl
      obtain ⟨l', hl', rfl⟩ := List.mem_map.1 hl
      exact ⟨l'.2, by rw [h2.view.kind, h2.flat.leaf q hq l' hl']⟩

end PM.Graph
