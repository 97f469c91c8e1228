import Verif.Circuit.Gauge
import Verif.Spec.Pruned

/-!
Helper lemmas: what conditioning computes on a tree in general.
-/

namespace PM.Graph

open Spec MeasureTheory

/-! ### Graphs that differ only in the weights of the edges of product units -/

structure Alike {D : Type} (a b : Graph D) : Prop where
  nodes : a.nodes = b.nodes
  ends : a.edges.map (fun e => (e.src, e.dst)) = b.edges.map (fun e => (e.src, e.dst))
  sums : ∀ n, a.kind? n = some .sum → a.outEdges n = b.outEdges n

namespace Alike

variable {a b : Circuit} (h : Alike a b)

include h

theorem kind (n : Node) : a.kind? n = b.kind? n := by unfold kind?; rw [h.nodes]

theorem ids : a.ids = b.ids := by unfold Graph.ids; rw [h.nodes]

theorem succ (n : Node) : a.succ n = b.succ n := by
  have key : ∀ g : Circuit, g.succ n = ((g.edges.map (fun e => (e.src, e.dst))).filter (fun p => p.1 == n)).map (·.2) := by
    intro g
    unfold Graph.succ outEdges
    rw [List.filter_map, List.map_map]
    rfl
  rw [key, key, h.ends]

theorem mem {e : Edge} (he : e ∈ b.edges) : ∃ e' ∈ a.edges, e'.src = e.src ∧ e'.dst = e.dst := by
  have : (e.src, e.dst) ∈ b.edges.map (fun e => (e.src, e.dst)) := List.mem_map.2 ⟨e, he, rfl⟩
  rw [← h.ends] at this
  obtain ⟨e', h1, h2⟩ := List.mem_map.1 this
  rw [Prod.mk.injEq] at h2
  exact ⟨e', h1, h2.1, h2.2⟩

theorem root : a.root = b.root := by
  have key : ∀ (g : Circuit) n, g.inDegree n = ((g.edges.map (fun e => (e.src, e.dst))).filter (fun p => p.2 == n)).length := by
    intro g n
    unfold inDegree inEdges
    rw [List.filter_map, List.length_map]
    rfl
  unfold Graph.root
  simp only [key, h.ends, h.ids]

theorem layered {r : Node} (hL : Layered a r) : Layered b r where
  wf := by
    refine ⟨h.ids ▸ hL.wf.nodup, h.ends ▸ hL.wf.edgeNodup, fun e he => ?_, fun e he => ?_⟩
    · obtain ⟨e', h1, h2, _⟩ := h.mem he
      rw [← h.ids, ← h2]; exact hL.wf.srcMem e' h1
    · obtain ⟨e', h1, _, h2⟩ := h.mem he
      rw [← h.ids, ← h2]; exact hL.wf.dstMem e' h1
  graded := by
    obtain ⟨depth, hd⟩ := hL.graded
    refine ⟨depth, fun e he => ?_⟩
    obtain ⟨e', h1, h2, h3⟩ := h.mem he
    rw [← h2, ← h3]; exact hd e' h1
  leaves := fun n d hk => by rw [← h.succ]; exact hL.leaves n d (by rw [h.kind]; exact hk)
  weighted := fun n hk e he => by
    rw [← h.kind] at hk
    rw [← h.sums n hk] at he
    exact hL.weighted n hk e he
  root := h.root ▸ hL.root

theorem tree (ht : TreeShaped a) : TreeShaped b := by
  intro e he e' he' hd
  obtain ⟨x, h1, h2, h3⟩ := h.mem he
  obtain ⟨y, h4, h5, h6⟩ := h.mem he'
  rw [← h2, ← h5]
  exact ht x h1 y h4 (by rw [h3, h6, hd])

theorem scopes {sc : Node → Finset Var} (hs : Scoped a sc) : Scoped b sc where
  leaf n d hk := hs.leaf n d (by rw [h.kind]; exact hk)
  sumNe n hk := by rw [← h.succ]; exact hs.sumNe n (by rw [h.kind]; exact hk)
  sum n hk := by rw [← h.succ]; exact hs.sum n (by rw [h.kind]; exact hk)
  prod n hk := by rw [← h.succ]; exact hs.prod n (by rw [h.kind]; exact hk)

theorem decomposable {sc : Node → Finset Var} (hs : Decomposable a sc) : Decomposable b sc :=
  fun n hk => by rw [← h.succ]; exact hs n (by rw [h.kind]; exact hk)

theorem normalized (hn : NormalizedSums a) : NormalizedSums b := by
  intro n hk
  rw [← h.kind] at hk
  rw [← h.sums n hk]
  exact hn n hk

theorem positive (hn : PositiveWeights a) : PositiveWeights b := by
  intro n hk e he
  rw [← h.kind] at hk
  rw [← h.sums n hk] at he
  exact hn n hk e he

theorem value {ℓ : Leaf → ℝ} {f : Node → ℝ} (hf : CircuitValue a ℓ f) : CircuitValue b ℓ f where
  leaf n d hk := hf.leaf n d (by rw [h.kind]; exact hk)
  sum n hk := by
    rw [← h.kind] at hk
    rw [← h.sums n hk]
    exact hf.sum n hk
  prod n hk := by
    rw [← h.kind] at hk
    rw [hf.prod n hk]
    have key : ∀ g : Circuit, ((g.outEdges n).map fun e => f e.dst) = (g.succ n).map f := by
      intro g; unfold Graph.succ; rw [List.map_map]; rfl
    rw [key, key, h.succ]

end Alike

/-! ### Functions defined along the circuit -/

/-- A function on the units that is defined in terms of its values at the children exists. -/
theorem exists_fix {D : Type} {g : Graph D} (ha : g.Acyclic) (F : (Node → ℝ) → Node → ℝ)
    (hF : ∀ f f' n, (∀ e ∈ g.outEdges n, f e.dst = f' e.dst) → F f n = F f' n) : ∃ f, ∀ n, f n = F f n := by
  obtain ⟨rank, hr⟩ := ha
  let it : Nat → Node → ℝ := fun k => Nat.rec (fun _ => 0) (fun _ f => F f) k
  have hstep : ∀ k n, rank n < k → it (k + 1) n = it k n := by
    intro k
    induction k with
    | zero => intro n h; omega
    | succ k ih =>
      intro n hn
      show F (it (k + 1)) n = F (it k) n
      refine hF _ _ _ fun e he => ?_
      obtain ⟨he1, he2⟩ := mem_outEdges.1 he
      have := hr e he1
      rw [he2] at this
      exact ih _ (by omega)
  have hst : ∀ k j n, rank n < k → k ≤ j → it j n = it k n := by
    intro k j n hk hj
    induction j, hj using Nat.le_induction with
    | base => rfl
    | succ j hj ih => rw [hstep j n (by omega), ih]
  refine ⟨fun n => it (rank n + 1) n, fun n => ?_⟩
  show F (it (rank n)) n = _
  refine hF _ _ _ fun e he => ?_
  obtain ⟨he1, he2⟩ := mem_outEdges.1 he
  have := hr e he1
  rw [he2] at this
  exact hst (rank e.dst + 1) (rank n) _ (by omega) (by omega)

theorem mem_possibleEdges {D : Type} {g : Graph D} {P : Node → ℝ} {n : Node} {e : Edge} :
    e ∈ possibleEdges g P n ↔ e ∈ g.outEdges n ∧ P e.dst ≠ 0 := by
  unfold possibleEdges
  rw [List.mem_filter, decide_eq_true_eq]

theorem exists_remainingWeight {D : Type} {g : Graph D} (ha : g.Acyclic) (hl : g.LeafTerminal) (P : Node → ℝ) :
    ∃ T, RemainingWeight g P T := by
  classical
  obtain ⟨T, hT⟩ := exists_fix ha (fun T n => match possibleEdges g P n with
    | [e] => T e.dst
    | l => if g.kind? n = some .sum then (l.map fun e => linWeight e * T e.dst).sum else 1) (by
      intro f f' n h
      have h' : ∀ e ∈ possibleEdges g P n, f e.dst = f' e.dst := fun e he => h e (mem_possibleEdges.1 he).1
      revert h'
      generalize possibleEdges g P n = l
      intro h'
      match l with
      | [] => rfl
      | [e] => exact h' e (by simp)
      | a :: b :: l =>
        show (if _ then _ else _) = if _ then _ else _
        rw [List.map_congr_left (fun e he => by rw [h' e he])])
  have hne : ∀ n, (possibleEdges g P n).length ≠ 1 → T n =
      if g.kind? n = some .sum then ((possibleEdges g P n).map fun e => linWeight e * T e.dst).sum else 1 := by
    intro n hn
    rw [hT n]
    revert hn
    generalize possibleEdges g P n = l
    intro hn
    match l with
    | [] => rfl
    | [e] => exact absurd rfl hn
    | a :: b :: l => rfl
  refine ⟨T, ?_, ?_, ?_, ?_⟩
  · intro n d hk
    have h0 : possibleEdges g P n = [] := by
      have := hl n d hk
      unfold succ at this
      rw [List.map_eq_nil_iff] at this
      unfold possibleEdges
      rw [this]; rfl
    rw [hne n (by rw [h0]; simp), if_neg (by rw [hk]; simp)]
  · intro n e he
    rw [hT n, he]
  · intro n hk hn
    rw [hne n hn, if_pos hk]
  · intro n hk hn
    rw [hne n hn, if_neg (by rw [hk]; simp)]

theorem exists_prunedValue {D : Type} {g : Graph D} (ha : g.Acyclic) (P T : Node → ℝ) (ℓ : D → ℝ) : ∃ C, PrunedValue g P T ℓ C := by
  obtain ⟨C, hC⟩ := exists_fix ha (fun C n => match g.kind? n with
    | some (.leaf d) => ℓ d
    | some .sum => ((possibleEdges g P n).map fun e => linWeight e * T e.dst * C e.dst).sum /
        ((possibleEdges g P n).map fun e => linWeight e * T e.dst).sum
    | some .prod => ((g.outEdges n).map fun e => C e.dst).prod
    | none => 0) (by
      intro f f' n h
      have h' : ∀ e ∈ possibleEdges g P n, f e.dst = f' e.dst := fun e he => h e (mem_possibleEdges.1 he).1
      have h1 : ((possibleEdges g P n).map fun e => linWeight e * T e.dst * f e.dst) =
          (possibleEdges g P n).map fun e => linWeight e * T e.dst * f' e.dst :=
        List.map_congr_left fun e he => by rw [h' e he]
      have h2 : ((g.outEdges n).map fun e => f e.dst) = (g.outEdges n).map fun e => f' e.dst :=
        List.map_congr_left fun e he => h e he
      simp only [h1, h2])
  refine ⟨C, ?_, ?_, ?_⟩
  · intro n d hk; rw [hC n, hk]
  · intro n hk; rw [hC n, hk]
  · intro n hk; rw [hC n, hk]

theorem sum_map_quot {α : Type} (l : List α) (f : α → ℝ) (c : ℝ) : (l.map f).sum / c = (l.map fun x => f x / c).sum := by
  induction l with
  | nil => simp
  | cons a l ih => simp only [List.map_cons, List.sum_cons, add_div, ih]

/-! ### The remaining part with changed scales -/

section Restrict

variable {g : Circuit} {r : Node} {P T : Node → ℝ} {E : SimpleEvent} {B : Var → Set ℝ} {keep : Node → Bool} (hS : Survivors g P r keep)

include hS

theorem outEdges_rest_possible (hL : Layered g r) {n : Node} (h : keep n = true) :
    (rest g E keep).outEdges n = possibleEdges g P n := by
  rw [outEdges_rest h]
  unfold possibleEdges
  apply List.filter_congr
  intro e he
  rw [Bool.eq_iff_iff, keep_dst_iff hS hL h he, decide_eq_true_eq]

theorem succ_rest_length (hL : Layered g r) {n : Node} (h : keep n = true) :
    ((rest g E keep).succ n).length = (possibleEdges g P n).length := by
  unfold succ
  rw [List.length_map, outEdges_rest_possible hS hL h]

theorem remaining_pos (hL : Layered g r) {ℓ : Leaf → ℝ} (hP : CircuitValue g ℓ P) (hp : PositiveWeights g) (hT : RemainingWeight g P T) :
    ∀ n, n ∈ g.ids → keep n = true → 0 < T n := by
  refine hL.graded.acyclic.induct ?_
  intro n ih hn hkn
  have ih' : ∀ e ∈ possibleEdges g P n, 0 < T e.dst := by
    intro e he
    obtain ⟨h1, h2⟩ := mem_possibleEdges.1 he
    exact ih _ (dst_mem_succ h1) (hL.wf.dstMem e (mem_outEdges.1 h1).1) ((keep_dst_iff hS hL hkn h1).2 h2)
  by_cases h1 : (possibleEdges g P n).length = 1
  · obtain ⟨e, he⟩ := List.length_eq_one_iff.1 h1
    rw [hT.single n e he]
    exact ih' e (by rw [he]; simp)
  · obtain ⟨K, hk⟩ := exists_kind? hn
    cases K with
    | leaf d => rw [hT.leaf n d hk]; exact one_pos
    | prod => rw [hT.prod n hk h1]; exact one_pos
    | sum =>
      rw [hT.sum n hk h1]
      obtain ⟨e, he, hke⟩ := exists_alive hS hL hP hk hkn
      have hmem : e ∈ possibleEdges g P n := mem_possibleEdges.2 ⟨he, (keep_dst_iff hS hL hkn he).1 hke⟩
      have hall : ∀ e ∈ possibleEdges g P n, 0 < linWeight e * T e.dst := by
        intro e he
        obtain ⟨x, hx⟩ := hp n hk e (mem_possibleEdges.1 he).1
        refine mul_pos ?_ (ih' e he)
        unfold linWeight
        rw [hx]
        exact Real.exp_pos x
      refine List.sum_pos _ ?_ ?_
      · intro x hx
        obtain ⟨e, he, rfl⟩ := List.mem_map.1 hx
        exact hall e he
      · intro h0
        rw [List.map_eq_nil_iff] at h0
        rw [h0] at hmem
        cases hmem

omit hS in
theorem linWeight_gauge {e : Edge} (ha : 0 < T e.src) (hb : 0 < T e.dst) :
    linWeight (gaugeEdge (fun n => Real.log (T n)) e) = linWeight e * T e.dst / T e.src := by
  unfold linWeight gaugeEdge
  cases hw : e.weight with
  | none => simp
  | some w =>
    cases w with
    | negInf => simp [shift, LogP.exp]
    | fin x =>
      simp only [Option.map_some, shift, LogP.exp]
      rw [Real.exp_sub, Real.exp_add, Real.exp_log ha, Real.exp_log hb]

omit hS in
theorem effW_gauge {D : Type} {τ : Node → ℝ} {h : Graph D} {e : Edge} :
    (gauge τ h).effW (gaugeEdge τ e) = if (h.succ e.src).length = 1 then 1 else linWeight (gaugeEdge τ e) := by
  unfold effW
  rw [succ_gauge, gaugeEdge_src]

theorem effW_rest (hL : Layered g r) {ℓ : Leaf → ℝ} (hP : CircuitValue g ℓ P) (hp : PositiveWeights g) (hT : RemainingWeight g P T)
    {n : Node} (hk : g.kind? n = some .sum) (hkn : keep n = true) :
    (gauge (fun n => Real.log (T n)) (rest g E keep)).outEdges n = (possibleEdges g P n).map (gaugeEdge fun n => Real.log (T n)) ∧
    (∀ e ∈ possibleEdges g P n, (gauge (fun n => Real.log (T n)) (rest g E keep)).effW (gaugeEdge (fun n => Real.log (T n)) e) =
      linWeight e * T e.dst / ((possibleEdges g P n).map fun e => linWeight e * T e.dst).sum) ∧
    0 < ((possibleEdges g P n).map fun e => linWeight e * T e.dst).sum := by
  have hpos := remaining_pos hS hL hP hp hT
  have hposd : ∀ e ∈ possibleEdges g P n, 0 < T e.dst := by
    intro e he
    obtain ⟨h1, h2⟩ := mem_possibleEdges.1 he
    exact hpos _ (hL.wf.dstMem e (mem_outEdges.1 h1).1) ((keep_dst_iff hS hL hkn h1).2 h2)
  have hw : ∀ e ∈ possibleEdges g P n, 0 < linWeight e := by
    intro e he
    obtain ⟨x, hx⟩ := hp n hk e (mem_possibleEdges.1 he).1
    unfold linWeight
    rw [hx]
    exact Real.exp_pos x
  have hsrc : ∀ e ∈ possibleEdges g P n, e.src = n := fun e he => (mem_outEdges.1 (mem_possibleEdges.1 he).1).2
  have hTn := hpos n (mem_ids_of_kind? hk) hkn
  refine ⟨by rw [outEdges_gauge, outEdges_rest_possible hS hL hkn], ?_, ?_⟩
  · intro e he
    rw [effW_gauge, hsrc e he, succ_rest_length hS hL hkn]
    split
    · next h1 =>
      obtain ⟨e', he'⟩ := List.length_eq_one_iff.1 h1
      rw [he', List.mem_singleton] at he
      subst he
      rw [he']
      have : linWeight e * T e.dst ≠ 0 := (mul_pos (hw e (by rw [he']; simp)) (hposd e (by rw [he']; simp))).ne'
      simp [div_self this]
    · next h1 =>
      rw [← hT.sum n hk h1, linWeight_gauge (by rw [hsrc e he]; exact hTn) (hposd e he), hsrc e he]
  · by_cases h1 : (possibleEdges g P n).length = 1
    · obtain ⟨e', he'⟩ := List.length_eq_one_iff.1 h1
      have := mul_pos (hw e' (by rw [he']; simp)) (hposd e' (by rw [he']; simp))
      rw [he']
      simpa using this
    · rw [← hT.sum n hk h1]; exact hTn

theorem rest_gauge_effNorm (hL : Layered g r) {ℓ : Leaf → ℝ} (hP : CircuitValue g ℓ P) (hp : PositiveWeights g)
    (hT : RemainingWeight g P T) : (gauge (fun n => Real.log (T n)) (rest g E keep)).EffNorm := by
  intro n hk
  obtain ⟨h1, h2⟩ := rest_sum (E := E) hk
  obtain ⟨h3, h4, h5⟩ := effW_rest (E := E) hS hL hP hp hT h2 h1
  rw [h3, List.map_map]
  have : (possibleEdges g P n).map ((gauge (fun n => Real.log (T n)) (rest g E keep)).effW ∘ gaugeEdge fun n => Real.log (T n)) =
      (possibleEdges g P n).map fun e => linWeight e * T e.dst / ((possibleEdges g P n).map fun e => linWeight e * T e.dst).sum :=
    List.map_congr_left fun e he => h4 e he
  rw [this, ← sum_map_quot]
  exact div_self h5.ne'

theorem rest_gauge_effValue (hL : Layered g r) (hP : CircuitValue g (fun d => (leafLaw d).real (B d.var)) P) (hp : PositiveWeights g)
    (hT : RemainingWeight g P T) {φ ℓ : Leaf → ℝ}
    (hφ : ∀ n d, g.kind? n = some (.leaf d) → (leafLaw d).real (B d.var) ≠ 0 → φ (newLeaf E d) = ℓ d) {C : Node → ℝ}
    (hC : PrunedValue g P T ℓ C) :
    (gauge (fun n => Real.log (T n)) (rest g E keep)).EffValue φ C := by
  refine ⟨?_, ?_, ?_⟩
  · intro n d' hk
    obtain ⟨h1, d, h2, rfl⟩ := rest_leaf hk
    have hPn := hS.alive n (mem_ids_of_kind? h2) h1
    rw [hC.leaf n d h2]
    rw [hP.leaf n d h2] at hPn
    exact (hφ n d h2 hPn).symm
  · intro n hk
    obtain ⟨h1, h2⟩ := rest_sum (E := E) hk
    obtain ⟨h3, h4, h5⟩ := effW_rest (E := E) hS hL hP hp hT h2 h1
    rw [h3, List.map_map, hC.sum n h2, sum_map_quot]
    congr 1
    refine List.map_congr_left fun e he => ?_
    simp only [Function.comp, gaugeEdge_dst]
    rw [h4 e he]
    ring
  · intro n hk
    obtain ⟨h1, h2⟩ := rest_prod (E := E) hk
    rw [outEdges_gauge, outEdges_rest_prod hS hL hP h2 h1, hC.prod n h2, List.map_map]
    rfl

theorem rest_gauge_layered (τ : Node → ℝ) (hL : Layered g r) : Layered (gauge τ (rest g E keep)) r := by
  have h := rest_layered (E := E) hS hL
  refine ⟨?_, ?_, ?_, ?_, ?_⟩
  · refine ⟨h.wf.nodup, ?_, ?_, ?_⟩
    · show (((rest g E keep).edges.map (gaugeEdge τ)).map _).Nodup
      rw [List.map_map]
      exact h.wf.edgeNodup
    · intro e he
      obtain ⟨e', h1, rfl⟩ := List.mem_map.1 he
      exact h.wf.srcMem e' h1
    · intro e he
      obtain ⟨e', h1, rfl⟩ := List.mem_map.1 he
      exact h.wf.dstMem e' h1
  · obtain ⟨depth, hd⟩ := h.graded
    refine ⟨depth, fun e he => ?_⟩
    obtain ⟨e', h1, rfl⟩ := List.mem_map.1 he
    exact hd e' h1
  · intro n d hk
    rw [succ_gauge]; exact h.leaves n d hk
  · intro n hk e he
    rw [outEdges_gauge] at he
    obtain ⟨e', h1, rfl⟩ := List.mem_map.1 he
    have := h.weighted n hk e' h1
    simpa [gaugeEdge] using this
  · rw [root_gauge]; exact h.root

end Restrict

variable {g : Circuit} {r : Node} {P T : Node → ℝ} {E : SimpleEvent} {B : Var → Set ℝ} {sc : Node → Finset Var}

/-- `normalize` undoes the change of the scales. -/
theorem normalize_gauge {τ : Node → ℝ} {h : Circuit} (hw : h.WF) (hwt : Weighted h) (hn : NormalizedSums (gauge τ h))
    (hτ : ∀ n, h.kind? n = some .sum → ∀ c ∈ h.succ n, τ c = 0) : ∃ h', h.normalize = .ok h' ∧ Alike (gauge τ h) h' := by
  have hne : ∀ n, h.kind? n = some .sum → h.outEdges n ≠ [] := by
    intro n hk h0
    have := hn n hk
    rw [outEdges_gauge, h0] at this
    simp at this
  refine ⟨_, normalize_eq hw hwt hne, rfl, ?_, ?_⟩
  · show (h.edges.map (gaugeEdge τ)).map _ = (h.edges.map _).map _
    rw [List.map_map, List.map_map]
    refine List.map_congr_left fun e _ => ?_
    simp only [Function.comp, normEdge_src, normEdge_dst, gaugeEdge_src, gaugeEdge_dst]
  · intro n hk
    rw [kind?_gauge] at hk
    rw [outEdges_gauge, outEdges_normEdge]
    have hlt : h.logTotal n = .fin (τ n) := by
      have h1 := exp_logTotal hwt hk
      have h2 := hn n hk
      rw [outEdges_gauge, List.map_map] at h2
      have h3 : (h.outEdges n).map (linWeight ∘ gaugeEdge τ) = (h.outEdges n).map fun e => linWeight e / Real.exp (τ n) := by
        refine List.map_congr_left fun e he => ?_
        have hs := (mem_outEdges.1 he).2
        have hd := hτ n hk e.dst (dst_mem_succ he)
        simp only [Function.comp, linWeight, gaugeEdge]
        cases e.weight with
        | none => simp
        | some w =>
          cases w with
          | negInf => simp [shift, LogP.exp]
          | fin x => simp only [Option.map_some, shift, LogP.exp, hs, hd, add_zero, Real.exp_sub]
      rw [h3, ← sum_map_quot, div_eq_one_iff_eq (Real.exp_pos _).ne'] at h2
      rw [h2] at h1
      cases h4 : h.logTotal n with
      | negInf => rw [h4] at h1; exact absurd h1.symm (Real.exp_pos _).ne'
      | fin x => rw [h4] at h1; rw [Real.exp_injective h1]
    refine List.map_congr_left fun e he => ?_
    have hs := (mem_outEdges.1 he).2
    have hd := hτ n hk e.dst (dst_mem_succ he)
    unfold normEdge gaugeEdge
    rw [if_pos (by rw [hs]; exact (mem_sumNodes hw).2 hk), hs, hlt]
    congr 2
    funext w
    cases w with
    | negInf => rfl
    | fin x =>
      show LogP.fin _ = LogP.fin _
      rw [hd, add_zero]

/-- The probabilities in the new leaves. -/
theorem newLeaf_real (hU : Unsplit g E B) {X : Var → Set ℝ} (hX : ∀ v, MeasurableSet (X v)) :
    ∀ n d, g.kind? n = some (.leaf d) → (leafLaw d).real (B d.var) ≠ 0 →
      (leafLaw (newLeaf E d)).real (X (newLeaf E d).var) = (leafLaw d).real (B d.var ∩ X d.var) / (leafLaw d).real (B d.var) := by
  intro n d hk h0
  obtain ⟨p, hc⟩ := hU.newLeaf hk h0
  rw [newLeaf_var hU hk]
  exact hc.2.2.2.2.2.2 _ (hX _)

/-- What conditioning yields on a tree. -/
theorem conditionSimple_pruned (hL : Layered g r) (hs : Scoped g sc) (hdec : Decomposable g sc)
    (hp : PositiveWeights g) (ht : TreeShaped g)
    (hP : CircuitValue g (fun d => (leafLaw d).real (B d.var)) P) (hU : Unsplit g E B) (hT : RemainingWeight g P T) (hpos : P r ≠ 0)
    (m : Mem LogP) :
    ∃ g' r' m' p, g.conditionSimple m E = .ok (some (g', m'), p) ∧ p.exp = P r ∧ m' r = some p ∧ (∃ q, m' r' = some q ∧ q.exp = P r') ∧ Layered g' r' ∧
      Scoped g' sc ∧ Decomposable g' sc ∧ sc r' = sc r ∧ NormalizedSums g' ∧ PositiveWeights g' ∧ TreeShaped g' ∧
      (∀ n d', g'.kind? n = some (.leaf d') → ∃ d, g.kind? n = some (.leaf d) ∧ d' = newLeaf E d) ∧
      (∀ n d', g'.kind? n = some (.leaf d') → ∃ d q, g.kind? n = some (.leaf d) ∧ CondSpec d (B d.var) (.one d' q)) ∧
      (∀ n ∈ g'.ids, n ∈ g.ids) ∧
      ∀ φ ℓ : Leaf → ℝ, (∀ n d, g.kind? n = some (.leaf d) → (leafLaw d).real (B d.var) ≠ 0 → φ (newLeaf E d) = ℓ d) → ∀ C,
        PrunedValue g P T ℓ C → ∃ f', CircuitValue g' φ f' ∧ f' r' = C r := by
  obtain ⟨keep, m', p, hS, hpe, hm', hmall, heq⟩ := conditionSimple_unsplit hL hs.sumNe hP hU hpos m
  have hLr := rest_layered (E := E) hS hL
  have hLg := rest_gauge_layered (E := E) hS (fun n => Real.log (T n)) hL
  have htr := rest_tree (E := E) (keep := keep) ht
  have htg : TreeShaped (gauge (fun n => Real.log (T n)) (rest g E keep)) := by
    intro e he e' he' hd
    obtain ⟨x, h1, rfl⟩ := List.mem_map.1 he
    obtain ⟨y, h2, rfl⟩ := List.mem_map.1 he'
    exact htr x h1 y h2 hd
  have hpg : PositiveWeights (gauge (fun n => Real.log (T n)) (rest g E keep)) := by
    intro n hk e he
    rw [outEdges_gauge] at he
    obtain ⟨x, h1, rfl⟩ := List.mem_map.1 he
    obtain ⟨y, hy⟩ := rest_positive hp n hk x h1
    exact ⟨y + Real.log (T x.dst) - Real.log (T x.src), by simp only [gaugeEdge, hy, Option.map_some, shift]⟩
  obtain ⟨depth, hd⟩ := hLr.graded
  have hI : RwInv depth (gauge (fun n => Real.log (T n)) (rest g E keep)) :=
    ⟨hLg.wf, htg.safeSharing, (by
      intro e he
      obtain ⟨x, h1, rfl⟩ := List.mem_map.1 he
      show depth x.src < depth x.dst
      rw [hd x h1]; omega), hLg.leaves, hpg, rest_gauge_effNorm hS hL hP hp hT⟩
  have hri := (root_mem hLr.root).1
  obtain ⟨_, hok⟩ := layersFrom_strat hLr.wf hd hri
  have hmem : ∀ n, n ∈ (rest g E keep).bottomUp r ↔ n ∈ ((rest g E keep).layersFrom r).flatten := by
    intro n
    unfold bottomUp
    simp only [List.mem_flatten, List.mem_reverse]
  have hall : ∀ k ∈ (rest g E keep).ids, k ∈ (rest g E keep).bottomUp r := by
    intro k hk
    rw [hmem, mem_layersFrom_iff hLr.wf hLr.graded hri]
    exact reachable_of_root hLr.wf hLr.graded.acyclic hLr.root k hk
  have hkeep : ∀ k ∈ (rest g E keep).ids, keep k = true := by
    intro k hk
    obtain ⟨K, hK⟩ := exists_kind? hk
    cases K with
    | leaf d => exact (rest_leaf hK).1
    | sum => exact (rest_sum hK).1
    | prod => exact (rest_prod hK).1
  obtain ⟨g', h1, h2, ⟨r', h3⟩, h4, hflat, hkinds, hsw, hprod⟩ := fold_gauge (τ := fun n => Real.log (T n)) (depth := depth)
    ((rest g E keep).bottomUp r) (rest g E keep) r hI hLr.root
    (fun n hn => reachable_mem_ids hLr.wf hri (mem_layersFrom_reachable _ ((hmem n).1 hn)))
    (by
      have := hok.nodup
      unfold bottomUp
      exact ((List.reverse_perm _).flatten.nodup_iff).2 this)
    hok.sorted (fun k hk hkl => absurd (hall k hk) hkl) (fun k hk hkl => absurd (hall k hk) hkl) hLr.weighted
    (by
      intro k hk c hc
      have hkk := hkeep k (reachable_mem_ids hLr.wf hri (mem_layersFrom_reachable _ ((hmem k).1 hk)))
      unfold succ at hc
      rw [outEdges_rest_possible hS hL hkk] at hc
      have h1 : (possibleEdges g P k).length = 1 := by rw [← List.length_map (f := fun e => e.dst), hc]; rfl
      obtain ⟨e, he⟩ := List.length_eq_one_iff.1 h1
      rw [he] at hc
      simp only [List.map_cons, List.map_nil, List.cons.injEq, and_true] at hc
      show Real.log _ = Real.log _
      rw [hT.single k e he, hc])
    (by
      intro k hk hlen
      have hki := mem_ids_of_kind? hk
      obtain ⟨hkk, hkg⟩ := rest_prod hk
      have h1 := hlen (hall k hki)
      rw [succ_rest_length hS hL hkk] at h1
      show Real.log _ = 0
      rw [hT.prod k hkg h1, Real.log_one])
    (fun k hkl hks => absurd (hall k (mem_ids_of_kind? hks)) hkl)
  have hn' : NormalizedSums (gauge (fun n => Real.log (T n)) g') := normalizedSums_of_eff h2.norm
    fun k hk => by rw [succ_gauge]; exact h4 k hk
  have hw' : g'.WF := by
    refine ⟨h2.wf.nodup, ?_, fun e he => h2.wf.srcMem (gaugeEdge _ e) (List.mem_map.2 ⟨e, he, rfl⟩),
      fun e he => h2.wf.dstMem (gaugeEdge _ e) (List.mem_map.2 ⟨e, he, rfl⟩)⟩
    have := h2.wf.edgeNodup
    rw [gauge, List.map_map] at this
    exact this
  obtain ⟨g'', h5, hA⟩ := normalize_gauge hw' hsw hn' (by
    intro n hk c hc
    show Real.log _ = 0
    have hci : c ∈ g'.ids := by
      obtain ⟨e, he, _, rfl⟩ := mem_succ.1 hc
      exact hw'.dstMem e he
    obtain ⟨K, hK⟩ := exists_kind? hci
    cases K with
    | leaf d =>
      obtain ⟨_, d', hd', _⟩ := rest_leaf (hkinds c _ hK)
      rw [hT.leaf c d' hd', Real.log_one]
    | sum => exact absurd hK (hflat n hk c hc)
    | prod => exact hprod c hK)
  have hsg : Scoped (gauge (fun n => Real.log (T n)) (rest g E keep)) sc := by
    have h := rest_scoped (E := E) hS hL hs hP hU
    exact ⟨h.leaf, fun n hk => by rw [succ_gauge]; exact h.sumNe n hk, fun n hk => by rw [succ_gauge]; exact h.sum n hk,
      fun n hk => by rw [succ_gauge]; exact h.prod n hk⟩
  have hdg : Decomposable (gauge (fun n => Real.log (T n)) (rest g E keep)) sc :=
    fun n hk => by rw [succ_gauge]; exact rest_decomposable (E := E) (keep := keep) hdec n hk
  obtain ⟨h6, h7, h8⟩ := h3.scope sc hsg hdg
  have ht' := h3.tree htg
  have hwt : Weighted (gauge (fun n => Real.log (T n)) g') := fun n hk e he => by obtain ⟨x, hx⟩ := h2.pos n hk e he; simp [hx]
  have hL' : Layered (gauge (fun n => Real.log (T n)) g') r' := ⟨h2.wf, treeShaped_graded ht' h2.desc, h2.leaves, hwt, h3.root⟩
  refine ⟨g'', r', m', p, ?_, hpe, hm', ?_, hA.layered hL', hA.scopes h6, hA.decomposable h7, h8, hA.normalized hn', hA.positive h2.pos,
    hA.tree ht', ?_, ?_, ?_, ?_⟩
  · rw [heq]
    show (do let g3 ← (rest g E keep).simplify; _ : Except PyErr _) = _
    have : (rest g E keep).simplify = .ok g' := by
      unfold simplify
      rw [hLr.root]; exact h1
    rw [this]
    show (do let g4 ← g'.normalize; _ : Except PyErr _) = _
    rw [h5]; rfl
  · obtain ⟨K, hK⟩ := exists_kind? (root_mem (hA.layered hL').root).1
    rw [← hA.kind] at hK
    refine hmall r' ?_
    have hKr := hkinds r' _ hK
    cases K with
    | leaf d => obtain ⟨_, d', hd', _⟩ := rest_leaf hKr; exact mem_ids_of_kind? hd'
    | sum => exact mem_ids_of_kind? (rest_sum hKr).2
    | prod => exact mem_ids_of_kind? (rest_prod hKr).2
  · intro n d' hk
    rw [← hA.kind] at hk
    exact (rest_leaf (hkinds n _ hk)).2
  · intro n d' hk
    rw [← hA.kind] at hk
    obtain ⟨hkn, d, hd, rfl⟩ := rest_leaf (hkinds n _ hk)
    have hPn := hS.alive n (mem_ids_of_kind? hd) hkn
    rw [hP.leaf n d hd] at hPn
    obtain ⟨q, hq⟩ := hU.newLeaf hd hPn
    exact ⟨d, q, hd, hq⟩
  · intro n hn
    obtain ⟨K, hK⟩ := exists_kind? hn
    rw [← hA.kind] at hK
    have hKr := hkinds n _ hK
    cases K with
    | leaf d => obtain ⟨_, d', hd', _⟩ := rest_leaf hKr; exact mem_ids_of_kind? hd'
    | sum => exact mem_ids_of_kind? (rest_sum hKr).2
    | prod => exact mem_ids_of_kind? (rest_prod hKr).2
  · intro φ ℓ hφ C hC
    obtain ⟨h8, h9⟩ := h3.value _ _ (rest_gauge_effValue (E := E) hS hL hP hp hT hφ hC)
    exact ⟨_, hA.value (EffValue.circuitValue hn' h8), h9⟩

end PM.Graph
