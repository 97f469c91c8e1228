import Verif.Circuit.CondTree
import Verif.Circuit.NormalizeLemmas

/-! Helper lemmas: conditioning of trees whose sum units need no new weights. -/

namespace PM.Graph

open Spec MeasureTheory

variable {g : Circuit} {r : Node} {sc : Node → Finset Var} {E : SimpleEvent} {B : Var → Set ℝ} {P : Node → ℝ}
  {keep : Node → Bool}

theorem normalize_id {g : Circuit} (hw : g.WF) (hwt : Weighted g) (hn : NormalizedSums g) : g.normalize = .ok g := by
  have hne : ∀ n, g.kind? n = some .sum → g.outEdges n ≠ [] := by
    intro n hk h0
    have := hn n hk
    rw [h0] at this
    simp at this
  rw [normalize_eq hw hwt hne]
  congr 1
  have : g.edges.map (g.normEdge g.sumNodes) = g.edges := by
    conv_rhs => rw [← List.map_id g.edges]
    apply List.map_congr_left
    intro e he
    unfold normEdge
    split
    · rename_i hm
      have hk := (mem_sumNodes hw).1 hm
      have h0 : g.logTotal e.src = .fin 0 := by
        have h1 := exp_logTotal hwt hk
        rw [hn _ hk] at h1
        cases h2 : g.logTotal e.src with
        | negInf => rw [h2] at h1; simp at h1
        | fin x =>
          rw [h2] at h1
          have : x = 0 := by simpa using h1
          rw [this]
      rw [h0]
      cases hwe : e.weight with
      | none => cases e; simp_all
      | some w =>
        have : w - LogP.fin 0 = w := by
          cases w with
          | negInf => rfl
          | fin y => show LogP.fin (y - 0) = _; rw [sub_zero]
        cases e
        simp_all
    · rfl
  rw [this]

section Restrict

variable (hS : Survivors g P r keep)

/-- The remaining circuit before `simplify`. -/
noncomputable abbrev rest (g : Circuit) (E : SimpleEvent) (keep : Node → Bool) : Circuit :=
  (g.mapLeavesOn (newLeaf E) fun _ => true).induced keep

theorem kind?_rest {n : Node} : (rest g E keep).kind? n = if keep n then (g.kind? n).map (Kind.mapLeaf (newLeaf E)) else none := by
  rw [kind?_induced, kind?_mapLeavesOn]; rfl

theorem rest_leaf {n : Node} {d' : Leaf} (h : (rest g E keep).kind? n = some (.leaf d')) :
    keep n = true ∧ ∃ d, g.kind? n = some (.leaf d) ∧ d' = newLeaf E d := by
  rw [kind?_rest] at h
  split at h
  · rename_i hk
    refine ⟨hk, ?_⟩
    cases hg : g.kind? n with
    | none => rw [hg] at h; simp at h
    | some k =>
      rw [hg] at h
      cases k with
      | leaf d => simp only [Option.map_some, Kind.mapLeaf, Option.some.injEq, Kind.leaf.injEq] at h; exact ⟨d, rfl, h.symm⟩
      | sum => simp [Kind.mapLeaf] at h
      | prod => simp [Kind.mapLeaf] at h
  · cases h

theorem rest_sum {n : Node} (h : (rest g E keep).kind? n = some .sum) : keep n = true ∧ g.kind? n = some .sum := by
  rw [kind?_rest] at h
  split at h
  · rename_i hk
    refine ⟨hk, ?_⟩
    cases hg : g.kind? n with
    | none => rw [hg] at h; simp at h
    | some k => rw [hg] at h; cases k <;> simp_all [Kind.mapLeaf]
  · cases h

theorem rest_prod {n : Node} (h : (rest g E keep).kind? n = some .prod) : keep n = true ∧ g.kind? n = some .prod := by
  rw [kind?_rest] at h
  split at h
  · rename_i hk
    refine ⟨hk, ?_⟩
    cases hg : g.kind? n with
    | none => rw [hg] at h; simp at h
    | some k => rw [hg] at h; cases k <;> simp_all [Kind.mapLeaf]
  · cases h

theorem outEdges_rest {n : Node} (h : keep n = true) : (rest g E keep).outEdges n = (g.outEdges n).filter fun e => keep e.dst :=
  outEdges_induced h

theorem succ_rest {n : Node} (h : keep n = true) : (rest g E keep).succ n = (g.succ n).filter keep := succ_induced h

include hS in
theorem keep_dst_iff (hL : Layered g r) {n : Node} (h : keep n = true) {e : Edge} (he : e ∈ g.outEdges n) :
    keep e.dst = true ↔ P e.dst ≠ 0 := by
  obtain ⟨he1, he2⟩ := mem_outEdges.1 he
  exact ⟨hS.alive _ (hL.wf.dstMem e he1), hS.closed e he1 (by rw [he2]; exact h)⟩

include hS in
theorem outEdges_rest_prod (hL : Layered g r) {ℓ : Leaf → ℝ} (hP : CircuitValue g ℓ P) {n : Node}
    (hk : g.kind? n = some .prod) (h : keep n = true) : (rest g E keep).outEdges n = g.outEdges n := by
  rw [outEdges_rest h, List.filter_eq_self]
  intro e he
  rw [keep_dst_iff hS hL h he]
  intro h0
  refine hS.alive n (mem_ids_of_kind? hk) h ?_
  rw [hP.prod n hk, List.prod_eq_zero_iff]
  exact List.mem_map.2 ⟨e, he, h0⟩

include hS in
theorem exists_alive (hL : Layered g r) {ℓ : Leaf → ℝ} (hP : CircuitValue g ℓ P) {n : Node}
    (hk : g.kind? n = some .sum) (h : keep n = true) : ∃ e ∈ g.outEdges n, keep e.dst = true := by
  by_contra hcon
  push Not at hcon
  refine hS.alive n (mem_ids_of_kind? hk) h ?_
  rw [hP.sum n hk]
  apply List.sum_eq_zero
  intro x hx
  obtain ⟨e, he, rfl⟩ := List.mem_map.1 hx
  have : P e.dst = 0 := by
    by_contra h0
    exact hcon e he ((keep_dst_iff hS hL h he).2 h0)
  rw [this, mul_zero]

include hS in
theorem rest_layered (hL : Layered g r) : Layered (rest g E keep) r where
  wf := (hL.wf.mapLeavesOn _ _).induced keep
  graded := Graded.induced (g := g.mapLeavesOn (newLeaf E) fun _ => true) hL.graded keep
  leaves := by
    intro n d hk
    obtain ⟨h1, d', h2, _⟩ := rest_leaf hk
    rw [succ_rest h1, hL.leaves n d' h2]; rfl
  weighted := by
    intro n hk e he
    obtain ⟨h1, h2⟩ := rest_sum hk
    rw [outEdges_rest h1] at he
    exact hL.weighted n h2 e (List.mem_filter.1 he).1
  root := by
    have hr1 : (g.mapLeavesOn (newLeaf E) fun _ => true).root = .ok r := by
      have := hL.root
      unfold root at this ⊢
      rw [ids_mapLeavesOn]; exact this
    refine root_induced hr1 (hL.wf.mapLeavesOn _ _) hS.root ?_
    intro n hn h hne
    rw [ids_mapLeavesOn] at hn
    exact hS.parent n hn h hne

/-- New leaves have the variable of the old ones. -/
theorem newLeaf_var (hU : Unsplit g E B) {n : Node} {d : Leaf} (hk : g.kind? n = some (.leaf d)) :
    (newLeaf E d).var = d.var := by
  by_cases h0 : (leafLaw d).real (B d.var) = 0
  · rw [hU.newLeaf_zero hk h0]
  · obtain ⟨p, h⟩ := hU.newLeaf hk h0
    exact h.2.2.2.2.1

include hS in
theorem rest_scoped (hL : Layered g r) (hs : Scoped g sc) {ℓ : Leaf → ℝ} (hP : CircuitValue g ℓ P) (hU : Unsplit g E B) :
    Scoped (rest g E keep) sc where
  leaf n d hk := by
    obtain ⟨h1, d', h2, rfl⟩ := rest_leaf hk
    rw [hs.leaf n d' h2, newLeaf_var hU h2]
  sumNe n hk := by
    obtain ⟨h1, h2⟩ := rest_sum hk
    obtain ⟨e, he, hke⟩ := exists_alive hS hL hP h2 h1
    rw [succ_rest h1]
    intro h0
    have : e.dst ∈ (g.succ n).filter keep := List.mem_filter.2 ⟨dst_mem_succ he, hke⟩
    rw [h0] at this
    cases this
  sum n hk := by
    obtain ⟨h1, h2⟩ := rest_sum hk
    rw [succ_rest h1]
    intro c hc
    exact hs.sum n h2 c (List.mem_filter.1 hc).1
  prod n hk := by
    obtain ⟨h1, h2⟩ := rest_prod hk
    have : (rest g E keep).succ n = g.succ n := by
      unfold succ; rw [outEdges_rest_prod hS hL hP h2 h1]
    rw [this]
    exact hs.prod n h2

theorem rest_decomposable (hdec : Decomposable g sc) : Decomposable (rest g E keep) sc := by
  intro n hk
  obtain ⟨h1, h2⟩ := rest_prod hk
  rw [succ_rest h1]
  exact (hdec n h2).filter _

theorem rest_positive (hp : PositiveWeights g) : PositiveWeights (rest g E keep) := by
  intro n hk e he
  obtain ⟨h1, h2⟩ := rest_sum hk
  rw [outEdges_rest h1] at he
  exact hp n h2 e (List.mem_filter.1 he).1

theorem rest_tree (ht : TreeShaped g) : TreeShaped (rest g E keep) :=
  restrict_tree (g := g.mapLeavesOn (newLeaf E) fun _ => true) ht

/-- The out-edges of a remaining sum unit and their weights as `simplify` sees them. -/
theorem rest_sum_cases (hS : Survivors g P r keep) (hL : Layered g r) {ℓ : Leaf → ℝ} (hP : CircuitValue g ℓ P)
    (hn : NormalizedSums g) (hb : Balanced g P) {n : Node} (hk : g.kind? n = some .sum) (h : keep n = true) :
    (∃ e₀ ∈ g.outEdges n, (rest g E keep).outEdges n = [e₀] ∧ (rest g E keep).effW e₀ = 1 ∧
      ∀ e ∈ g.outEdges n, e ≠ e₀ → P e.dst = 0) ∨
    ((rest g E keep).outEdges n = g.outEdges n ∧ (∀ e ∈ g.outEdges n, (rest g E keep).effW e = linWeight e) ∧
      ∀ e ∈ g.outEdges n, P e.dst = P n) := by
  have hPn := hS.alive n (mem_ids_of_kind? hk) h
  rcases hb n hk hPn with ⟨e₀, he₀, hall⟩ | hall
  · left
    obtain ⟨e, he, hke⟩ := exists_alive hS hL hP hk h
    have hk0 : keep e₀.dst = true := by
      rw [← hall e he ((keep_dst_iff hS hL h he).1 hke)]; exact hke
    have hout : (rest g E keep).outEdges n = [e₀] := by
      rw [outEdges_rest h]
      refine filter_eq_single (hL.wf.edges_nodup.filter _) he₀ ?_
      intro e he
      constructor
      · intro hke
        exact hall e he ((keep_dst_iff hS hL h he).1 hke)
      · rintro rfl; exact hk0
    refine ⟨e₀, he₀, hout, ?_, fun e he hne => ?_⟩
    · unfold effW
      rw [if_pos]
      rw [(mem_outEdges.1 he₀).2]
      unfold succ
      rw [hout]; rfl
    · by_contra h0
      exact hne (hall e he h0)
  · right
    have hout : (rest g E keep).outEdges n = g.outEdges n := by
      rw [outEdges_rest h, List.filter_eq_self]
      intro e he
      rw [keep_dst_iff hS hL h he, hall e he]; exact hPn
    refine ⟨hout, fun e he => ?_, hall⟩
    rw [← effW_eq hn hk he]
    unfold effW
    have : (rest g E keep).succ e.src = g.succ e.src := by
      unfold succ; rw [(mem_outEdges.1 he).2, hout]
    rw [this]

theorem rest_effNorm (hS : Survivors g P r keep) (hL : Layered g r) {ℓ : Leaf → ℝ} (hP : CircuitValue g ℓ P)
    (hn : NormalizedSums g) (hb : Balanced g P) : (rest g E keep).EffNorm := by
  intro n hk
  obtain ⟨h1, h2⟩ := rest_sum hk
  rcases rest_sum_cases (E := E) hS hL hP hn hb h2 h1 with ⟨e₀, _, ho, hw, _⟩ | ⟨ho, hw, _⟩
  · rw [ho]; simp [hw]
  · rw [ho, List.map_congr_left hw]; exact hn n h2

/-- The values after conditioning are the quotients. -/
theorem rest_effValue (hS : Survivors g P r keep) (hL : Layered g r)
    (hP : CircuitValue g (fun d => (leafLaw d).real (B d.var)) P) (hv : ∀ n d, g.kind? n = some (.leaf d) → d.Valid)
    (hU : Unsplit g E B)
    (hn : NormalizedSums g) (hb : Balanced g P) {X : Var → Set ℝ} (hX : ∀ v, MeasurableSet (X v)) {f : Node → ℝ}
    (hf : CircuitValue g (fun d => (leafLaw d).real (B d.var ∩ X d.var)) f) :
    (rest g E keep).EffValue (fun d => (leafLaw d).real (X d.var)) (fun n => f n / P n) := by
  have hzero : ∀ n ∈ g.ids, P n = 0 → f n = 0 := by
    intro n hnn h0
    have := circuitValue_mono hL.graded.acyclic hL.wf hf hP (fun _ _ _ => measureReal_nonneg) (fun n d hk => by
      have := finite_leafLaw (hv n d hk)
      exact measureReal_mono Set.inter_subset_left) n hnn
    rw [h0] at this
    exact le_antisymm this.2 this.1
  refine ⟨?_, ?_, ?_⟩
  · intro n d' hk
    obtain ⟨h1, d, h2, rfl⟩ := rest_leaf hk
    have hPn := hS.alive n (mem_ids_of_kind? h2) h1
    rw [hf.leaf n d h2, newLeaf_var hU h2]
    rw [hP.leaf n d h2] at hPn ⊢
    obtain ⟨p, hc⟩ := hU.newLeaf h2 hPn
    exact (hc.2.2.2.2.2.2 _ (hX _)).symm
  · intro n hk
    obtain ⟨h1, h2⟩ := rest_sum hk
    have hPn := hS.alive n (mem_ids_of_kind? h2) h1
    rcases rest_sum_cases (E := E) hS hL hP hn hb h2 h1 with ⟨e₀, he₀, ho, hw, hz⟩ | ⟨ho, hw, hz⟩
    · rw [ho]
      simp only [List.map_cons, List.map_nil, List.sum_cons, List.sum_nil, add_zero, hw, one_mul]
      have hsingle : ∀ (φ : Node → ℝ), (∀ e ∈ g.outEdges n, e ≠ e₀ → φ e.dst = 0) →
          ((g.outEdges n).map fun e => linWeight e * φ e.dst).sum = linWeight e₀ * φ e₀.dst := by
        intro φ hφ
        have hnd : (g.outEdges n).Nodup := hL.wf.edges_nodup.filter _
        revert hφ hnd he₀
        generalize g.outEdges n = l
        intro hmem hφ hnd
        induction l with
        | nil => cases hmem
        | cons a l ih =>
          obtain ⟨ha, hl⟩ := List.nodup_cons.1 hnd
          simp only [List.map_cons, List.sum_cons]
          by_cases hae : a = e₀
          · subst hae
            rw [List.sum_eq_zero, add_zero]
            intro x hx
            obtain ⟨e, he, rfl⟩ := List.mem_map.1 hx
            rw [hφ e (by simp [he]) (fun h => ha (h ▸ he)), mul_zero]
          · rw [hφ a (by simp) hae, mul_zero, zero_add]
            exact ih (by rcases List.mem_cons.1 hmem with h | h
                         · exact absurd h.symm hae
                         · exact h) (fun e he => hφ e (by simp [he])) hl
      have hp1 : P n = linWeight e₀ * P e₀.dst := by rw [hP.sum n h2, hsingle P hz]
      have hf1 : f n = linWeight e₀ * f e₀.dst := by
        rw [hf.sum n h2, hsingle f]
        intro e he hne
        exact hzero _ (hL.wf.dstMem e (mem_outEdges.1 he).1) (hz e he hne)
      rw [hp1] at hPn ⊢
      rw [hf1, mul_div_mul_left _ _ (left_ne_zero_of_mul hPn)]
    · rw [ho, hf.sum n h2]
      have : ((g.outEdges n).map fun e => (rest g E keep).effW e * (f e.dst / P e.dst))
          = (g.outEdges n).map fun e => (linWeight e * f e.dst) / P n := by
        apply List.map_congr_left
        intro e he
        rw [hw e he, hz e he, mul_div_assoc]
      rw [this]
      generalize g.outEdges n = l
      induction l with
      | nil => simp
      | cons a l ih => simp only [List.map_cons, List.sum_cons, add_div, ih]
  · intro n hk
    obtain ⟨h1, h2⟩ := rest_prod hk
    rw [outEdges_rest_prod hS hL hP h2 h1, hf.prod n h2, hP.prod n h2]
    generalize g.outEdges n = l
    induction l with
    | nil => simp
    | cons a l ih => simp only [List.map_cons, List.prod_cons, ← ih, mul_div_mul_comm]

end Restrict

/-- What conditioning yields on a tree whose sum units need no new weights. -/
theorem conditionSimple_balanced (hL : Layered g r) (hs : Scoped g sc) (hdec : Decomposable g sc)
    (hv : ∀ n d, g.kind? n = some (.leaf d) → d.Valid) (hn : NormalizedSums g) (hp : PositiveWeights g) (ht : TreeShaped g)
    (hP : CircuitValue g (fun d => (leafLaw d).real (B d.var)) P) (hU : Unsplit g E B) (hb : Balanced g P) (hpos : P r ≠ 0)
    (m : Mem LogP) :
    ∃ g' r' m' p, g.conditionSimple m E = .ok (some (g', m'), p) ∧ p.exp = P r ∧ m' r = some p ∧ Layered g' r' ∧
      Scoped g' sc ∧ Decomposable g' sc ∧ sc r' = sc r ∧ NormalizedSums g' ∧ PositiveWeights g' ∧ TreeShaped g' ∧
      (∀ n d', g'.kind? n = some (.leaf d') → ∃ d q, g.kind? n = some (.leaf d) ∧ CondSpec d (B d.var) (.one d' q)) ∧
      ∀ X : Var → Set ℝ, (∀ v, MeasurableSet (X v)) → ∀ f,
        CircuitValue g (fun d => (leafLaw d).real (B d.var ∩ X d.var)) f →
        ∃ f', CircuitValue g' (fun d => (leafLaw d).real (X d.var)) f' ∧ f' r' = f r / P r := by
  obtain ⟨keep, m', p, hS, hpe, hm', _, heq⟩ := conditionSimple_unsplit hL hs.sumNe hP hU hpos m
  have hL3 := rest_layered (E := E) hS hL
  obtain ⟨g', r', depth, h1, h2, h3, h4⟩ := simplify_eff hL3 (rest_tree ht).safeSharing (rest_positive hp)
    (rest_effNorm hS hL hP hn hb)
  obtain ⟨h5, h6, h7⟩ := h3.scope sc (rest_scoped hS hL hs hP hU) (rest_decomposable hdec)
  have ht' := h3.tree (rest_tree ht)
  have hwt : Weighted g' := fun n hk e he => by obtain ⟨x, hx⟩ := h2.pos n hk e he; simp [hx]
  have hL' : Layered g' r' := ⟨h2.wf, treeShaped_graded ht' h2.desc, h2.leaves, hwt, h3.root⟩
  refine ⟨g', r', m', p, ?_, hpe, hm', hL', h5, h6, h7, h4, h2.pos, ht', ?_, ?_⟩
  · rw [heq]
    show (do let g3 ← (rest g E keep).simplify; _ : Except PyErr _) = _
    rw [h1]
    show (do let g4 ← g'.normalize; _ : Except PyErr _) = _
    rw [normalize_id h2.wf hwt h4]; rfl
  · intro n d' hk
    obtain ⟨hkn, d, hd, rfl⟩ := rest_leaf (h3.kind n _ hk)
    have hPn := hS.alive n (mem_ids_of_kind? hd) hkn
    rw [hP.leaf n d hd] at hPn
    obtain ⟨q, hq⟩ := hU.newLeaf hd hPn
    exact ⟨d, q, hd, hq⟩
  · intro X hX f hf
    obtain ⟨h8, h9⟩ := h3.value _ _ (rest_effValue hS hL hP hv hU hn hb hX hf)
    exact ⟨_, EffValue.circuitValue h4 h8, h9⟩

end PM.Graph
