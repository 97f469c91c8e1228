import Verif.Learn.JptUni
import Verif.Learn.JptMarginal
import Verif.Circuit.Neat
import Verif.Props.Marginal
import Verif.Props.Nyga

/-!
# Marginals of learned trees on one variable
-/

namespace PM.Graph
open Spec Props

variable {g : Circuit} {r : Node} {sc : Node → Finset Var} {v : Var}

/-- What is known about a marginal on one variable. -/
structure OneVariableMarginal (g g' : Circuit) (r r' : Node) (v : Var) : Prop where
  layered : Layered g' r'
  scope : Scoped g' fun _ => {v}
  kind : ∀ n k, g'.kind? n = some k → g.kind? n = some k
  oneFactor : ∀ n, g'.kind? n = some .prod → (g'.succ n).length = 1
  normalized : NormalizedSums g'
  value : ∀ (ℓ : Leaf → ℝ), (∀ n d, g.kind? n = some (.leaf d) → d.var ≠ v → ℓ d = 1) →
    ∀ f f', CircuitValue g ℓ f → CircuitValue g' ℓ f' → f' r' = f r

theorem marginal_one (hL : Layered g r) (hs : Scoped g sc) (hdec : Decomposable g sc) (hn : Neat g) (hv : v ∈ sc r) :
    ∃ g' r', g.marginalInPlace {v} = .ok (some g') ∧ OneVariableMarginal g g' r r' v := by
  have hvs : ¬ Disjoint (sc r) {v} := by simpa using hv
  have hk := keeps_iff_not_disjoint.2 hvs
  have ht' : TreeShaped (g.induced (keeps sc {v})) := restrict_tree hn.tree
  obtain ⟨g', r', depth, h1, h2, h3, hnorm⟩ := simplify_safe (restrict_layered hL hs hk) ht'.safeSharing
    (restrict_positive hs hn.pos) (restrict_normalized hs hn.norm)
  obtain ⟨h4, h5, h6⟩ := h3.scope _ (restrict_scoped (vs := {v}) hs) (restrict_decomposable hdec)
  have hgr := treeShaped_graded (h3.tree ht') h2.desc
  have hL' : Layered g' r' := ⟨h2.wf, hgr, h2.leaves, fun n hk e he => by
    obtain ⟨x, hx⟩ := h2.pos n hk e he; simp [hx], h3.root⟩
  have hall : ∀ n ∈ g'.ids, sc n ∩ {v} = {v} := by
    intro n hm
    obtain ⟨k, hkn⟩ := exists_kind? hm
    obtain ⟨w, hw1, hw2⟩ := keeps_iff.1 (kind?_of_induced (h3.kind n k hkn)).2
    rw [Finset.mem_singleton] at hw2
    subst hw2
    ext u
    simp only [Finset.mem_inter, Finset.mem_singleton]
    exact ⟨fun h => h.2, fun h => ⟨h ▸ hw1, h⟩⟩
  have hsucc : ∀ n, ∀ c ∈ g'.succ n, c ∈ g'.ids := by
    intro n c hc
    obtain ⟨e, he, rfl⟩ := List.mem_map.1 hc
    exact hL'.wf.dstMem e (List.mem_filter.1 he).1
  have hone : ∀ n, g'.kind? n = some .prod → (g'.succ n).length = 1 := by
    intro n hkn
    have hp := h5 n hkn
    have hv' := (h4.prod n hkn v).1 (by rw [hall n (mem_ids_of_kind? hkn)]; simp)
    match hl : g'.succ n with
    | [] =>
      obtain ⟨c, hc, _⟩ := hv'
      rw [hl] at hc
      cases hc
    | [c] => rfl
    | a :: b :: l =>
      rw [hl, List.pairwise_cons] at hp
      have : Disjoint (sc a ∩ {v}) (sc b ∩ {v}) := hp.1 b (by simp)
      rw [hall a (hsucc n a (by rw [hl]; simp)), hall b (hsucc n b (by rw [hl]; simp))] at this
      simp at this
  refine ⟨g', r', ?_, hL', ⟨?_, h4.sumNe, fun _ _ _ _ => rfl, ?_⟩, ?_, hone, hnorm, ?_⟩
  · rw [marginal_eq hL hs, if_pos hk, h1]; rfl
  · intro n d hkn
    rw [← h4.leaf n d hkn, hall n (mem_ids_of_kind? hkn)]
  · intro n hkn w
    obtain ⟨c, hc⟩ := List.length_eq_one_iff.1 (hone n hkn)
    simp [hc]
  · exact fun n k h => (kind?_of_induced (h3.kind n k h)).1
  · intro ℓ hℓ f f' hf hf'
    obtain ⟨h7, h8⟩ := h3.value ℓ f (restrict_value hL hs hn.norm hf (fun n d hk hd => hℓ n d hk (by simpa using hd)))
    rw [← h8]
    exact circuitValue_unique h2.wf h2.acyclic hf' h7 r' (root_mem h3.root).1

theorem OneVariableMarginal.decomposable {g' : Circuit} {r' : Node} (h : OneVariableMarginal g g' r r' v) :
    Decomposable g' fun _ => {v} := by
  intro n hk
  obtain ⟨c, hc⟩ := List.length_eq_one_iff.1 (h.oneFactor n hk)
  simp [hc]

theorem OneVariableMarginal.var {g' : Circuit} {r' : Node} (h : OneVariableMarginal g g' r r' v) {n : Node} {d : Leaf}
    (hk : g'.kind? n = some (.leaf d)) : d.var = v := by
  have := h.scope.leaf n d hk
  simpa using this.symm

theorem OneVariableMarginal.vars {g' : Circuit} {r' : Node} (h : OneVariableMarginal g g' r r' v) : g'.circuitVars = .ok {v} :=
  circuitVars_eq h.layered.wf h.layered.graded.acyclic h.scope h.layered.root

end PM.Graph

namespace PM.Learn.Jpt
open Spec Graph Classical

theorem column_neat {cap : ℝ} {rows : List Row} (hne : rows ≠ []) {ci : Column × ℕ} (hci : ColumnFits rows ci) {g : Circuit} {r : Node}
    (h : columnCircuit cap rows ci.1 ci.2 = .ok (g, r)) : Neat g := by
  obtain ⟨c, i⟩ := ci
  cases c with
  | other v => exact hci.elim
  | integer v =>
    simp only [columnCircuit, Except.ok.injEq, Prod.mk.injEq] at h
    obtain ⟨rfl, rfl⟩ := h
    exact neat_leaf _ _
  | symbolic v domain =>
    obtain ⟨h1, h2, h3⟩ := hci
    obtain ⟨probs, e1, e2, e3, e4, e5, e6⟩ := Props.C32_fit_symbolic (data := rows.map fun x => x.int i) (by simpa using hne) h1 h2 (by
      intro w hw
      obtain ⟨x, hx, rfl⟩ := List.mem_map.1 hw
      exact h3 x hx)
    simp only [columnCircuit, e1, bind, Except.bind, Except.ok.injEq, Prod.mk.injEq] at h
    obtain ⟨rfl, rfl⟩ := h
    exact neat_leaf _ _
  | continuous P =>
    set col := rows.map fun x => x.real i with hcol
    have hne' : col ≠ [] := by simpa [hcol] using hne
    by_cases h2 : ∃ x ∈ col, ∃ y ∈ col, x ≠ y
    · have hI : Props.FitInput P col none := ⟨hci.1, hci.2, h2, by simp⟩
      obtain ⟨E, hfit, hE, _⟩ := hI.result cap
      obtain ⟨hw1, hw2, -⟩ := Props.C40_weights_partial hI hfit hE.layered.root
      simp only [columnCircuit, bind, Except.bind] at h
      rw [← hcol, hfit] at h
      simp only [hE.layered.root, Except.ok.injEq, Prod.mk.injEq] at h
      obtain ⟨rfl, rfl⟩ := h
      rw [hE.out] at hw1 hw2
      refine hE.neat ?_ ?_
      · intro x hx
        have := hw1 _ (List.mem_map_of_mem hx)
        cases hx2 : x.2.2 with
        | fin a => exact ⟨a, rfl⟩
        | negInf => simp [linWeight, hx2] at this
      · rw [List.map_map] at hw2
        exact hw2
    · push Not at h2
      obtain ⟨a, ha⟩ := List.exists_mem_of_ne_nil _ hne'
      have hall : ∀ y ∈ col, y = a := fun y hy => h2 y hy a ha
      have hfit : Nyga.fit P cap col none = .ok (newUnit 0 (.leaf (.dirac P.var a cap))) := Props.fit_single hne' hall cap none
      simp only [columnCircuit, bind, Except.bind] at h
      rw [← hcol, hfit] at h
      simp only [(layered_newUnit 0 (Kind.leaf (Leaf.dirac P.var a cap))).root, Except.ok.injEq, Prod.mk.injEq] at h
      obtain ⟨rfl, rfl⟩ := h
      exact neat_leaf _ _

variable {S : Settings} {I : Impurity} {data : List Row} {st : State} {E : List Emitted}

theorem emitted_neat (h : TreeInput S data) (hE : Inv S I data st [] E) {e : Emitted} (he : e ∈ E) : Neat e.circuit := by
  obtain ⟨hne, _, hfits⟩ := emitted_rows h hE he
  have hR := (hE.leaf e he).2
  have hp : ∀ ci, ∃ g r, ci ∈ S.columns.zipIdx → ColumnResult S.cap (rowsOf data e.idx) ci g r (e.Fs ci) := by
    intro ci
    by_cases hci : ci ∈ S.columns.zipIdx
    · obtain ⟨g, r, hr⟩ := hR.parts ci hci
      exact ⟨g, r, fun _ => hr⟩
    · exact ⟨newUnit 0 .sum, 0, fun h => absurd h hci⟩
  choose G o hG using hp
  have heq := hR.eq
  have hm : S.columns.zipIdx.mapM (fun ci => columnCircuit S.cap (rowsOf data e.idx) ci.1 ci.2)
      = .ok (S.columns.zipIdx.map fun ci => (G ci, o ci)) := mapM_ok_map fun ci hci => (hG ci hci).eq
  simp only [createLeafNode, bind, Except.bind] at heq
  rw [hm] at heq
  simp only [List.map_map, Except.ok.injEq] at heq
  rw [← heq]
  exact neat_attach_prod (G := G) (o := o) (is := S.columns.zipIdx) (fun ci hci => (hG ci hci).denotes.layered)
    fun ci hci => column_neat hne (hfits ci hci) (hG ci hci).eq

theorem tree_neat (h : TreeInput S data) (hE : Inv S I data st [] E) : Neat st.circuit := by
  rw [hE.circuit]
  obtain ⟨offs, h1, hA, hu, hp⟩ := attachAll_assembled (w := fun e : Emitted => some (LogP.log (((e.stop - e.start : ℕ) : ℝ) / data.length)))
    (G := fun e : Emitted => e.circuit) (o := fun _ => 0) (u := 0) (k := .sum) (is := E)
    (by simp) (fun _ _ _ => rfl) (fun e he => (hE.leaf e he).2.denotes.layered)
  have hlen : (0 : ℝ) < data.length := by exact_mod_cast List.length_pos_iff.2 h.nonempty
  refine neat_assembled hA hu hp (fun p hp => Layered.copyAt (hE.leaf p.1 (List.of_mem_zip hp).1).2.denotes.layered p.2)
    (fun p hp => (emitted_neat h hE (List.of_mem_zip hp).1).copyAt (hE.leaf p.1 (List.of_mem_zip hp).1).2.denotes.layered.wf p.2)
    (fun _ => ⟨?_, ?_⟩)
  · intro p hp
    obtain ⟨hne, _⟩ := emitted_rows h hE (List.of_mem_zip hp).1
    have hpos : (0 : ℝ) < ((p.1.stop - p.1.start : ℕ) : ℝ) / data.length := by
      refine div_pos ?_ hlen
      have := Props.emitted_bounds hE (List.of_mem_zip hp).1
      exact_mod_cast (by omega : 0 < p.1.stop - p.1.start)
    exact ⟨Real.log (((p.1.stop - p.1.start : ℕ) : ℝ) / data.length), by rw [LogP.log, if_neg (not_le.2 hpos)]⟩
  · have h2 : ((E.zip offs).map fun i => linWeight ⟨0, i.2 + 0, some (LogP.log (((i.1.stop - i.1.start : ℕ) : ℝ) / data.length))⟩)
        = ((E.zip offs).map Prod.fst).map fun e => (e.idx.length : ℝ) * (data.length : ℝ)⁻¹ := by
      rw [List.map_map]
      refine List.map_congr_left fun p hp => ?_
      simp only [linWeight, Function.comp]
      rw [Props.weight_eq hE (List.of_mem_zip hp).1, div_eq_mul_inv]
    rw [h2, List.map_fst_zip h1.ge, List.sum_map_mul_right, ← div_eq_mul_inv, div_eq_one_iff_eq hlen.ne']
    have h3 := (Props.partition_of hE).length_eq
    rw [Props.leafSamples_eq hE, List.length_flatten, List.length_range, List.map_map] at h3
    rw [← h3, Nat.cast_list_sum, List.map_map]
    rfl

/-- A property of the leaves of all columns is one of the leaves of the tree. -/
theorem tree_leaves_of (h : TreeInput S data) (hE : Inv S I data st [] E) {P : Leaf → Prop}
    (hP : ∀ e ∈ E, ∀ ci ∈ S.columns.zipIdx, ∀ g r, columnCircuit S.cap (rowsOf data e.idx) ci.1 ci.2 = .ok (g, r) →
      ∀ n d, g.kind? n = some (.leaf d) → P d) : ∀ n d, st.circuit.kind? n = some (.leaf d) → P d := by
  rw [hE.circuit]
  refine leaves_attach (by simp) (fun _ _ _ => rfl) (fun e he => (hE.leaf e he).2.denotes.layered) fun e he => ?_
  obtain ⟨hne, _, hfits⟩ := emitted_rows h hE he
  have hR := (hE.leaf e he).2
  have hp : ∀ ci, ∃ g r, ci ∈ S.columns.zipIdx → ColumnResult S.cap (rowsOf data e.idx) ci g r (e.Fs ci) := by
    intro ci
    by_cases hci : ci ∈ S.columns.zipIdx
    · obtain ⟨g, r, hr⟩ := hR.parts ci hci
      exact ⟨g, r, fun _ => hr⟩
    · exact ⟨newUnit 0 .sum, 0, fun h => absurd h hci⟩
  choose G o hG using hp
  have heq := hR.eq
  have hm : S.columns.zipIdx.mapM (fun ci => columnCircuit S.cap (rowsOf data e.idx) ci.1 ci.2)
      = .ok (S.columns.zipIdx.map fun ci => (G ci, o ci)) := mapM_ok_map fun ci hci => (hG ci hci).eq
  simp only [createLeafNode, bind, Except.bind] at heq
  rw [hm] at heq
  simp only [List.map_map, Except.ok.injEq] at heq
  rw [← heq]
  exact leaves_attach (G := G) (o := o) (w := fun _ => none) (is := S.columns.zipIdx) (by simp) (fun h => by cases h)
    (fun ci hci => (hG ci hci).denotes.layered) fun ci hci => hP e he ci hci _ _ (hG ci hci).eq

/-- The value of the tree for numbers that are one at the leaves of the other columns. -/
theorem tree_value (h : TreeInput S data) (hE : Inv S I data st [] E) {ci : Column × ℕ} (hci : ci ∈ S.columns.zipIdx) {ℓ : Leaf → ℝ}
    (hℓ : ∀ d : Leaf, d.var ≠ columnVar ci.1 → ℓ d = 1) {f : Node → ℝ} (hf : CircuitValue st.circuit ℓ f) :
    f 0 = (E.map fun e => (e.idx.length : ℝ) / data.length * e.Fs ci ℓ).sum := by
  obtain ⟨hD, _, _⟩ := denotes_tree (Props.emitted_ne_nil hE) (fun e he => ⟨_, (hE.leaf e he).2⟩) data.length
  rw [← hE.circuit] at hD
  have hinj := column_inj h hci
  rw [hD.value _ f hf]
  congr 1
  refine List.map_congr_left fun e he => ?_
  rw [Props.weight_eq hE he]
  congr 1
  obtain ⟨hne, hsub, hfits⟩ := emitted_rows h hE he
  have hsplit : ∀ l : List (Column × ℕ), l.Nodup → (∀ cj ∈ l, cj ∈ S.columns.zipIdx) →
      (l.map fun cj => e.Fs cj ℓ).prod = if ci ∈ l then e.Fs ci ℓ else 1 := by
    intro l
    induction l with
    | nil => intro _ _; simp
    | cons cj l ih =>
      intro hnd hl
      rw [List.nodup_cons] at hnd
      rw [List.map_cons, List.prod_cons, ih hnd.2 fun c hc => hl c (List.mem_cons_of_mem _ hc)]
      have hcj := hl cj (List.mem_cons_self ..)
      obtain ⟨g, r, hr⟩ := (hE.leaf e he).2.parts cj hcj
      have hleaf := column_leaves hne (hfits cj hcj) hr.eq
      by_cases hc : cj = ci
      · subst hc
        rw [if_neg hnd.1, if_pos (List.mem_cons_self ..), mul_one]
      · have h1 : e.Fs cj ℓ = 1 := by
          rw [← hr.unit]
          refine Denotes_congr_leaves hr.denotes fun n d hk => ?_
          rw [hℓ]
          rw [(hleaf n d hk).1.var]
          exact fun hv => hc (hinj cj hcj hv)
        rw [h1, one_mul]
        congr 1
        simp only [List.mem_cons, eq_iff_iff]
        exact ⟨fun h => .inr h, fun h => h.resolve_left fun h => hc h.symm⟩
  rw [hsplit _ ?_ fun _ h => h, if_pos hci]
  exact List.Nodup.of_map (fun c : Column × ℕ => columnVar c.1) (by
    have : S.columns.zipIdx.map (fun c => columnVar c.1) = S.columns.map columnVar := by
      conv_rhs => rw [← List.zipIdx_map_fst 0 S.columns, List.map_map]
      rfl
    rw [this]
    exact h.distinct)

end PM.Learn.Jpt
