import Verif.Spec.JptCondition
import Verif.Spec.Pruned
import Verif.Learn.JptUniLemmas
import Verif.Circuit.CondKind

/-! # Lemmas: conditioning a learned tree on its discrete columns -/

namespace PM
open Spec Graph

/-- The children of the sum units are leaves with the property `Q`. -/
def FlatSums (Q : Leaf → Prop) (g : Circuit) : Prop :=
  ∀ n, g.kind? n = some .sum → ∀ e ∈ g.outEdges n, ∃ d, g.kind? e.dst = some (.leaf d) ∧ Q d

theorem FlatSums.copyAt {Q : Leaf → Prop} {g : Circuit} (hw : g.WF) (h : FlatSums Q g) (off : ℕ) : FlatSums Q (g.copyAt off) := by
  intro k hk e he
  obtain ⟨n, rfl, hn⟩ := exists_of_kind?_copyAt hk
  obtain ⟨e', he', rfl⟩ := List.mem_map.1 ((outEdges_copyAt_perm hw off n).mem_iff.1 he)
  obtain ⟨d, hd, hq⟩ := h n hn e' he'
  exact ⟨d, by rw [shiftEdge]; simp only [kind?_copyAt]; exact hd, hq⟩

theorem flatSums_leaf {Q : Leaf → Prop} (n : Node) (d : Leaf) : FlatSums Q (newUnit n (.leaf d)) := by
  intro m hk
  have hm := mem_ids_of_kind? hk
  simp only [ids_newUnit, List.mem_singleton] at hm
  subst hm
  rw [kind?_newUnit] at hk
  cases hk

/-- The children of the sum units that are not the new unit. -/
theorem flatSums_attach {ι : Type} {G : ι → Circuit} {o : ι → Node} {w : ι → Option LogP} {u : Node} {Q : Leaf → Prop} {k : Kind Leaf}
    {is : List ι} (hk : ∀ d, k ≠ .leaf d) (hw : k = .sum → ∀ i ∈ is, (w i).isSome) (hd : ∀ i ∈ is, Layered (G i) (o i))
    (hf : ∀ i ∈ is, FlatSums Q (G i)) :
    ∀ n, n ≠ u → ((newUnit u k).attachAll u (partsOf G o w is)).kind? n = some .sum →
      ∀ e ∈ ((newUnit u k).attachAll u (partsOf G o w is)).outEdges n,
        ∃ d, ((newUnit u k).attachAll u (partsOf G o w is)).kind? e.dst = some (.leaf d) ∧ Q d := by
  obtain ⟨offs, h1, hA, hu, hp⟩ := attachAll_assembled (w := w) (u := u) (k := k) hk hw hd
  intro n hn hs e he
  rcases (mem_ids_assembled hA).1 (mem_ids_of_kind? hs) with rfl | ⟨i, hi, h⟩
  · exact absurd rfl hn
  · have hi' := (List.of_mem_zip hi).1
    rw [out_assembled_part hA hi h] at he
    rw [kind_assembled_part hA hi h] at hs
    have hw' : ((G i.1).copyAt i.2).WF := (Layered.copyAt (hd i.1 hi') i.2).wf
    have hdst := hw'.dstMem e (List.mem_filter.1 he).1
    rw [kind_assembled_part hA hi hdst]
    exact (hf i.1 hi').copyAt (hd i.1 hi').wf i.2 n hs e he

theorem flatSums_leafMix {u : Node} {E : List (Node × Leaf × LogP)} (h : FreshIds u E) {Q : Leaf → Prop} (hQ : ∀ x ∈ E, Q x.2.1) :
    FlatSums Q (leafMix u E) := by
  intro n hk e he
  rcases h.ids.1 (mem_ids_of_kind? hk) with rfl | hn
  · rw [h.out] at he
    obtain ⟨x, hx, rfl⟩ := List.mem_map.1 he
    exact ⟨x.2.1, h.kindLeaf hx, hQ x hx⟩
  · obtain ⟨x, hx, rfl⟩ := List.mem_map.1 hn
    rw [h.kindLeaf hx] at hk
    cases hk

/-- Pruning a normalized circuit whose inner sum units are mixtures of leaves that are inside the event changes nothing but the root. -/
theorem pruned_flat {g : Circuit} {r : Node} (hL : Layered g r) (hn : NormalizedSums g) {Q : Leaf → Prop}
    (hflat : ∀ n, n ≠ r → g.kind? n = some .sum → ∀ e ∈ g.outEdges n, ∃ d, g.kind? e.dst = some (.leaf d) ∧ Q d) {B ℓ : Leaf → ℝ}
    (hB : ∀ d, Q d → B d = 1) {P T C f : Node → ℝ} (hP : CircuitValue g B P) (hT : RemainingWeight g P T) (hC : PrunedValue g P T ℓ C)
    (hf : CircuitValue g ℓ f) : ∀ n, n ∈ g.ids → n ≠ r → T n = 1 ∧ C n = f n := by
  refine hL.graded.acyclic.induct ?_
  intro n ih hn' hr
  have hdst : ∀ e ∈ g.outEdges n, T e.dst = 1 ∧ C e.dst = f e.dst := by
    intro e he
    refine ih e.dst (List.mem_map.2 ⟨e, he, rfl⟩) (hL.wf.dstMem e (List.mem_filter.1 he).1) ?_
    intro h
    have : e ∈ g.inEdges r := List.mem_filter.2 ⟨(List.mem_filter.1 he).1, by simp [h]⟩
    rw [(root_mem hL.root).2] at this
    cases this
  obtain ⟨K, hk⟩ := exists_kind? hn'
  cases K with
  | leaf d => exact ⟨hT.leaf n d hk, by rw [hC.leaf n d hk, hf.leaf n d hk]⟩
  | prod =>
    constructor
    · by_cases h1 : (possibleEdges g P n).length = 1
      · obtain ⟨e, he⟩ := List.length_eq_one_iff.1 h1
        rw [hT.single n e he]
        have : e ∈ possibleEdges g P n := by rw [he]; simp
        exact (hdst e (List.mem_filter.1 this).1).1
      · exact hT.prod n hk h1
    · rw [hC.prod n hk, hf.prod n hk]
      congr 1
      exact List.map_congr_left fun e he => (hdst e he).2
  | sum =>
    have hall : possibleEdges g P n = g.outEdges n := by
      refine List.filter_eq_self.2 fun e he => ?_
      obtain ⟨d, hd, hq⟩ := hflat n hr hk e he
      rw [hP.leaf _ d hd, hB d hq]
      simp
    have hw : ((g.outEdges n).map fun e => linWeight e * T e.dst) = (g.outEdges n).map linWeight :=
      List.map_congr_left fun e he => by rw [(hdst e he).1, mul_one]
    constructor
    · by_cases h1 : (possibleEdges g P n).length = 1
      · obtain ⟨e, he⟩ := List.length_eq_one_iff.1 h1
        rw [hT.single n e he]
        have : e ∈ possibleEdges g P n := by rw [he]; simp
        exact (hdst e (List.mem_filter.1 this).1).1
      · rw [hT.sum n hk h1, hall, hw]
        exact hn n hk
    · rw [hC.sum n hk, hall, hw, hn n hk, div_one, hf.sum n hk]
      congr 1
      exact List.map_congr_left fun e he => by rw [(hdst e he).1, (hdst e he).2, mul_one]

end PM

namespace PM.Learn.Jpt
open Spec Graph Classical MeasureTheory

theorem allowed_append (E F : SimpleEvent) (v : Var) : allowed (E ++ F) v = allowed E v ∩ allowed F v := by
  ext t
  simp only [allowed, List.mem_append, Set.mem_ofPred_eq, Set.mem_inter_iff]
  exact ⟨fun h => ⟨fun p hp => h p (.inl hp), fun p hp => h p (.inr hp)⟩,
    fun h p hp => hp.elim (fun hp => h.1 p hp) fun hp => h.2 p hp⟩

/-- The sum units in the circuit of a column are mixtures of leaves of a continuous column. -/
theorem column_flat {cap : ℝ} {rows : List Row} (hne : rows ≠ []) {ci : Column × ℕ} (hci : ColumnFits rows ci) {g : Circuit} {r : Node}
    (h : columnCircuit cap rows ci.1 ci.2 = .ok (g, r)) : FlatSums (fun d => ¬ IsDiscrete ci.1 ∧ ColumnLeaf ci.1 d) g := by
  have hleaf := column_leaves hne hci h
  obtain ⟨c, i⟩ := ci
  cases c with
  | other v => exact hci.elim
  | integer v =>
    simp only [columnCircuit, Except.ok.injEq, Prod.mk.injEq] at h
    obtain ⟨rfl, rfl⟩ := h
    exact flatSums_leaf _ _
  | symbolic v domain =>
    obtain ⟨h1, h2, h3⟩ := hci
    obtain ⟨probs, e1, e2, e3, e4, e5, e6⟩ := Props.C32_fit_symbolic (data := rows.map fun x => x.int i) (by simpa using hne) h1 h2 (by
      intro w hw
      obtain ⟨x, hx, rfl⟩ := List.mem_map.1 hw
      exact h3 x hx)
    simp only [columnCircuit, e1, bind, Except.bind, Except.ok.injEq, Prod.mk.injEq] at h
    obtain ⟨rfl, rfl⟩ := h
    exact flatSums_leaf _ _
  | continuous P =>
    set col := rows.map fun x => x.real i with hcol
    have hne' : col ≠ [] := by simpa [hcol] using hne
    by_cases h2 : ∃ x ∈ col, ∃ y ∈ col, x ≠ y
    · have hI : Props.FitInput P col none := ⟨hci.1, hci.2, h2, by simp⟩
      obtain ⟨E, hfit, hE, _⟩ := hI.result cap
      simp only [columnCircuit, bind, Except.bind] at h
      rw [← hcol, hfit] at h
      simp only [hE.layered.root, Except.ok.injEq, Prod.mk.injEq] at h
      obtain ⟨rfl, rfl⟩ := h
      exact flatSums_leafMix hE fun x hx => ⟨id, (hleaf _ _ (hE.kindLeaf hx)).1⟩
    · push Not at h2
      obtain ⟨a, ha⟩ := List.exists_mem_of_ne_nil _ hne'
      have hall : ∀ y ∈ col, y = a := fun y hy => h2 y hy a ha
      have hfit : Nyga.fit P cap col none = .ok (newUnit 0 (.leaf (.dirac P.var a cap))) := Props.fit_single hne' hall cap none
      simp only [columnCircuit, bind, Except.bind] at h
      rw [← hcol, hfit] at h
      simp only [(layered_newUnit 0 (Kind.leaf (Leaf.dirac P.var a cap))).root, Except.ok.injEq, Prod.mk.injEq] at h
      obtain ⟨rfl, rfl⟩ := h
      exact flatSums_leaf _ _

/-- The circuit of a discrete column is a single leaf. -/
theorem column_single {cap : ℝ} {rows : List Row} (hne : rows ≠ []) {ci : Column × ℕ} (hci : ColumnFits rows ci) (hdis : IsDiscrete ci.1)
    {g : Circuit} {r : Node} {F : (Leaf → ℝ) → ℝ} (h : ColumnResult cap rows ci g r F) : ∃ d, d.var = columnVar ci.1 ∧ ∀ ℓ, F ℓ = ℓ d := by
  have hex : ∃ d, g = newUnit 0 (.leaf d) := by
    have heq := h.eq
    obtain ⟨c, i⟩ := ci
    cases c with
    | other v => exact hci.elim
    | continuous P => exact hdis.elim
    | integer v =>
      simp only [columnCircuit, Except.ok.injEq, Prod.mk.injEq] at heq
      exact ⟨_, heq.1.symm⟩
    | symbolic v domain =>
      obtain ⟨h1, h2, h3⟩ := hci
      obtain ⟨probs, e1, -⟩ := Props.C32_fit_symbolic (data := rows.map fun x => x.int i) (by simpa using hne) h1 h2 (by
        intro w hw
        obtain ⟨x, hx, rfl⟩ := List.mem_map.1 hw
        exact h3 x hx)
      simp only [columnCircuit, e1, bind, Except.bind, Except.ok.injEq, Prod.mk.injEq] at heq
      exact ⟨_, heq.1.symm⟩
  obtain ⟨d, rfl⟩ := hex
  have hr : r = 0 := by
    have := h.denotes.layered.root
    rw [(layered_newUnit 0 (Kind.leaf d)).root] at this
    exact (Except.ok.inj this).symm
  subst hr
  refine ⟨d, (column_leaves hne hci h.eq 0 d (kind?_newUnit ..)).1.var, fun ℓ => ?_⟩
  obtain ⟨f, hf⟩ := exists_circuitValue h.denotes.layered.graded.acyclic ℓ
  rw [← h.denotes.value _ f hf, hf.leaf 0 _ (kind?_newUnit ..)]

variable {S : Settings} {I : Impurity} {data : List Row} {st : State} {E : List Emitted}

theorem tree_flat (h : TreeInput S data) (hE : Inv S I data st [] E) : ∀ n, n ≠ 0 → st.circuit.kind? n = some .sum →
    ∀ e ∈ st.circuit.outEdges n, ∃ d, st.circuit.kind? e.dst = some (.leaf d) ∧
      ∃ ci ∈ S.columns.zipIdx, ¬ IsDiscrete ci.1 ∧ ColumnLeaf ci.1 d := by
  rw [hE.circuit]
  refine flatSums_attach (Q := fun d => ∃ ci ∈ S.columns.zipIdx, ¬ IsDiscrete ci.1 ∧ ColumnLeaf ci.1 d) (by simp) (fun _ _ _ => rfl)
    (fun e he => (hE.leaf e he).2.denotes.layered) fun e he => ?_
  obtain ⟨hne, _, hfits⟩ := emitted_rows h hE he
  have hR := (hE.leaf e he).2
  have hp : ∀ ci, ∃ g r, ci ∈ S.columns.zipIdx → ColumnResult S.cap (rowsOf data e.idx) ci g r (e.Fs ci) := by
    intro ci
    by_cases hci : ci ∈ S.columns.zipIdx
    · obtain ⟨g, r, hr⟩ := hR.parts ci hci
      exact ⟨g, r, fun _ => hr⟩
    · exact ⟨newUnit 0 .sum, 0, fun h => absurd h hci⟩
  choose G o hG using hp
  have heq := hR.eq
  have hm : S.columns.zipIdx.mapM (fun ci => columnCircuit S.cap (rowsOf data e.idx) ci.1 ci.2)
      = .ok (S.columns.zipIdx.map fun ci => (G ci, o ci)) := mapM_ok_map fun ci hci => (hG ci hci).eq
  simp only [createLeafNode, bind, Except.bind] at heq
  rw [hm] at heq
  simp only [List.map_map, Except.ok.injEq] at heq
  intro n hk
  by_cases hn : n = 0
  · subst hn
    have hroot : e.circuit.kind? 0 = some .prod := by
      rw [← heq]
      obtain ⟨offs, h1, hA, hu, hp⟩ := attachAll_assembled (G := G) (o := o) (w := fun _ => none) (u := 0) (k := .prod)
        (is := S.columns.zipIdx) (by simp) (fun h => by cases h) (fun ci hci => (hG ci hci).denotes.layered)
      exact kind_assembled hA
    rw [hroot] at hk
    cases hk
  · rw [← heq] at hk ⊢
    exact flatSums_attach (G := G) (o := o) (w := fun _ => none) (is := S.columns.zipIdx) (by simp) (fun h => by cases h)
      (fun ci hci => (hG ci hci).denotes.layered) (fun ci hci => by
        intro n hk e he
        obtain ⟨d, h1, h2⟩ := column_flat hne (hfits ci hci) (hG ci hci).eq n hk e he
        exact ⟨d, h1, ci, hci, h2⟩) n hn hk

theorem admitted_set (A : SimpleEvent) (ci : Column × ℕ) (rows : List Row) :
    admitted A ci rows = rows.countP fun x => ∃ p : Var → ℝ, Agrees p x ci ∧ p (columnVar ci.1) ∈ allowed A (columnVar ci.1) := rfl

/-- The share of the rows of a leaf that are admitted in a column is the probability of the set in the distribution of the column. -/
theorem emitted_share (h : TreeInput S data) (hE : Inv S I data st [] E) (hh : ∀ x ∈ data, ∀ ci ∈ S.columns.zipIdx, HashesToItself x ci)
    {e : Emitted} (he : e ∈ E) {ci : Column × ℕ} (hci : ci ∈ S.columns.zipIdx) {A : SimpleEvent}
    (hA : ¬ IsDiscrete ci.1 → columnVar ci.1 ∉ A.keys) :
    (e.Fs ci fun d => (leafLaw d).real (allowed A d.var)) = (admitted A ci (rowsOf data e.idx) : ℝ) / (rowsOf data e.idx).length := by
  obtain ⟨hne, hsub, hfits⟩ := emitted_rows h hE he
  obtain ⟨g, r, hr⟩ := (hE.leaf e he).2.parts ci hci
  have hleaf := column_leaves hne (hfits ci hci) hr.eq
  by_cases hd : IsDiscrete ci.1
  · rw [admitted_set, ← column_frequency_set hne (hfits ci hci) hd (fun x hx => hh x (hsub x hx) ci hci) hr (measurableSet_allowed A _)]
    refine Denotes_congr_leaves hr.denotes fun n d hk => ?_
    rw [(hleaf n d hk).1.var]
  · have h1 : (e.Fs ci fun d => (leafLaw d).real (allowed A d.var)) = 1 := by
      rw [← hr.unit]
      refine Denotes_congr_leaves hr.denotes fun n d hk => ?_
      rw [(hleaf n d hk).1.var, allowed_of_not_mem (hA hd), measureReal_def,
        leafLaw_univ (hr.denotes.valid n d hk) ((hleaf n d hk).2 fun x hx => hh x (hsub x hx) ci hci)]
      rfl
    have h2 : admitted A ci (rowsOf data e.idx) = (rowsOf data e.idx).length := by
      rw [admitted, List.countP_eq_length]
      intro x hx
      have hf := hfits ci hci
      obtain ⟨c, i⟩ := ci
      refine decide_eq_true ?_
      cases c with
      | other v => exact hf.elim
      | symbolic v l => exact absurd trivial hd
      | integer v => exact absurd trivial hd
      | continuous P =>
        exact ⟨fun _ => x.real i, rfl, fun q hq hv => absurd (List.mem_map.2 ⟨q, hq, hv⟩) (hA hd)⟩
    rw [h1, h2, div_self]
    exact_mod_cast (List.length_pos_iff.2 hne).ne'

theorem emitted_share_given (h : TreeInput S data) (hE : Inv S I data st [] E)
    (hh : ∀ x ∈ data, ∀ ci ∈ S.columns.zipIdx, HashesToItself x ci)
    {e : Emitted} (he : e ∈ E) {ci : Column × ℕ} (hci : ci ∈ S.columns.zipIdx) {A B : SimpleEvent}
    (hA : ¬ IsDiscrete ci.1 → columnVar ci.1 ∉ A.keys) (hB : ¬ IsDiscrete ci.1 → columnVar ci.1 ∉ B.keys) :
    (e.Fs ci fun d => (leafLaw d).real (allowed A d.var ∩ allowed B d.var) / (leafLaw d).real (allowed A d.var))
      = (admitted (A ++ B) ci (rowsOf data e.idx) : ℝ) / admitted A ci (rowsOf data e.idx) := by
  have h1 := emitted_share h hE hh he hci hA
  have hAB : ¬ IsDiscrete ci.1 → columnVar ci.1 ∉ SimpleEvent.keys (A ++ B) := by
    intro hd hm
    simp only [SimpleEvent.keys, List.map_append, List.mem_append] at hm
    exact hm.elim (hA hd) (hB hd)
  have h2 := emitted_share h hE hh he hci hAB
  obtain ⟨hne, hsub, hfits⟩ := emitted_rows h hE he
  obtain ⟨g, r, hr⟩ := (hE.leaf e he).2.parts ci hci
  have hleaf := column_leaves hne (hfits ci hci) hr.eq
  have hlen : ((rowsOf data e.idx).length : ℝ) ≠ 0 := by exact_mod_cast (List.length_pos_iff.2 hne).ne'
  have hq : (admitted (A ++ B) ci (rowsOf data e.idx) : ℝ) / admitted A ci (rowsOf data e.idx)
      = ((admitted (A ++ B) ci (rowsOf data e.idx) : ℝ) / (rowsOf data e.idx).length) /
        ((admitted A ci (rowsOf data e.idx) : ℝ) / (rowsOf data e.idx).length) := by
    rw [div_div_div_cancel_right₀ hlen]
  rw [hq, ← h1, ← h2]
  by_cases hd : IsDiscrete ci.1
  · obtain ⟨d, hv, hF⟩ := column_single hne (hfits ci hci) hd hr
    simp only [hF, allowed_append]
  · have hone : ∀ C : SimpleEvent, columnVar ci.1 ∉ C.keys → ∀ n d, g.kind? n = some (.leaf d) → (leafLaw d).real (allowed C d.var) = 1 := by
      intro C hC n d hk
      rw [(hleaf n d hk).1.var, allowed_of_not_mem hC, measureReal_def,
        leafLaw_univ (hr.denotes.valid n d hk) ((hleaf n d hk).2 fun x hx => hh x (hsub x hx) ci hci)]
      rfl
    have e1 : ∀ C : SimpleEvent, columnVar ci.1 ∉ C.keys → (e.Fs ci fun d => (leafLaw d).real (allowed C d.var)) = 1 := by
      intro C hC
      rw [← hr.unit]
      exact Denotes_congr_leaves hr.denotes fun n d hk => hone C hC n d hk
    rw [e1 _ (hA hd), e1 _ (hAB hd), div_one, ← hr.unit]
    refine Denotes_congr_leaves hr.denotes fun n d hk => ?_
    rw [← allowed_append, hone _ (hA hd) n d hk, hone _ (hAB hd) n d hk, div_one]

end PM.Learn.Jpt
