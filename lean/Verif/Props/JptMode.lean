import Verif.Learn.JptMode
import Verif.Props.JptUni

/-!
# C111: the most likely points of a learned tree
-/

namespace PM.Props

open Classical Graph Spec Learn.Jpt

variable {S : Settings} {I : Impurity} {data : List Row}

theorem pyHash_inj {rows : List Row} {v : Var} {i : ℕ} (h : NoHashClash rows (.integer v, i)) {x y : Row} (hx : x ∈ rows) (hy : y ∈ rows)
    (he : pyHash (x.int i) = pyHash (y.int i)) : x.int i = y.int i := by
  have h1 : pyHash (-1) = -2 := by decide
  by_cases hx1 : x.int i = -1
  · by_cases hy1 : y.int i = -1
    · rw [hx1, hy1]
    · rw [hx1, h1, pyHash_eq hy1 (h.2 y hy)] at he
      exact absurd he.symm (h.1 ⟨x, hx, hx1⟩ y hy)
  · rw [pyHash_eq hx1 (h.2 x hx)] at he
    by_cases hy1 : y.int i = -1
    · rw [hy1, h1] at he
      exact absurd he (h.1 ⟨y, hy, hy1⟩ x hx)
    · rwa [pyHash_eq hy1 (h.2 y hy)] at he

/-- A point cannot be inside of two groups of rows that a column tells apart. -/
theorem not_inside_both {A B : List Row} (hA : ∀ x ∈ A, x ∈ data) (hB : ∀ x ∈ B, x ∈ data) {ci : Column × ℕ} (hf : ColumnFits data ci)
    (hh : NoHashClash data ci) (h : TellsApart ci A B) {t : ℝ} (h1 : Inside A ci t) (h2 : Inside B ci t) : False := by
  obtain ⟨c, i⟩ := ci
  cases c with
  | other v => exact h
  | continuous P =>
    obtain ⟨⟨a, ha, hat⟩, b, hb, hbt⟩ := h1
    obtain ⟨⟨c, hc, hct⟩, d, hd, hdt⟩ := h2
    rcases h with h | h
    · have := h b hb c hc
      simp only at hbt hct this
      linarith
    · have := h a ha d hd
      simp only at hat hdt this
      linarith
  | symbolic v domain =>
    obtain ⟨x, hx, e, he, hex, hte⟩ := h1
    obtain ⟨y, hy, e', he', hey, hte'⟩ := h2
    have hee : e.2 = e'.2 := by exact_mod_cast hte.symm.trans hte'
    have := List.inj_on_of_nodup_map hf.2.1 he he' hee
    refine h x hx y hy ?_
    rw [← hex, ← hey, this]
  | integer v =>
    obtain ⟨x, hx, hxt⟩ := h1
    obtain ⟨y, hy, hyt⟩ := h2
    refine h x hx y hy (pyHash_inj hh (hA x hx) (hB y hy) ?_)
    exact_mod_cast hxt.symm.trans hyt

theorem emitted_parts {st : State} {E : List Emitted} (hE : Inv S I data st [] E) {e : Emitted} (he : e ∈ E) :
    ∃ G : Column × ℕ → Circuit, ∃ o : Column × ℕ → Node,
      (∀ ci ∈ S.columns.zipIdx, ColumnResult S.cap (rowsOf data e.idx) ci (G ci) (o ci) (e.Fs ci)) ∧
      e.circuit = (newUnit 0 .prod).attachAll 0 (partsOf G o (fun _ => none) S.columns.zipIdx) := by
  have hR := (hE.leaf e he).2
  have hp : ∀ ci, ∃ g r, ci ∈ S.columns.zipIdx → ColumnResult S.cap (rowsOf data e.idx) ci g r (e.Fs ci) := by
    intro ci
    by_cases hci : ci ∈ S.columns.zipIdx
    · obtain ⟨g, r, hr⟩ := hR.parts ci hci
      exact ⟨g, r, fun _ => hr⟩
    · exact ⟨newUnit 0 .sum, 0, fun h => absurd h hci⟩
  choose G o hG using hp
  have heq := hR.eq
  have hm : S.columns.zipIdx.mapM (fun ci => columnCircuit S.cap (rowsOf data e.idx) ci.1 ci.2)
      = .ok (S.columns.zipIdx.map fun ci => (G ci, o ci)) := mapM_ok_map fun ci hci => (hG ci hci).eq
  simp only [createLeafNode, bind, Except.bind] at heq
  rw [hm] at heq
  simp only [List.map_map, Except.ok.injEq] at heq
  exact ⟨G, o, hG, heq.symm⟩

/-- What the tree is made of: everything but the exclusiveness of the root. -/
theorem tree_facts (h : TreeInput S data) (hc : S.columns ≠ []) {st : State} {E : List Emitted} (hE : Inv S I data st [] E) :
    ProductsNonempty st.circuit ∧ (∀ n d, st.circuit.kind? n = some (.leaf d) → AttainsMax d) ∧ ∀ e ∈ E, Exclusive e.circuit := by
  have hz : S.columns.zipIdx ≠ [] := by simpa using hc
  have hleaf : ∀ e ∈ E, ProductsNonempty e.circuit ∧ (∀ n d, e.circuit.kind? n = some (.leaf d) → AttainsMax d) ∧ Exclusive e.circuit := by
    intro e he
    obtain ⟨hne, _, hfits⟩ := emitted_rows h hE he
    obtain ⟨G, o, hG, heq⟩ := emitted_parts hE he
    have hf := fun ci hci => column_facts h.cap hne (hfits ci hci) (hG ci hci).eq
    rw [heq]
    refine ⟨productsNonempty_attach (by simp) (fun h => by cases h) (fun ci hci => (hG ci hci).denotes.layered) ?_ hz,
      leaves_attach (by simp) (fun h => by cases h) (fun ci hci => (hG ci hci).denotes.layered) fun ci hci => (hf ci hci).attains,
      exclusive_attach (by simp) (fun h => by cases h) (fun ci hci => (hG ci hci).denotes.layered) (fun ci hci => (hf ci hci).exclusive)
        (fun h => by cases h)⟩
    exact fun ci hci n hk => absurd hk ((hf ci hci).noProd n)
  rw [hE.circuit]
  exact ⟨productsNonempty_attach (by simp) (fun _ _ _ => rfl) (fun e he => (hE.leaf e he).2.denotes.layered)
      (fun e he => (hleaf e he).1) (emitted_ne_nil hE),
    leaves_attach (by simp) (fun _ _ _ => rfl) (fun e he => (hE.leaf e he).2.denotes.layered) fun e he => (hleaf e he).2.1,
    fun e he => (hleaf e he).2.2⟩

/-- Which variables of the tree are symbolic. -/
noncomputable def symbolicIn (columns : List Column) (v : Var) : Bool := decide (∃ domain, Column.symbolic v domain ∈ columns)

theorem tree_typed (h : TreeInput S data) {st : State} {E : List Emitted} (hE : Inv S I data st [] E) :
    Typed st.circuit (symbolicIn S.columns) := by
  intro n d hk
  obtain ⟨ci, hci, hl⟩ := tree_leaves h hE n d hk
  simp only [symbolicIn, decide_eq_true_eq]
  have hv := hl.var
  constructor
  · rintro ⟨domain, hm⟩
    obtain ⟨j, hj, hjm⟩ := List.mem_iff_getElem.1 hm
    have hcj : (Column.symbolic d.var domain, j) ∈ S.columns.zipIdx := by
      rw [List.mem_zipIdx_iff_getElem?]
      rw [List.getElem?_eq_getElem hj, hjm]
    have := column_inj h hci _ hcj (by rw [← hv]; rfl)
    rw [← this] at hl
    obtain ⟨probs, hd, _⟩ := hl
    exact ⟨_, _, hd⟩
  · rintro ⟨v, probs, rfl⟩
    obtain ⟨c, i⟩ := ci
    cases c with
    | continuous P => rcases hl with ⟨_, _, _, _, h⟩ | ⟨_, _, h⟩ <;> cases h
    | symbolic w domain =>
      have hw : w = v := hv.symm
      subst hw
      refine ⟨domain, ?_⟩
      have := List.mem_zipIdx_iff_getElem?.1 hci
      exact List.mem_of_getElem? this
    | integer w => obtain ⟨_, h⟩ := hl; cases h
    | other w => exact hl.elim

/-- The children of the root, leaf by leaf. -/
theorem root_values {st : State} {E : List Emitted} (hE : Inv S I data st [] E) {x : Var → ℝ} {f : Node → ℝ}
    (hf : CircuitValue st.circuit (fun d => leafDensity d (x d.var)) f) :
    List.Forall₂ (fun (e : Emitted) n => f n = (S.columns.zipIdx.map fun ci => e.Fs ci fun d => leafDensity d (x d.var)).prod)
      E (st.circuit.succ 0) := by
  obtain ⟨_, hpart, _⟩ := denotes_tree (emitted_ne_nil hE) (fun e he => ⟨_, (hE.leaf e he).2⟩) data.length
  rw [← hE.circuit] at hpart
  rw [Graph.succ, List.forall₂_map_right_iff]
  exact hpart.imp fun e e' hp => hp.value _ f hf

theorem column_nonneg {st : State} {E : List Emitted} (hE : Inv S I data st [] E) {e : Emitted} (he : e ∈ E) {ci : Column × ℕ}
    (hci : ci ∈ S.columns.zipIdx) (x : Var → ℝ) : 0 ≤ e.Fs ci fun d => leafDensity d (x d.var) := by
  obtain ⟨g, r, hr⟩ := (hE.leaf e he).2.parts ci hci
  exact density_nonneg hr.denotes x

theorem pairwise_forall₂ {α β : Type} {R : α → β → Prop} {P : α → α → Prop} {Q : β → β → Prop}
    (hPQ : ∀ a b a' b', R a b → R a' b' → P a a' → Q b b') {l : List α} {l' : List β} (h : List.Forall₂ R l l') (hp : l.Pairwise P) :
    l'.Pairwise Q := by
  induction h with
  | nil => exact List.Pairwise.nil
  | @cons a b l l' h1 h2 ih =>
    rw [List.pairwise_cons] at hp ⊢
    refine ⟨fun b' hb' => ?_, ih hp.2⟩
    obtain ⟨a', ha', hR⟩ : ∃ a' ∈ l, R a' b' := by
      clear ih hp
      induction h2 with
      | nil => simp at hb'
      | @cons c d l l' h3 _ ih =>
        rcases List.mem_cons.1 hb' with rfl | hb'
        · exact ⟨c, by simp, h3⟩
        · obtain ⟨a', ha', h⟩ := ih hb'
          exact ⟨a', by simp [ha'], h⟩
    exact hPQ _ _ _ _ h1 hR (hp.1 a' ha')

/-- C111, full: if every split of the impurity tells its sides apart by a column, the tree that is learned answers `mode` with the
largest likelihood and exactly the points that have it. -/
def C111_full : Prop :=
  ∀ (S : Settings) (I : Impurity) (data : List Row), TreeInput S data → S.columns ≠ [] →
    SplitContract I S.minImprovement (requiredSamples S.minSamplesLeaf data.length) →
    SeparatingSplits I S.minImprovement S.columns data → ∀ q st, fit S I data [] = (q, .ok st) →
    ∀ (next : ℝ → Bool → ℝ) (m : Mem Event) (m' : Mem (Event × LogP)), ∃ A p, st.circuit.mode next m m' = .ok (A, p) ∧
      0 < p ∧ (∃ x, A.Mem x) ∧ ∀ x m, ∃ l, st.circuit.likelihood m x = .ok l ∧ l ≤ p ∧ (A.Mem x ↔ l = p)

/-- C111, determinism: the tree is deterministic, unless an integer column has entries with the same hash. -/
theorem C111_deterministic_partial (h : TreeInput S data) (hc : S.columns ≠ [])
    (hI : SplitContract I S.minImprovement (requiredSamples S.minSamplesLeaf data.length))
    (hS : SeparatingSplits I S.minImprovement S.columns data) (hh : ∀ ci ∈ S.columns.zipIdx, NoHashClash data ci)
    {q : List Task} {st : State} (hfit : fit S I data [] = (q, .ok st)) (m : Mem Event) :
    (st.circuit.isDeterministic m).2 = .ok true := by
  have hC := minSamples_eq S data.length ▸ hI
  obtain ⟨st', E, hfit', hE⟩ := fit_ok h hC
  have hA := fit_apart h hC hS hfit
  rw [hfit] at hfit'
  simp only [Prod.mk.injEq, Except.ok.injEq] at hfit'
  obtain ⟨rfl, rfl⟩ := hfit'
  obtain ⟨hpn, _, hex⟩ := tree_facts h hc hE
  obtain ⟨hD, _, _⟩ := denotes_tree (emitted_ne_nil hE) (fun e he => ⟨_, (hE.leaf e he).2⟩) data.length
  rw [← hE.circuit] at hD
  obtain ⟨sc, hs, _, _⟩ := hD.scope
  obtain ⟨Sp, hSp⟩ := exists_possiblePoints hD.layered.graded.acyclic
  obtain ⟨b, hb1, hb2⟩ := C14_is_deterministic hD.layered hs hpn (tree_typed h hE) hD.valid hSp m
  rw [hb1, hb2.2]
  have hpos := (tree_neat h hE).pos
  have hroot : ∀ S', PossiblePoints st.circuit S' → (st.circuit.succ 0).Pairwise fun a c => ∀ x, ¬ (x ∈ S' a ∧ x ∈ S' c) := by
    intro S' hS'
    have hap : E.Pairwise fun e e' => ∃ ci ∈ S.columns.zipIdx, TellsApart ci (rowsOf data e.idx) (rowsOf data e'.idx) := by
      rw [hE.samples, List.pairwise_map] at hA
      refine hA.imp_of_mem ?_
      intro e e' he he' hee
      obtain ⟨ci, hci, h1⟩ := hee
      refine ⟨ci, hci, ?_⟩
      rw [(hE.leaf e he).1, (hE.leaf e' he').1]
      exact h1
    have hpt : ∀ x : Var → ℝ, (st.circuit.succ 0).Pairwise fun a c => ¬ (x ∈ S' a ∧ x ∈ S' c) := by
      intro x
      obtain ⟨f, hf⟩ := exists_circuitValue hD.layered.graded.acyclic fun d => leafDensity d (x d.var)
      have hv := forall₂_mem (root_values hE hf)
      have hv' : List.Forall₂ (fun (e : Emitted) n => e ∈ E ∧ (x ∈ S' n → ∀ ci ∈ S.columns.zipIdx,
          Inside (rowsOf data e.idx) ci (x (columnVar ci.1)))) E (st.circuit.succ 0) := by
        have hids : ∀ n ∈ st.circuit.succ 0, n ∈ st.circuit.ids := fun n hn => Graph.succ_mem_ids hD.layered.wf hn
        generalize st.circuit.succ 0 = l at hv hids
        have : List.Forall₂ (fun (e : Emitted) n => n ∈ l ∧ e ∈ E ∧
            f n = (S.columns.zipIdx.map fun ci => e.Fs ci fun d => leafDensity d (x d.var)).prod) E l :=
          (forall₂_mem hv.flip).flip
        refine this.imp ?_
        rintro e n ⟨hn, he, hfn⟩
        refine ⟨he, fun hx ci hci => ?_⟩
        have hp := pos_of_possible hD.layered.wf hD.layered.graded.acyclic hD.valid hpos hS' hf n (hids n hn) hx
        rw [hfn] at hp
        obtain ⟨hne, _, hfits⟩ := emitted_rows h hE he
        obtain ⟨g, r, hr⟩ := (hE.leaf e he).2.parts ci hci
        refine column_inside h.cap hne (hfits ci hci) hr (lt_of_le_of_ne (column_nonneg hE he hci x) fun h0 => hp.ne' ?_)
        exact List.prod_eq_zero (List.mem_map.2 ⟨ci, hci, h0.symm⟩)
      refine pairwise_forall₂ ?_ hv' hap
      rintro e n e' n' ⟨he, h1⟩ ⟨he', h2⟩ ⟨ci, hci, hapart⟩ ⟨hx, hx'⟩
      exact not_inside_both (emitted_rows h hE he).2.1 (emitted_rows h hE he').2.1 (h.columns ci hci) (hh ci hci) hapart
        (h1 hx ci hci) (h2 hx' ci hci)
    rw [List.pairwise_iff_getElem]
    intro i j hi hj hij x
    exact List.pairwise_iff_getElem.1 (hpt x) i j hi hj hij
  have hexT : Exclusive st.circuit := by
    have hroot' := hroot
    rw [hE.circuit] at hroot' ⊢
    exact exclusive_attach (by simp) (fun _ _ _ => rfl) (fun e he => (hE.leaf e he).2.denotes.layered) hex fun _ => hroot'
  exact hexT Sp hSp

/-- C111, unless an integer column has entries with the same hash: `mode` answers with the largest likelihood and exactly the points
that have it. -/
theorem C111_mode_partial (h : TreeInput S data) (hc : S.columns ≠ [])
    (hI : SplitContract I S.minImprovement (requiredSamples S.minSamplesLeaf data.length))
    (hS : SeparatingSplits I S.minImprovement S.columns data) (hh : ∀ ci ∈ S.columns.zipIdx, NoHashClash data ci)
    {q : List Task} {st : State} (hfit : fit S I data [] = (q, .ok st)) (next : ℝ → Bool → ℝ) (m : Mem Event) (m' : Mem (Event × LogP)) :
    ∃ A p, st.circuit.mode next m m' = .ok (A, p) ∧ 0 < p ∧ (∃ x, A.Mem x) ∧
      ∀ x m, ∃ l, st.circuit.likelihood m x = .ok l ∧ l ≤ p ∧ (A.Mem x ↔ l = p) := by
  have hdet := C111_deterministic_partial h hc hI hS hh hfit m
  obtain ⟨st', E, hfit', hE⟩ := fit_ok h (minSamples_eq S data.length ▸ hI)
  rw [hfit] at hfit'
  simp only [Prod.mk.injEq, Except.ok.injEq] at hfit'
  obtain ⟨rfl, rfl⟩ := hfit'
  obtain ⟨hpn, hat, _⟩ := tree_facts h hc hE
  obtain ⟨hD, _, _⟩ := denotes_tree (emitted_ne_nil hE) (fun e he => ⟨_, (hE.leaf e he).2⟩) data.length
  rw [← hE.circuit] at hD
  obtain ⟨sc, hs, hdec, _⟩ := hD.scope
  have hneat := tree_neat h hE
  obtain ⟨A, p, hmode, hp, hne, hmax⟩ := C15_mode_partial hD.layered hs hdec hpn (tree_typed h hE) hD.valid hat (by
    intro n hk
    have h1 := hneat.norm n hk
    by_contra hcon
    push Not at hcon
    have : ∀ l : List _, (∀ e ∈ l, linWeight e ≤ 0) → (l.map linWeight).sum ≤ 0 := by
      intro l hl
      induction l with
      | nil => simp
      | cons e l ih =>
        have h2 := ih fun e he => hl e (by simp [he])
        have h3 := hl e (by simp)
        simp only [List.map_cons, List.sum_cons]
        linarith
    have := this _ hcon
    linarith) m hdet next m'
  refine ⟨A, p, hmode, hp, hne, fun x m => ?_⟩
  obtain ⟨f, hf⟩ := exists_circuitValue hD.layered.graded.acyclic fun d => leafDensity d (x d.var)
  obtain ⟨_, _, _, _, hl⟩ := C01_loglikelihood hD.layered hs hD.valid x hf m
  exact ⟨f 0, hl, hmax x f hf⟩

/-! ### When the leaves overlap -/

/-- Two leaves that both give a point a positive density. -/
theorem overlap_intractable (h : TreeInput S data) (hc : S.columns ≠ []) {st : State} {E : List Emitted} (hE : Inv S I data st [] E)
    {p : Var → ℝ} {i j : ℕ} (hij : i < j) (hj : j < E.length)
    (hi : ∀ ci ∈ S.columns.zipIdx, 0 < (E[i]'(by omega)).Fs ci fun d => leafDensity d (p d.var))
    (hj' : ∀ ci ∈ S.columns.zipIdx, 0 < (E[j]).Fs ci fun d => leafDensity d (p d.var)) (next : ℝ → Bool → ℝ) (m : Mem Event)
    (m' : Mem (Event × LogP)) : st.circuit.mode next m m' = .error .intractableError := by
  obtain ⟨hpn, _, _⟩ := tree_facts h hc hE
  obtain ⟨hD, _, hk⟩ := denotes_tree (emitted_ne_nil hE) (fun e he => ⟨_, (hE.leaf e he).2⟩) data.length
  rw [← hE.circuit] at hD hk
  obtain ⟨sc, hs, _, _⟩ := hD.scope
  obtain ⟨f, hf⟩ := exists_circuitValue hD.layered.graded.acyclic fun d => leafDensity d (p d.var)
  have hv := root_values hE hf
  have hlen := hv.length_eq
  have hval := List.forall₂_iff_get.1 hv
  refine C15_overlap hD.layered hs hpn (tree_typed h hE) hD.valid hk hf (fun hP => ?_) next m m'
  refine List.pairwise_iff_getElem.1 hP i j (by omega) (by omega) hij ⟨?_, ?_⟩
  · have := hval.2 i (by omega) (by omega)
    simp only [List.get_eq_getElem] at this
    rw [this]
    exact List.prod_pos (by
      intro a ha
      obtain ⟨ci, hci, rfl⟩ := List.mem_map.1 ha
      exact hi ci hci)
  · have := hval.2 j (by omega) (by omega)
    simp only [List.get_eq_getElem] at this
    rw [this]
    exact List.prod_pos (by
      intro a ha
      obtain ⟨ci, hci, rfl⟩ := List.mem_map.1 ha
      exact hj' ci hci)

/-- C111, the other direction: if the splits put equal rows into different leaves, `mode` raises `IntractableError`. -/
theorem C111_shared (h : TreeInput S data) (hc : S.columns ≠ [])
    (hI : SplitContract I S.minImprovement (requiredSamples S.minSamplesLeaf data.length)) {q : List Task} {st : State}
    (hfit : fit S I data [] = (q, .ok st)) {p : Var → ℝ} {i j : ℕ} (hij : i < j) (hj : j < (leafSamples st).length)
    {a b : ℕ} (ha : a ∈ (leafSamples st)[i]) (hb : b ∈ (leafSamples st)[j])
    (hpa : ∀ ci ∈ S.columns.zipIdx, Agrees p (data.getD a default) ci ∧ HashesToItself (data.getD a default) ci)
    (hpb : ∀ ci ∈ S.columns.zipIdx, Agrees p (data.getD b default) ci ∧ HashesToItself (data.getD b default) ci)
    (next : ℝ → Bool → ℝ) (m : Mem Event) (m' : Mem (Event × LogP)) : st.circuit.mode next m m' = .error .intractableError := by
  obtain ⟨st', E, hfit', hE⟩ := fit_ok h (minSamples_eq S data.length ▸ hI)
  rw [hfit] at hfit'
  simp only [Prod.mk.injEq, Except.ok.injEq] at hfit'
  obtain ⟨rfl, rfl⟩ := hfit'
  have hls := leafSamples_eq hE
  have hlen : (leafSamples st).length = E.length := by rw [hls, List.length_map]
  have hpos : ∀ k (hk : k < E.length) c, c ∈ (E[k]).idx →
      (∀ ci ∈ S.columns.zipIdx, Agrees p (data.getD c default) ci ∧ HashesToItself (data.getD c default) ci) →
      ∀ ci ∈ S.columns.zipIdx, 0 < (E[k]).Fs ci fun d => leafDensity d (p d.var) := by
    intro k hk c hck hp ci hci
    obtain ⟨g, r, hr⟩ := (hE.leaf _ (List.getElem_mem hk)).2.parts ci hci
    exact hr.pos _ (List.mem_map.2 ⟨c, hck, rfl⟩) p (hp ci hci).1 (hp ci hci).2
  refine overlap_intractable h hc hE hij (by omega) (hpos i (by omega) a ?_ hpa) (hpos j (by omega) b ?_ hpb) next m m'
  · simpa [hls] using ha
  · simpa [hls] using hb

/-! ### Concrete inputs -/

theorem firstSample_single {data : List Row} {st : State} {E : List Emitted} (hE : Inv (oneInteger ⊤) firstSample data st [] E) {e : Emitted}
    (he : e ∈ E) : ∃ i, e.idx = [i] := by
  have h1 := emitted_bounds hE he
  refine List.length_eq_one_iff.1 ?_
  rcases hE.stopped e he with h2 | h2 | ⟨calls, ix, h2⟩
  · rw [show (oneInteger ⊤).maxDepth = ⊤ from rfl, ge_iff_le, top_le_iff] at h2
    exact absurd h2 (EReal.coe_ne_top (e.depth : ℝ))
  · rw [← minSamples_eq, show (oneInteger ⊤).minSamplesLeaf = 1 from rfl, requiredSamples_one] at h2
    have : e.stop - e.start < 2 := by
      have h1' : ((e.stop - e.start : ℕ) : ℝ) < (2 : ℕ) := by simpa using h2
      exact_mod_cast h1'
    omega
  · by_contra hne
    simp only [firstSample, oneInteger] at h2
    rw [if_pos (by omega)] at h2
    norm_num at h2

theorem firstSample_length {data : List Row} {st : State} {E : List Emitted} (hE : Inv (oneInteger ⊤) firstSample data st [] E) :
    E.length = data.length := by
  have hp := (partition_of hE).length_eq
  rw [leafSamples_eq hE, List.length_flatten, List.length_range, List.map_map] at hp
  have : E.map (List.length ∘ Emitted.idx) = E.map fun _ => 1 := by
    refine List.map_congr_left fun e he => ?_
    obtain ⟨i, hi⟩ := firstSample_single hE he
    simp [hi]
  rw [this] at hp
  simpa using hp

/-- Splitting off the first of some different integers tells the sides apart. -/
theorem firstSample_separating {data : List Row} (hd : data.Pairwise fun x y => x.int 0 ≠ y.int 0) :
    SeparatingSplits firstSample 0 [.integer 0] data := by
  intro calls indices start stop hperm h1 h2 _
  refine ⟨(.integer 0, 0), by simp, ?_⟩
  simp only [TellsApart, firstSample, rowsAt, List.mem_map, forall_exists_index, and_imp, forall_apply_eq_imp_iff₂]
  intro a ha b hb hab
  have hnd : indices.Nodup := hperm.symm.nodup List.nodup_range
  have ha' : a < data.length := by
    have := hperm.mem_iff.1 (List.mem_of_mem_drop (List.mem_of_mem_take ha))
    simpa using this
  have hb' : b < data.length := by
    have := hperm.mem_iff.1 (List.mem_of_mem_drop (List.mem_of_mem_take hb))
    simpa using this
  have hne : a ≠ b := by
    rintro rfl
    have h3 : (indices.drop start).Nodup := hnd.sublist (List.drop_sublist _ _)
    rw [← List.take_append_drop (0 + 1) (indices.drop start)] at h3
    have h4 := (List.nodup_append.1 h3).2.2
    refine h4 a ha a ?_ rfl
    have := List.mem_of_mem_take hb
    rwa [List.drop_drop, ← add_assoc]
  rw [List.getD_eq_getElem _ _ ha', List.getD_eq_getElem _ _ hb'] at hab
  rcases lt_or_gt_of_ne hne with h | h
  · exact List.pairwise_iff_getElem.1 hd a b ha' hb' h hab
  · exact List.pairwise_iff_getElem.1 hd b a hb' ha' h hab.symm

/-- Different integers: the hypotheses of `C111_mode_partial` are met. -/
example : ∃ q st, fit (oneInteger ⊤) firstSample [row 3, row 5, row 7] [] = (q, .ok st) ∧
    ∃ A p, st.circuit.mode (fun x _ => x) freshMem freshMem = .ok (A, p) ∧ 0 < p := by
  have h := oneInteger_input ⊤ (data := [row 3, row 5, row 7]) (by simp)
  obtain ⟨st, r, hfit, _⟩ := C41_fit h (oneInteger_contract ⊤ _)
  obtain ⟨A, p, h1, h2, _⟩ := C111_mode_partial h (by simp [oneInteger]) (oneInteger_contract ⊤ _)
    (firstSample_separating (by simp [row])) (by
      intro ci hci
      simp only [oneInteger, List.zipIdx_cons, List.zipIdx_nil, List.mem_singleton] at hci
      subst hci
      simp [NoHashClash, row]) hfit (fun x _ => x) freshMem freshMem
  exact ⟨_, st, hfit, A, p, h1, h2⟩

/-- An impurity that sorts the range and splits off the first sample. -/
noncomputable def sortFirst : Impurity := fun _ indices start stop =>
  ⟨if start + 2 ≤ stop then 1 else -1, 0, indices.take start ++ (slice indices start stop).mergeSort ++ indices.drop stop⟩

theorem sortFirst_contract : SplitContract sortFirst 0 1 where
  perm := fun calls indices start stop _ _ => ⟨_, rfl, List.mergeSort_perm _ _⟩
  pos := by
    intro calls indices start stop h1 h2 h3
    simp only [sortFirst] at h3 ⊢
    by_cases h : start + 2 ≤ stop
    · refine ⟨by omega, by norm_num, ?_⟩
      exact_mod_cast (by omega : 1 ≤ stop - (start + 0 + 1))
    · rw [if_neg h] at h3
      norm_num at h3

/-- If the rows are in the order of their numbers, the sides are told apart. -/
theorem sortFirst_separating {data : List Row} (hd : data.Pairwise fun x y => x.real 0 < y.real 0) (P : Learn.Nyga.Params) :
    SeparatingSplits sortFirst 0 [.continuous P] data := by
  intro calls indices start stop hperm h1 h2 _
  have hnd : indices.Nodup := hperm.symm.nodup List.nodup_range
  have hseg : (slice indices start stop).Nodup := hnd.sublist ((List.take_sublist _ _).trans (List.drop_sublist _ _))
  have hmem : ∀ a ∈ (slice indices start stop).mergeSort, a < data.length := by
    intro a ha
    have := hperm.mem_iff.1 (List.mem_of_mem_drop (List.mem_of_mem_take (List.mem_mergeSort.1 ha)))
    simpa using this
  have hlen : ((slice indices start stop).mergeSort).length = stop - start := by
    rw [List.length_mergeSort, slice, List.length_take, List.length_drop]
    omega
  have hsorted : ((slice indices start stop).mergeSort).Pairwise (· < ·) := by
    have h3 : ((slice indices start stop).mergeSort).Pairwise (· ≤ ·) := by
      have := List.pairwise_mergeSort (le := fun a b : ℕ => decide (a ≤ b)) (by simp; omega) (by simp; omega) (slice indices start stop)
      simpa using this
    have h4 : ((slice indices start stop).mergeSort).Nodup := (List.mergeSort_perm _ _).symm.nodup hseg
    exact (h3.and h4).imp fun h => lt_of_le_of_ne h.1 h.2
  refine ⟨(.continuous P, 0), by simp, .inl ?_⟩
  simp only [sortFirst, rowsAt, List.mem_map, forall_exists_index, and_imp, forall_apply_eq_imp_iff₂]
  generalize (slice indices start stop).mergeSort = l at *
  intro a ha b hb
  have hd1 : (indices.take start ++ l ++ indices.drop stop).drop start = l ++ indices.drop stop := by
    rw [List.append_assoc, List.drop_append_of_le_length (by simp; omega), List.drop_of_length_le (by simp), List.nil_append]
  have hd2 : (indices.take start ++ l ++ indices.drop stop).drop (start + 0 + 1) = l.drop 1 ++ indices.drop stop := by
    rw [add_zero, ← List.drop_drop, hd1, List.drop_append_of_le_length (by omega)]
  rw [hd1, List.take_append_of_le_length (by omega)] at ha
  rw [hd2, List.take_append_of_le_length (by simp; omega)] at hb
  have hb := List.mem_of_mem_take hb
  have hab : a < b := by
    rw [← List.take_append_drop (0 + 1) l] at hsorted
    exact (List.pairwise_append.1 hsorted).2.2 a ha b hb
  have ha' := hmem a (List.mem_of_mem_take ha)
  have hb' := hmem b (List.mem_of_mem_drop hb)
  rw [List.getD_eq_getElem _ _ ha', List.getD_eq_getElem _ _ hb']
  exact List.pairwise_iff_getElem.1 hd a b ha' hb' hab

/-- Different numbers: the hypotheses of `C111_mode_partial` are met by a continuous column. -/
example : ∃ q st, fit oneContinuous sortFirst [realRow 0, realRow 1, realRow 5] [] = (q, .ok st) ∧
    ∃ A p, st.circuit.mode (fun x _ => x) freshMem freshMem = .ok (A, p) ∧ 0 < p := by
  have h := oneContinuous_input (data := [realRow 0, realRow 1, realRow 5]) (by simp)
  have hI : SplitContract sortFirst oneContinuous.minImprovement (requiredSamples oneContinuous.minSamplesLeaf 3) :=
    (requiredSamples_one 3).symm ▸ sortFirst_contract
  obtain ⟨st, r, hfit, _⟩ := C41_fit h hI
  obtain ⟨A, p, h1, h2, _⟩ := C111_mode_partial h (by simp [oneContinuous]) hI
    (sortFirst_separating (by simp [realRow]) _) (by
      intro ci hci
      simp only [oneContinuous, List.zipIdx_cons, List.zipIdx_nil, List.mem_singleton] at hci
      subst hci
      trivial) hfit (fun x _ => x) freshMem freshMem
  exact ⟨_, st, hfit, A, p, h1, h2⟩

/-- The same integer twice, in two leaves: the hypotheses of `C111_shared` are met. -/
example : ∃ q st, fit (oneInteger ⊤) firstSample [row 3, row 3] [] = (q, .ok st) ∧
    st.circuit.mode (fun x _ => x) freshMem freshMem = .error .intractableError := by
  have h := oneInteger_input ⊤ (data := [row 3, row 3]) (by simp)
  obtain ⟨st, E, hfit, hE⟩ := fit_ok h (minSamples_eq (oneInteger ⊤) 2 ▸ oneInteger_contract ⊤ 2)
  have hlen : (leafSamples st).length = 2 := by
    rw [leafSamples_eq hE, List.length_map, firstSample_length hE]
    rfl
  have hrow : ∀ k (hk : k < (leafSamples st).length), ∃ a ∈ (leafSamples st)[k], [row 3, row 3].getD a default = row 3 := by
    intro k hk
    have hne : (leafSamples st)[k] ≠ [] := by
      simp only [leafSamples_eq hE, List.getElem_map]
      obtain ⟨i, hi⟩ := firstSample_single hE (List.getElem_mem (by simpa [leafSamples_eq hE] using hk))
      simp [hi]
    obtain ⟨a, ha⟩ := List.exists_mem_of_ne_nil _ hne
    refine ⟨a, ha, ?_⟩
    have : a ∈ List.range 2 := (partition_of hE).mem_iff.1 (List.mem_flatten.2 ⟨_, List.getElem_mem hk, ha⟩)
    have : a < 2 := by simpa using this
    interval_cases a <;> rfl
  obtain ⟨a, ha, hra⟩ := hrow 0 (by omega)
  obtain ⟨b, hb, hrb⟩ := hrow 1 (by omega)
  refine ⟨_, st, hfit, C111_shared h (by simp [oneInteger]) (oneInteger_contract ⊤ _) hfit (p := fun _ => 3) (i := 0) (j := 1) (by omega)
    (by omega) ha hb ?_ ?_ _ _ _⟩
  all_goals
    intro ci hci
    simp only [oneInteger, List.zipIdx_cons, List.zipIdx_nil, List.mem_singleton] at hci
    subst hci
    simp only [hra, hrb]
    simp [Agrees, HashesToItself, row]

/-- The integers -1 and -2 have the same hash: the leaves of a tree that separates them overlap, and `mode` raises. -/
theorem C111_clash : ∃ q st, fit (oneInteger ⊤) firstSample [row (-1), row (-2)] [] = (q, .ok st) ∧
    ∀ next m m', st.circuit.mode next m m' = .error .intractableError := by
  have h := oneInteger_input ⊤ (data := [row (-1), row (-2)]) (by simp)
  obtain ⟨st, E, hfit, hE⟩ := fit_ok h (minSamples_eq (oneInteger ⊤) 2 ▸ oneInteger_contract ⊤ 2)
  have hlen : E.length = 2 := firstSample_length hE
  have hpos : ∀ e ∈ E, ∀ ci ∈ (oneInteger ⊤).columns.zipIdx, 0 < e.Fs ci fun d => leafDensity d ((fun _ => -2 : Var → ℝ) d.var) := by
    intro e he ci hci
    obtain ⟨g, r, hr⟩ := (hE.leaf e he).2.parts ci hci
    obtain ⟨hne, hsub, _⟩ := emitted_rows h hE he
    simp only [oneInteger, List.zipIdx_cons, List.zipIdx_nil, List.mem_singleton] at hci
    subst hci
    have heq := hr.eq
    simp only [columnCircuit, Except.ok.injEq, Prod.mk.injEq] at heq
    obtain ⟨rfl, rfl⟩ := heq
    obtain ⟨f, hf⟩ := exists_circuitValue hr.denotes.layered.graded.acyclic fun d => leafDensity d ((fun _ => -2 : Var → ℝ) d.var)
    rw [← hr.denotes.value _ f hf, hf.leaf 0 _ (by rw [kind?_newUnit])]
    obtain ⟨h1, _, h3⟩ := fitDiscrete_facts (data := (rowsOf [row (-1), row (-2)] e.idx).map fun x => x.int 0) (by simpa using hne)
    obtain ⟨x, hx⟩ := List.exists_mem_of_ne_nil _ hne
    have hk := h3 (x.int 0) (List.mem_map.2 ⟨x, hx, rfl⟩)
    have hx2 : pyHash (x.int 0) = -2 := by
      have := hsub x hx
      simp only [List.mem_cons, List.not_mem_nil, or_false] at this
      rcases this with rfl | rfl <;> simp only [row] <;> decide
    rw [hx2] at hk
    have := density_pos h1 hk
    simpa [leafDensity] using this
  exact ⟨_, st, hfit, fun next m m' => overlap_intractable h (by simp [oneInteger]) hE (p := fun _ => -2) (i := 0) (j := 1)
    (by omega) (by omega) (hpos _ (List.getElem_mem _)) (hpos _ (List.getElem_mem _)) next m m'⟩

theorem C111_full_false : ¬ C111_full := by
  intro hfull
  obtain ⟨q, st, hfit, hm⟩ := C111_clash
  obtain ⟨A, p, h1, _⟩ := hfull _ _ _ (oneInteger_input ⊤ (by simp)) (by simp [oneInteger]) (oneInteger_contract ⊤ _)
    (firstSample_separating (by simp [row])) q st hfit (fun x _ => x) freshMem freshMem
  rw [hm] at h1
  cases h1

end PM.Props
