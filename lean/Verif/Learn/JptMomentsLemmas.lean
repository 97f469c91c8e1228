import Verif.Spec.JptMoments
import Verif.Circuit.MomentMix
import Verif.Learn.JptUniLemmas
import Verif.Dist.MomentLemmas
import Verif.Props.Moments

/-! Helper lemmas about the moments of a learned tree. -/

namespace PM.Learn.Jpt
open Spec Graph Classical MeasureTheory

/-- The value of `moment`, if there is one. -/
noncomputable def momentVal (d : Leaf) (k : ℕ) (c : ℝ) : ℝ :=
  match d.moment k c with
  | .ok x => x
  | .error _ => 0

theorem sum_fitted_map {probs : List (ℤ × ℝ)} {data : List ℤ} (hnd : (probs.map Prod.fst).Nodup)
    (hkeys : ∀ k, k ∈ probs.map Prod.fst ↔ k ∈ data)
    (hval : ∀ v ∈ data, Leaf.lookup probs v = (data.count v : ℝ) / data.length) (φ : ℤ → ℝ) :
    (probs.map fun kp => kp.2 * φ kp.1).sum = (data.map φ).sum / data.length := by
  rw [keys_map_lookup (fun k x => x * φ k) hnd]
  have hperm : (probs.map Prod.fst).Perm data.dedup := by
    rw [List.perm_ext_iff_of_nodup hnd (List.nodup_dedup _)]
    intro k
    rw [hkeys, List.mem_dedup]
  rw [(hperm.map _).sum_eq]
  have h1 : data.dedup.map (fun k => Leaf.lookup probs k * φ k)
      = data.dedup.map fun v => (data.count v • φ v) * (data.length : ℝ)⁻¹ := by
    refine List.map_congr_left fun v hv => ?_
    rw [hval v (List.mem_dedup.1 hv), nsmul_eq_mul]
    ring
  rw [h1, List.sum_map_mul_right, div_eq_mul_inv, Finset.sum_list_map_count data, ← List.sum_toFinset _ (List.nodup_dedup _), 
    show data.dedup.toFinset = data.toFinset by ext; simp]

/-- The moments of a fitted integer column are those of its rows. -/
theorem column_moment_integer {cap : ℝ} {rows : List Row} (hne : rows ≠ []) {v : Var} {i : ℕ} (hh : ∀ x ∈ rows, HashesToItself x (.integer v, i))
    {g : Circuit} {r : Node} {F : (Leaf → ℝ) → ℝ} (h : ColumnResult cap rows (.integer v, i) g r F) (k : ℕ) (c : ℝ) :
    F (fun d => momentVal d k c) = sampleMoment rows i k c := by
  have heq := h.eq
  simp only [columnCircuit, Except.ok.injEq, Prod.mk.injEq] at heq
  obtain ⟨rfl, rfl⟩ := heq
  obtain ⟨f1, f2, f3, f4, f5⟩ := Props.C32_fit_partial (data := rows.map fun x => x.int i) (by simpa using hne) (by
    intro hm
    obtain ⟨x, hx, hx1⟩ := List.mem_map.1 hm
    exact (hh x hx).1 hx1) (by
    intro v hv
    obtain ⟨x, hx, rfl⟩ := List.mem_map.1 hv
    exact (hh x hx).2)
  obtain ⟨f, hf⟩ := exists_circuitValue h.denotes.layered.graded.acyclic (fun d => momentVal d k c)
  rw [← h.denotes.value _ f hf, hf.leaf 0 _ (kind?_newUnit ..)]
  simp only [momentVal, Leaf.moment, Leaf.integerMoment]
  rw [sum_fitted_map f4 (by simpa using f5) (fun v _ => f1 v) (fun z => ((z : ℝ) - c) ^ k), List.map_map, sampleMoment, List.length_map]
  rfl

/-- The leaves over a continuous column are in the range of its rows. -/
theorem column_leaf_range {cap : ℝ} {rows : List Row} (hne : rows ≠ []) {P : Nyga.Params} {i : ℕ} (hci : ColumnFits rows (.continuous P, i))
    {g : Circuit} {r : Node} {F : (Leaf → ℝ) → ℝ} (h : ColumnResult cap rows (.continuous P, i) g r F) {n : Node} {d : Leaf}
    (hk : g.kind? n = some (.leaf d)) {a b : ℝ} (hab : ∀ x ∈ rows, a ≤ x.real i ∧ x.real i ≤ b) :
    (∃ lo hi l u, d = .uniform P.var lo hi l u ∧ lo < hi ∧ a ≤ lo ∧ hi ≤ b) ∨ ∃ x c, d = .dirac P.var x c ∧ a ≤ x ∧ x ≤ b := by
  have hz := column_range hne hci h.eq (A := Set.Icc a b) measurableSet_Icc
    (fun x hx y hy t h1 h2 => ⟨(hab x hx).1.trans h1, h2.trans (hab y hy).2⟩) n d hk
  rcases (column_leaves hne hci h.eq n d hk).1 with ⟨lo, hi, l, u, rfl⟩ | ⟨x, c, rfl⟩
  · have hlt : lo < hi := h.denotes.valid n _ hk
    refine .inl ⟨lo, hi, l, u, rfl, hlt, ?_⟩
    rw [uniform_law_eq _ hlt, Measure.smul_apply, smul_eq_mul, mul_eq_zero, Measure.restrict_apply measurableSet_Icc.compl] at hz
    have hz := hz.resolve_left (by
      have := sub_pos.2 hlt
      simp only [ENNReal.ofReal_eq_zero, not_le]
      positivity)
    have key : ∀ s t : ℝ, s < t → Set.Ioo s t ⊆ (Set.Icc a b)ᶜ ∩ Set.Ioc lo hi → False := by
      intro s t hst hsub
      have := measure_mono_null hsub hz
      rw [Real.volume_Ioo, ENNReal.ofReal_eq_zero] at this
      linarith
    constructor
    · by_contra hlo
      push Not at hlo
      refine key lo (min a hi) (lt_min hlo hlt) fun t ht => ⟨fun hm => ?_, ht.1, ?_⟩
      · exact absurd hm.1 (not_le.2 (ht.2.trans_le (min_le_left _ _)))
      · exact (ht.2.trans_le (min_le_right _ _)).le
    · by_contra hhi
      push Not at hhi
      refine key (max b lo) hi (max_lt hhi hlt) fun t ht => ⟨fun hm => ?_, ?_, ht.2.le⟩
      · exact absurd hm.2 (not_le.2 ((le_max_left _ _).trans_lt ht.1))
      · exact (le_max_right _ _).trans_lt ht.1
  · refine .inr ⟨x, c, rfl, ?_⟩
    simp only [leafLaw] at hz
    rw [Measure.dirac_apply' _ measurableSet_Icc.compl] at hz
    by_contra hm
    have hm' : x ∈ (Set.Icc a b)ᶜ := hm
    simp [hm'] at hz

/-- The leaves over a continuous column are uniform if it has two different entries, and point masses otherwise. -/
theorem column_leaf_kind {cap : ℝ} {rows : List Row} (hne : rows ≠ []) {P : Nyga.Params} {i : ℕ} (hci : ColumnFits rows (.continuous P, i))
    {g : Circuit} {r : Node} {F : (Leaf → ℝ) → ℝ} (h : ColumnResult cap rows (.continuous P, i) g r F) {n : Node} {d : Leaf}
    (hk : g.kind? n = some (.leaf d)) :
    ((∃ x ∈ rows, ∃ y ∈ rows, x.real i ≠ y.real i) → ∃ lo hi l u, d = .uniform P.var lo hi l u) ∧
      ((∀ x ∈ rows, ∀ y ∈ rows, x.real i = y.real i) → ∃ x c, d = .dirac P.var x c) := by
  have heq := h.eq
  set col := rows.map fun x => x.real i with hcol
  have hne' : col ≠ [] := by simpa [hcol] using hne
  constructor
  · rintro ⟨x, hx, y, hy, hxy⟩
    have hI : Props.FitInput P col none := ⟨hci.1, hci.2, ⟨_, List.mem_map.2 ⟨x, hx, rfl⟩, _, List.mem_map.2 ⟨y, hy, rfl⟩, hxy⟩, by simp⟩
    obtain ⟨E, hfit, hE, _⟩ := hI.result cap
    simp only [columnCircuit, bind, Except.bind] at heq
    rw [← hcol, hfit] at heq
    simp only [hE.layered.root, Except.ok.injEq, Prod.mk.injEq] at heq
    obtain ⟨rfl, rfl⟩ := heq
    obtain ⟨x, hx, _, rfl⟩ := hE.of_leaf hk
    obtain ⟨y, hy, rfl⟩ := List.mem_map.1 hx
    exact ⟨_, _, _, _, rfl⟩
  · intro h2
    obtain ⟨a, ha⟩ := List.exists_mem_of_ne_nil _ hne'
    have hall : ∀ y ∈ col, y = a := by
      intro y hy
      obtain ⟨x', hx', rfl⟩ := List.mem_map.1 ha
      obtain ⟨y', hy', rfl⟩ := List.mem_map.1 hy
      exact h2 y' hy' x' hx'
    have hfit : Nyga.fit P cap col none = .ok (newUnit 0 (.leaf (.dirac P.var a cap))) := Props.fit_single hne' hall cap none
    simp only [columnCircuit, bind, Except.bind] at heq
    rw [← hcol, hfit] at heq
    simp only [(layered_newUnit 0 (Kind.leaf (Leaf.dirac P.var a cap))).root, Except.ok.injEq, Prod.mk.injEq] at heq
    obtain ⟨rfl, rfl⟩ := heq
    have hd := kind_newUnit_leaf hk
    subst hd
    exact ⟨_, _, rfl⟩

theorem momentVal_uniform_one (v : Var) {lo hi : ℝ} (h : lo < hi) (l u : Bound) : momentVal (.uniform v lo hi l u) 1 0 = (lo + hi) / 2 := by
  simp only [momentVal, Leaf.moment]
  rw [uniformMoment_eq h, intervalIntegral.integral_div, intervalIntegral.integral_comp_sub_right (fun x => x ^ 1) 0, integral_pow]
  have : hi - lo ≠ 0 := (sub_pos.2 h).ne'
  field_simp
  ring

theorem momentVal_uniform_two (v : Var) {lo hi : ℝ} (h : lo < hi) (l u : Bound) (c : ℝ) :
    momentVal (.uniform v lo hi l u) 2 c = ((hi - c) ^ 2 + (hi - c) * (lo - c) + (lo - c) ^ 2) / 3 := by
  simp only [momentVal, Leaf.moment]
  rw [uniformMoment_eq h, intervalIntegral.integral_div, intervalIntegral.integral_comp_sub_right (fun x => x ^ 2) c, integral_pow]
  have : hi - lo ≠ 0 := (sub_pos.2 h).ne'
  norm_num
  field_simp
  ring

/-- A continuous column between the values of its leaves. -/
theorem column_between {cap : ℝ} {rows : List Row} (hne : rows ≠ []) {P : Nyga.Params} {i : ℕ} (hci : ColumnFits rows (.continuous P, i))
    {g : Circuit} {r : Node} {F : (Leaf → ℝ) → ℝ} (h : ColumnResult cap rows (.continuous P, i) g r F) {ℓ : Leaf → ℝ} :
    (∀ a b, (∀ n d, g.kind? n = some (.leaf d) → a ≤ ℓ d ∧ ℓ d ≤ b) → a ≤ F ℓ ∧ F ℓ ≤ b) ∧
      ((∀ n d, g.kind? n = some (.leaf d) → 0 < ℓ d) → 0 < F ℓ) := by
  have hL := h.denotes.layered
  have hN := column_neat hne hci h.eq
  obtain ⟨f, hf⟩ := exists_circuitValue hL.graded.acyclic ℓ
  rw [← h.denotes.value _ f hf]
  have hr := (root_mem hL.root).1
  exact ⟨fun a b hl => value_between hL.wf hL.graded.acyclic hN.norm (column_no_prod hne hci h.eq) hf hl _ hr,
    fun hl => value_positive hL.wf hL.graded.acyclic hN.norm (column_no_prod hne hci h.eq) hf hl _ hr⟩

/-- Mixtures keep affine bounds. -/
theorem value_affine {g : Circuit} (hw : g.WF) (ha : g.Acyclic) (hsn : NormalizedSums g) (hno : ∀ n, g.kind? n ≠ some .prod)
    {ℓ ℓ' : Leaf → ℝ} {F G : Node → ℝ} (hF : CircuitValue g ℓ F) (hG : CircuitValue g ℓ' G) {a b : ℝ}
    (hl : ∀ n d, g.kind? n = some (.leaf d) → ℓ' d ≤ a * ℓ d + b) : ∀ n, n ∈ g.ids → G n ≤ a * F n + b := by
  refine ha.induct ?_
  intro n ih hn
  obtain ⟨k, hk⟩ := exists_kind? hn
  cases k with
  | leaf d => rw [hF.leaf n d hk, hG.leaf n d hk]; exact hl n d hk
  | prod => exact absurd hk (hno n)
  | sum =>
    rw [hF.sum n hk, hG.sum n hk]
    have h1 : ((g.outEdges n).map linWeight).sum = 1 := hsn n hk
    have : a * ((g.outEdges n).map fun e => linWeight e * F e.dst).sum + b =
        ((g.outEdges n).map fun e => linWeight e * (a * F e.dst + b)).sum := by
      rw [← List.sum_map_mul_left]
      conv_lhs => rw [← one_mul b, ← h1, ← List.sum_map_mul_right, ← List.sum_map_add]
      congr 1
      apply List.map_congr_left
      intro e _
      ring
    rw [this]
    exact List.sum_le_sum fun e he =>
      mul_le_mul_of_nonneg_left (ih _ (dst_mem_succ he) (succ_mem_ids hw (dst_mem_succ he))) (linWeight_nonneg e)

/-- Two values of a continuous column keep the affine bound of its leaves. -/
theorem column_affine {cap : ℝ} {rows : List Row} (hne : rows ≠ []) {P : Nyga.Params} {i : ℕ} (hci : ColumnFits rows (.continuous P, i))
    {g : Circuit} {r : Node} {F : (Leaf → ℝ) → ℝ} (h : ColumnResult cap rows (.continuous P, i) g r F) {ℓ ℓ' : Leaf → ℝ} {a b : ℝ}
    (hl : ∀ n d, g.kind? n = some (.leaf d) → ℓ' d ≤ a * ℓ d + b) : F ℓ' ≤ a * F ℓ + b := by
  have hL := h.denotes.layered
  have hN := column_neat hne hci h.eq
  obtain ⟨f, hf⟩ := exists_circuitValue hL.graded.acyclic ℓ
  obtain ⟨f', hf'⟩ := exists_circuitValue hL.graded.acyclic ℓ'
  rw [← h.denotes.value _ f hf, ← h.denotes.value _ f' hf']
  exact value_affine hL.wf hL.graded.acyclic hN.norm (column_no_prod hne hci h.eq) hf hf' hl _ (root_mem hL.root).1

variable {S : Settings} {I : Impurity} {data : List Row} {st : State} {E : List Emitted}

/-- The moments of a learned tree, as mixtures of the moments of the columns in the leaves. -/
theorem tree_moment (h : TreeInput S data) (hE : Inv S I data st [] E) (hnum : ∀ v dm, Column.symbolic v dm ∉ S.columns)
    {order : Var → Option ℕ} {center : Var → Option ℝ} {k : Var → ℕ} {c : Var → ℝ}
    (hord : ∀ col ∈ S.columns, order (columnVar col) = some (k (columnVar col)))
    (hcen : ∀ col ∈ S.columns, center (columnVar col) = some (c (columnVar col))) (m : Mem (Var → ℝ)) :
    ∃ res, (st.circuit.moment m order center).2 = .ok res ∧ (∀ v, (∀ col ∈ S.columns, columnVar col ≠ v) → res v = none) ∧
      ∀ ci ∈ S.columns.zipIdx, res (columnVar ci.1) =
        some ((E.map fun e => (e.idx.length : ℝ) / data.length * e.Fs ci fun d => momentVal d (k (columnVar ci.1)) (c (columnVar ci.1))).sum) := by
  obtain ⟨hD, _, _⟩ := denotes_tree (Props.emitted_ne_nil hE) (fun e he => ⟨_, (hE.leaf e he).2⟩) data.length
  rw [← hE.circuit] at hD
  obtain ⟨sc, hs, hdec, hsc⟩ := hD.scope
  have hmem : ∀ ci ∈ S.columns.zipIdx, ci.1 ∈ S.columns := fun ci hci => List.fst_mem_of_mem_zipIdx hci
  have hL := hD.layered
  choose f hf using fun v => exists_circuitValue (g := st.circuit) hL.graded.acyclic
    (fun d : Leaf => if d.var = v then momentVal d (k d.var) (c d.var) else 1)
  have hm := moment_value hL hs hdec (tree_neat h hE).norm (order := order) (center := center) (x := fun d => momentVal d (k d.var) (c d.var)) (by
    intro n d hk
    obtain ⟨cj, hcj, hl⟩ := tree_leaves h hE n d hk
    have hmj := hmem cj hcj
    have hv := hl.var
    have hsym : ∀ v p, d ≠ .symbolic v p := by
      rintro v p rfl
      obtain ⟨col, i⟩ := cj
      cases col with
      | other v => exact hl.elim
      | continuous P => rcases hl with ⟨_, _, _, _, hl⟩ | ⟨_, _, hl⟩ <;> cases hl
      | integer v => obtain ⟨_, hl⟩ := hl; cases hl
      | symbolic v dm => exact hnum _ _ hmj
    rw [Props.momentMap_eq hsym (by rw [hv]; exact hord _ hmj) (by rw [hv]; exact hcen _ hmj)]
    simp only [momentVal, hv]
    cases d with
    | symbolic v p => exact absurd rfl (hsym v p)
    | _ => rfl) hf m
  refine ⟨_, hm, fun v hv => if_neg ?_, fun ci hci => ?_⟩
  · rw [hsc, List.mem_toFinset, List.mem_map]
    rintro ⟨col, hcol, rfl⟩
    exact hv col hcol rfl
  · rw [if_pos (by
      rw [hsc, List.mem_toFinset]
      exact List.mem_map.2 ⟨ci.1, hmem ci hci, rfl⟩), hD.value _ _ (hf _)]
    congr 2
    refine List.map_congr_left fun e he => ?_
    rw [Props.weight_eq hE he]
    congr 1
    obtain ⟨hne, hsub, hfits⟩ := emitted_rows h hE he
    have hfac : ∀ cj ∈ S.columns.zipIdx, (e.Fs cj fun d => if d.var = columnVar ci.1 then momentVal d (k d.var) (c d.var) else 1)
        = if cj = ci then e.Fs ci fun d => momentVal d (k (columnVar ci.1)) (c (columnVar ci.1)) else 1 := by
      intro cj hcj
      obtain ⟨g, r, hr⟩ := (hE.leaf e he).2.parts cj hcj
      have hleaf := column_leaves hne (hfits cj hcj) hr.eq
      by_cases hc : cj = ci
      · subst hc
        rw [if_pos rfl]
        refine Denotes_congr_leaves hr.denotes fun n d hk => ?_
        rw [(hleaf n d hk).1.var, if_pos rfl]
      · rw [if_neg hc]
        refine Eq.trans ?_ hr.unit
        refine Denotes_congr_leaves hr.denotes fun n d hk => ?_
        rw [if_neg]
        rw [(hleaf n d hk).1.var]
        exact fun hv => hc (column_inj h hci cj hcj hv)
    rw [List.map_congr_left hfac]
    have hnd : S.columns.zipIdx.Nodup := List.Nodup.of_map (fun c : Column × ℕ => columnVar c.1) (by
      have : S.columns.zipIdx.map (fun c => columnVar c.1) = S.columns.map columnVar := by
        conv_rhs => rw [← List.zipIdx_map_fst 0 S.columns, List.map_map]
        rfl
      rw [this]
      exact h.distinct)
    generalize S.columns.zipIdx = l at hci hnd
    generalize (e.Fs ci fun d => momentVal d (k (columnVar ci.1)) (c (columnVar ci.1))) = y
    clear hfac
    induction l with
    | nil => simp at hci
    | cons cj l ih =>
      rw [List.nodup_cons] at hnd
      rw [List.map_cons, List.prod_cons]
      by_cases hc : cj = ci
      · subst hc
        rw [if_pos rfl, List.prod_eq_one, mul_one]
        intro x hx
        obtain ⟨c', hc', rfl⟩ := List.mem_map.1 hx
        rw [if_neg]
        rintro rfl
        exact hnd.1 hc'
      · rw [if_neg hc, one_mul]
        exact ih ((List.mem_cons.1 hci).resolve_left (Ne.symm hc)) hnd.2

end PM.Learn.Jpt
