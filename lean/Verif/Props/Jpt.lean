import Verif.Learn.JptFit

/-!
# C41, C59, C60, C61: joint probability trees
-/

namespace PM.Props

open Classical Graph Spec Learn.Jpt

variable {S : Settings} {I : Impurity} {data : List Row}

theorem forall₂_mem {α β : Type} {R : α → β → Prop} {l : List α} {l' : List β} (h : List.Forall₂ R l l') :
    List.Forall₂ (fun a b => a ∈ l ∧ R a b) l l' := by
  induction h with
  | nil => exact .nil
  | cons h _ ih => exact .cons ⟨by simp, h⟩ (ih.imp fun a b hab => ⟨by simp [hab.1], hab.2⟩)

theorem density_nonneg {g : Circuit} {r : Node} {V : Finset Var} {F : (Leaf → ℝ) → ℝ} (h : Denotes g r V F) (p : Var → ℝ) :
    0 ≤ F fun d => leafDensity d (p d.var) := by
  obtain ⟨f, hf⟩ := (C01_formula_exists_unique h.layered p).1
  rw [← h.value _ f hf]
  exact circuitValue_nonneg h.layered.wf h.layered.graded.acyclic hf (fun n d hk => leafDensity_nonneg (h.valid n d hk) _) r
    (root_mem h.layered.root).1

theorem leafSamples_eq {st : State} {E : List Emitted} (h : Inv S I data st [] E) : leafSamples st = E.map Emitted.idx := by
  unfold leafSamples
  rw [h.samples, List.map_map]
  refine List.map_congr_left fun e he => ?_
  exact (h.leaf e he).1.symm

theorem emitted_bounds {st : State} {E : List Emitted} (h : Inv S I data st [] E) {e : Emitted} (he : e ∈ E) :
    e.start < e.stop ∧ e.stop ≤ data.length ∧ e.idx.length = e.stop - e.start := by
  obtain ⟨ch, h1, h2⟩ := h.segs
  have h3 := (h1.bounds (e.start, e.stop) (h2.mem_iff.1 (by simpa using ⟨e, he, rfl, rfl⟩))).2
  refine ⟨h3.1, h3.2, ?_⟩
  rw [(h.leaf e he).1, length_slice h3.1.le (h.length ▸ h3.2)]

theorem emitted_ne_nil {st : State} {E : List Emitted} (h : Inv S I data st [] E) : E ≠ [] := by
  intro h0
  have := h.kraft
  rw [h0] at this
  simp at this

theorem partition_of {st : State} {E : List Emitted} (h : Inv S I data st [] E) :
    (leafSamples st).flatten.Perm (List.range data.length) := by
  obtain ⟨ch, h1, h2⟩ := h.segs
  have h3 : (leafSamples st).Perm (ch.map fun s => slice st.indices s.1 s.2) := by
    unfold leafSamples
    rw [h.samples]
    exact (List.Perm.map _ h2)
  refine h3.flatten.trans ?_
  rw [flatten_slices _ h1]
  have : slice st.indices 0 data.length = st.indices := by
    rw [slice, List.drop_zero, Nat.sub_zero, ← h.length, List.take_length]
  rw [this]
  exact h.perm

theorem weight_eq {st : State} {E : List Emitted} (h : Inv S I data st [] E) {e : Emitted} (he : e ∈ E) :
    (LogP.log (((e.stop - e.start : ℕ) : ℝ) / data.length)).exp = (e.idx.length : ℝ) / data.length := by
  rw [LogP.exp_log (by positivity), (emitted_bounds h he).2.2]

theorem minSamples_eq (S : Settings) (total : ℕ) : requiredSamples S.minSamplesLeaf total = S.minSamples total := by
  unfold requiredSamples Settings.minSamples
  by_cases h : 1 ≤ S.minSamplesLeaf
  · rw [if_pos h, if_neg (not_lt.2 h)]
  · rw [if_neg h, if_pos (not_le.1 h)]

/-- C41.  Learning ends without an error.  The samples of the leaves are a partition of all samples; every leaf has some, and at
least `min_samples_leaf` unless the data has less.  The circuit is a mixture of products, one per leaf and in the same order,
weighted with the shares of the samples; the weights sum to one. -/
theorem C41_fit (h : TreeInput S data) (hI : SplitContract I S.minImprovement (requiredSamples S.minSamplesLeaf data.length)) :
    ∃ st r, fit S I data [] = ([], .ok st) ∧ Layered st.circuit r ∧ st.circuit.kind? r = some .sum ∧
      (leafSamples st).flatten.Perm (List.range data.length) ∧
      (∀ l ∈ leafSamples st, l ≠ [] ∧ (requiredSamples S.minSamplesLeaf data.length ≤ data.length →
        requiredSamples S.minSamplesLeaf data.length ≤ l.length)) ∧
      List.Forall₂ (fun l e => st.circuit.kind? e.dst = some .prod ∧ linWeight e = (l.length : ℝ) / data.length)
        (leafSamples st) (st.circuit.outEdges r) ∧
      ((st.circuit.outEdges r).map linWeight).sum = 1 := by
  obtain ⟨st, E, hfit, hE⟩ := fit_ok h (minSamples_eq S data.length ▸ hI)
  have hp := partition_of hE
  obtain ⟨hD, hpart, hk⟩ := denotes_tree (emitted_ne_nil hE) (fun e he => ⟨_, (hE.leaf e he).2⟩) data.length
  rw [← hE.circuit] at hD hpart hk
  have hpair : List.Forall₂ (fun l e => st.circuit.kind? e.dst = some .prod ∧ linWeight e = (l.length : ℝ) / data.length)
      (leafSamples st) (st.circuit.outEdges 0) := by
    rw [leafSamples_eq hE, List.forall₂_map_left_iff]
    refine (forall₂_mem hpart).imp ?_
    intro e e' ⟨he, hpe⟩
    refine ⟨?_, ?_⟩
    · rw [hpe.kind]
      exact (hE.leaf e he).2.kind
    · rw [linWeight, hpe.weight]
      exact weight_eq hE he
  refine ⟨st, 0, hfit, hD.layered, hk, hp, ?_, hpair, ?_⟩
  · intro l hl
    rw [minSamples_eq]
    rw [leafSamples_eq hE] at hl
    obtain ⟨e, he, rfl⟩ := List.mem_map.1 hl
    obtain ⟨h1, h2, h3⟩ := emitted_bounds hE he
    refine ⟨fun h0 => ?_, fun hm => ?_⟩
    · rw [h0, List.length_nil] at h3
      omega
    · rw [h3]
      rcases hE.min (e.start, e.stop) (by simpa using ⟨e, he, rfl, rfl⟩) with h4 | h4
      · simp only [Prod.mk.injEq] at h4
        rw [h4.1, h4.2]
        exact hm
      · exact h4
  · have h1 : (st.circuit.outEdges 0).map linWeight = (leafSamples st).map fun l => (l.length : ℝ) / data.length := by
      have := hpair
      generalize leafSamples st = L at this
      generalize st.circuit.outEdges 0 = O at this
      induction this with
      | nil => rfl
      | cons h _ ih => rw [List.map_cons, List.map_cons, ih, h.2]
    have hlen : (0 : ℝ) < data.length := by exact_mod_cast List.length_pos_iff.2 h.nonempty
    have h2 := hp.length_eq
    rw [List.length_flatten, List.length_range] at h2
    rw [h1]
    simp only [div_eq_mul_inv]
    rw [List.sum_map_mul_right, ← div_eq_mul_inv, div_eq_one_iff_eq hlen.ne']
    rw [← h2]
    generalize leafSamples st = L
    induction L with
    | nil => simp
    | cons a L ih => simp [ih]

theorem column_likelihood {cap : ℝ} {rows : List Row} {ci : Column × ℕ} {g : Circuit} {r : Node} {F : (Leaf → ℝ) → ℝ}
    (h : ColumnResult cap rows ci g r F) (p : Var → ℝ) : ColumnLikelihood cap rows ci p (F fun d => leafDensity d (p d.var)) := by
  refine ⟨g, r, h.eq, fun m => ?_⟩
  obtain ⟨sc, hs, _, _⟩ := h.denotes.scope
  obtain ⟨f, hf⟩ := (C01_formula_exists_unique h.denotes.layered p).1
  obtain ⟨_, _, _, _, hl⟩ := C01_loglikelihood h.denotes.layered hs h.denotes.valid p hf m
  rw [hl, h.denotes.value _ f hf]

theorem tree_likelihood {st : State} {E : List Emitted} (hE : Inv S I data st [] E) (p : Var → ℝ) (m : Mem LogP) :
    st.circuit.likelihood m p = .ok ((E.map fun e => (e.idx.length : ℝ) / data.length *
      (S.columns.zipIdx.map fun ci => e.Fs ci fun d => leafDensity d (p d.var)).prod).sum) := by
  obtain ⟨hD, _, _⟩ := denotes_tree (emitted_ne_nil hE) (fun e he => ⟨_, (hE.leaf e he).2⟩) data.length
  rw [← hE.circuit] at hD
  obtain ⟨sc, hs, _, _⟩ := hD.scope
  obtain ⟨f, hf⟩ := (C01_formula_exists_unique hD.layered p).1
  obtain ⟨_, _, _, _, hl⟩ := C01_loglikelihood hD.layered hs hD.valid p hf m
  rw [hl, hD.value _ f hf]
  congr 2
  refine List.map_congr_left fun e he => ?_
  rw [weight_eq hE he]

/-- C41, the density: the likelihood of a point is the sum over the leaves of the share of the samples times the product of the
likelihoods of the distributions fitted to the columns of these samples. -/
theorem C41_likelihood (h : TreeInput S data) (hI : SplitContract I S.minImprovement (requiredSamples S.minSamplesLeaf data.length)) {q : List Task}
    {st : State} (hfit : fit S I data [] = (q, .ok st)) (p : Var → ℝ) :
    ∃ Q : List (Column × ℕ → ℝ),
      List.Forall₂ (fun l Q => ∀ ci ∈ S.columns.zipIdx, ColumnLikelihood S.cap (l.map fun i => data.getD i default) ci p (Q ci))
        (leafSamples st) Q ∧
      ∀ m, st.circuit.likelihood m p = .ok (((leafSamples st).zip Q).map fun x =>
        (x.1.length : ℝ) / data.length * (S.columns.zipIdx.map x.2).prod).sum := by
  obtain ⟨st', E, hfit', hE⟩ := fit_ok h (minSamples_eq S data.length ▸ hI)
  rw [hfit] at hfit'
  simp only [Prod.mk.injEq, Except.ok.injEq] at hfit'
  obtain ⟨rfl, rfl⟩ := hfit'
  refine ⟨E.map fun e ci => e.Fs ci fun d => leafDensity d (p d.var), ?_, fun m => ?_⟩
  · rw [leafSamples_eq hE, List.forall₂_map_left_iff, List.forall₂_map_right_iff, List.forall₂_same]
    intro e he ci hci
    obtain ⟨g, r, hr⟩ := (hE.leaf e he).2.parts ci hci
    exact column_likelihood hr p
  · rw [tree_likelihood hE p m, leafSamples_eq hE, List.zip_map', List.map_map]
    rfl

/-- C41, the mass: if the masses of all leaf distributions are one, so is the mass of the tree. -/
theorem C41_mass (h : TreeInput S data) (hI : SplitContract I S.minImprovement (requiredSamples S.minSamplesLeaf data.length)) {q : List Task}
    {st : State} (hfit : fit S I data [] = (q, .ok st)) {r : Node} (hr : st.circuit.root = .ok r) {f : Node → ℝ}
    (hf : CircuitValue st.circuit (fun _ => 1) f) : f r = 1 := by
  obtain ⟨st', E, hfit', hE⟩ := fit_ok h (minSamples_eq S data.length ▸ hI)
  rw [hfit] at hfit'
  simp only [Prod.mk.injEq, Except.ok.injEq] at hfit'
  obtain ⟨rfl, rfl⟩ := hfit'
  obtain ⟨hD, _, _⟩ := denotes_tree (emitted_ne_nil hE) (fun e he => ⟨_, (hE.leaf e he).2⟩) data.length
  rw [← hE.circuit] at hD
  have hr0 := hD.layered.root
  rw [hr] at hr0
  injection hr0 with hr0
  subst hr0
  rw [hD.value _ f hf]
  have h1 : ∀ e ∈ E, (LogP.log (((e.stop - e.start : ℕ) : ℝ) / data.length)).exp *
      (S.columns.zipIdx.map fun ci => e.Fs ci fun _ => 1).prod = (e.idx.length : ℝ) * (data.length : ℝ)⁻¹ := by
    intro e he
    rw [weight_eq hE he, List.prod_eq_one, mul_one, div_eq_mul_inv]
    intro a ha
    obtain ⟨ci, hci, rfl⟩ := List.mem_map.1 ha
    obtain ⟨g, r, hr⟩ := (hE.leaf e he).2.parts ci hci
    exact hr.unit
  have hlen : (0 : ℝ) < data.length := by exact_mod_cast List.length_pos_iff.2 h.nonempty
  rw [List.map_congr_left h1, List.sum_map_mul_right, ← div_eq_mul_inv, div_eq_one_iff_eq hlen.ne']
  have h2 := (partition_of hE).length_eq
  rw [leafSamples_eq hE, List.length_flatten, List.length_range, List.map_map] at h2
  rw [← h2, Nat.cast_list_sum, List.map_map]
  rfl

/-! ### C60 -/

/-- C60, full: every sample has a positive likelihood under the tree that was learned from it. -/
def C60_full : Prop :=
  ∀ (S : Settings) (I : Impurity) (data : List Row), TreeInput S data →
    SplitContract I S.minImprovement (requiredSamples S.minSamplesLeaf data.length) → ∀ q st, fit S I data [] = (q, .ok st) →
    ∀ x ∈ data, ∀ p : Var → ℝ, (∀ ci ∈ S.columns.zipIdx, Agrees p x ci) →
      ∃ l, 0 < l ∧ ∀ m, st.circuit.likelihood m p = .ok l

/-- C60 for samples whose integer entries are their own `hash` (not `-1`, and absolute values less than `2^61 - 1`). -/
theorem C60_positive_partial (h : TreeInput S data) (hI : SplitContract I S.minImprovement (requiredSamples S.minSamplesLeaf data.length))
    {q : List Task} {st : State} (hfit : fit S I data [] = (q, .ok st)) {x : Row} (hx : x ∈ data) {p : Var → ℝ}
    (hp : ∀ ci ∈ S.columns.zipIdx, Agrees p x ci) (hh : ∀ ci ∈ S.columns.zipIdx, HashesToItself x ci) :
    ∃ l, 0 < l ∧ ∀ m, st.circuit.likelihood m p = .ok l := by
  obtain ⟨st', E, hfit', hE⟩ := fit_ok h (minSamples_eq S data.length ▸ hI)
  rw [hfit] at hfit'
  simp only [Prod.mk.injEq, Except.ok.injEq] at hfit'
  obtain ⟨rfl, rfl⟩ := hfit'
  refine ⟨_, ?_, fun m => tree_likelihood hE p m⟩
  have hlen : (0 : ℝ) < data.length := by exact_mod_cast List.length_pos_iff.2 h.nonempty
  obtain ⟨i, hi, hxi⟩ := List.mem_iff_getElem.1 hx
  have hmem : i ∈ (leafSamples st).flatten := (partition_of hE).mem_iff.2 (by simpa using hi)
  obtain ⟨l, hl, hil⟩ := List.mem_flatten.1 hmem
  rw [leafSamples_eq hE] at hl
  obtain ⟨e, he, rfl⟩ := List.mem_map.1 hl
  have hnn' : ∀ e ∈ E, ∀ ci ∈ S.columns.zipIdx, 0 ≤ e.Fs ci fun d => leafDensity d (p d.var) := by
    intro e he ci hci
    obtain ⟨g, r, hr⟩ := (hE.leaf e he).2.parts ci hci
    exact density_nonneg hr.denotes p
  have hxe : x ∈ rowsOf data e.idx := by
    refine List.mem_map.2 ⟨i, hil, ?_⟩
    rw [List.getD_eq_getElem _ _ hi, hxi]
  have hidx : (0 : ℝ) < e.idx.length := by exact_mod_cast List.length_pos_of_mem hil
  refine lt_of_lt_of_le ?_ (List.single_le_sum ?_ _ (List.mem_map.2 ⟨e, he, rfl⟩))
  · refine mul_pos (div_pos hidx hlen) (List.prod_pos ?_)
    intro a ha
    obtain ⟨ci, hci, rfl⟩ := List.mem_map.1 ha
    obtain ⟨g, r, hr⟩ := (hE.leaf e he).2.parts ci hci
    exact hr.pos x hxe p (hp ci hci) (hh ci hci)
  · intro a ha
    obtain ⟨e', he', rfl⟩ := List.mem_map.1 ha
    refine mul_nonneg (by positivity) (List.prod_nonneg ?_)
    intro a ha
    obtain ⟨ci, hci, rfl⟩ := List.mem_map.1 ha
    exact hnn' e' he' ci hci

/-! ### Concrete inputs -/

/-- A row with one integer. -/
def row (k : ℤ) : Row := ⟨fun _ => 0, fun _ => k⟩

/-- One integer variable, at least one sample per leaf, any positive gain, at most one leaf. -/
noncomputable def oneInteger (depth : EReal) : Settings := ⟨[.integer 0], 1, 0, depth, 1, 1⟩

/-- An impurity that splits off the first sample. -/
noncomputable def firstSample : Impurity := fun _ indices start stop => ⟨if start + 2 ≤ stop then 1 else -1, 0, indices⟩

theorem requiredSamples_one (n : ℕ) : requiredSamples 1 n = 1 := if_pos le_rfl

theorem firstSample_contract : SplitContract firstSample 0 1 where
  perm := by
    intro calls indices start stop h1 h2
    refine ⟨slice indices start stop, ?_, List.Perm.refl _⟩
    simp only [firstSample, slice]
    rw [List.append_assoc]
    conv_lhs => rw [← List.take_append_drop start indices]
    congr 1
    conv_lhs => rw [← List.take_append_drop (stop - start) (indices.drop start)]
    rw [List.drop_drop]
    congr 2
    omega
  pos := by
    intro calls indices start stop h1 h2 h3
    simp only [firstSample] at h3 ⊢
    by_cases h : start + 2 ≤ stop
    · refine ⟨by omega, by norm_num, ?_⟩
      exact_mod_cast (by omega : 1 ≤ stop - (start + 0 + 1))
    · rw [if_neg h] at h3
      norm_num at h3

theorem oneInteger_contract (depth : EReal) (n : ℕ) :
    SplitContract firstSample (oneInteger depth).minImprovement (requiredSamples (oneInteger depth).minSamplesLeaf n) :=
  (requiredSamples_one n).symm ▸ firstSample_contract

theorem oneInteger_input (depth : EReal) {data : List Row} (h : data ≠ []) : TreeInput (oneInteger depth) data where
  nonempty := h
  distinct := by simp [oneInteger]
  columns := by
    intro ci hci
    simp only [oneInteger, List.zipIdx_cons, List.zipIdx_nil, List.mem_singleton] at hci
    subst hci
    trivial
  cap := one_pos

/-- The hypotheses of C41 and C60 are met by three rows of one integer. -/
example : ∃ st q, fit (oneInteger ⊤) firstSample [row 3, row 5, row 3] [] = (q, .ok st) ∧
    ∃ l, 0 < l ∧ ∀ m, st.circuit.likelihood m (fun _ => 5) = .ok l := by
  have h := oneInteger_input ⊤ (data := [row 3, row 5, row 3]) (by simp)
  obtain ⟨st, r, hfit, _⟩ := C41_fit h (oneInteger_contract ⊤ _)
  refine ⟨st, [], hfit, C60_positive_partial h (oneInteger_contract ⊤ _) hfit (x := row 5) (by simp) ?_ ?_⟩
  · intro ci hci
    simp only [oneInteger, List.zipIdx_cons, List.zipIdx_nil, List.mem_singleton] at hci
    subst hci
    simp [Agrees, row]
  · intro ci hci
    simp only [oneInteger, List.zipIdx_cons, List.zipIdx_nil, List.mem_singleton] at hci
    subst hci
    simp [HashesToItself, row]

/-- A tree that was learned from the integer `-1` gives it the likelihood zero. -/
theorem C60_full_false : ¬ C60_full := by
  intro hfull
  have h := oneInteger_input ⊤ (data := [row (-1)]) (by simp)
  obtain ⟨st, r, hfit, _, _, hpart, hne, _⟩ := C41_fit h (oneInteger_contract ⊤ _)
  obtain ⟨l, hl, hlik⟩ := hfull _ _ _ h (oneInteger_contract ⊤ _) _ _ hfit (row (-1)) (by simp) (fun _ => -1) (by
    intro ci hci
    simp only [oneInteger, List.zipIdx_cons, List.zipIdx_nil, List.mem_singleton] at hci
    subst hci
    simp [Agrees, row])
  obtain ⟨Q, hQ, hsum⟩ := C41_likelihood h (oneInteger_contract ⊤ _) hfit (fun _ => -1)
  have h1 := hlik freshMem
  rw [hsum freshMem] at h1
  injection h1 with h1
  have hd : Leaf.fitDiscrete [-1] = [(-2, 1)] := by
    have hp : pyHash (-1) = -2 := by decide
    rw [Leaf.fitDiscrete, npUnique_single, List.foldl_cons, List.foldl_nil, hp, Dict.set_new (by simp)]
    simp
  have hz : ∀ x ∈ (leafSamples st).zip Q, ((oneInteger ⊤).columns.zipIdx.map x.2).prod = 0 := by
    intro x hx
    have hxl := (List.of_mem_zip hx).1
    have hx1 : x.1 = [0] := by
      have hall : ∀ i ∈ x.1, i = 0 := by
        intro i hi
        have := hpart.mem_iff.1 (List.mem_flatten.2 ⟨x.1, hxl, hi⟩)
        simpa using this
      have hnd : x.1.Nodup := by
        have h2 := hpart.symm.nodup (List.nodup_range)
        exact (List.nodup_flatten.1 h2).1 x.1 hxl
      have h3 := List.eq_replicate_of_mem hall
      rw [h3] at hnd
      have h4 : x.1.length ≤ 1 := List.nodup_replicate.1 hnd
      have h5 : 0 < x.1.length := List.length_pos_iff.2 (hne x.1 hxl).1
      rw [h3, show x.1.length = 1 by omega]
      rfl
    obtain ⟨g, r, hg, hlik⟩ := (List.forall₂_iff_zip.1 hQ).2 hx (.integer 0, 0) (by simp [oneInteger])
    rw [hx1] at hg
    have hg' : columnCircuit (oneInteger ⊤).cap [row (-1)] (.integer 0) 0 = .ok (newUnit 0 (.leaf (.integer 0 [(-2, 1)])), 0) := by
      rw [← hd]
      rfl
    have hD := denotes_leaf 0 (d := .integer 0 [(-2, 1)]) ⟨by simp, by simp⟩
    have hR : ColumnLikelihood (oneInteger ⊤).cap [row (-1)] (.integer 0, 0) (fun _ => -1) 0 := by
      have := column_likelihood (cap := (oneInteger ⊤).cap) (rows := [row (-1)]) (ci := (.integer 0, 0))
        (F := fun ℓ => ℓ (.integer 0 [(-2, 1)])) ⟨hg', hD, rfl, ?_⟩ (fun _ => -1)
      · convert this using 1
        simp [leafDensity]
      · intro x hx p hp hh
        simp only [List.mem_singleton] at hx
        subst hx
        exact absurd rfl hh.1
    obtain ⟨g', r', hg'', hlik'⟩ := hR
    have : columnCircuit (oneInteger ⊤).cap [row (-1)] (.integer 0) 0 = .ok (g, r) := hg
    rw [hg''] at this
    simp only [Except.ok.injEq, Prod.mk.injEq] at this
    have h6 := hlik freshMem
    rw [← this.1, hlik' freshMem] at h6
    injection h6 with h6
    simp [oneInteger, ← h6]
  have : (((leafSamples st).zip Q).map fun x => (x.1.length : ℝ) / ([row (-1)] : List Row).length *
      ((oneInteger ⊤).columns.zipIdx.map x.2).prod).sum = 0 := by
    refine List.sum_eq_zero ?_
    intro a ha
    obtain ⟨x, hx, rfl⟩ := List.mem_map.1 ha
    rw [hz x hx, mul_zero]
  rw [this] at h1
  exact hl.ne h1

/-! ### C61 -/

/-- C61, full: the number of leaves is bounded by `2 ^ max_depth` and by `max_leaves`, and with an unlimited depth a leaf is not
split only if it is too small or the impurity reports no gain above the threshold. -/
def C61_full : Prop :=
  ∀ (S : Settings) (I : Impurity) (data : List Row), TreeInput S data →
    SplitContract I S.minImprovement (requiredSamples S.minSamplesLeaf data.length) → ∀ q st, fit S I data [] = (q, .ok st) →
    (∀ D : ℕ, S.maxDepth = ((D : ℝ) : EReal) → (leafSamples st).length ≤ 2 ^ D) ∧
    (S.maxDepth = ⊤ → ∀ s ∈ st.samples, ((s.2 - s.1 : ℕ) : ℝ) < 2 * requiredSamples S.minSamplesLeaf data.length ∨
      ∃ calls indices, (I calls indices s.1 s.2).gain ≤ S.minImprovement) ∧
    (((leafSamples st).length : ℝ) : EReal) ≤ S.maxLeaves

/-- C61 without the bound on the number of leaves, which the code does not look at. -/
theorem C61_limits_partial (h : TreeInput S data) (hI : SplitContract I S.minImprovement (requiredSamples S.minSamplesLeaf data.length))
    {q : List Task} {st : State} (hfit : fit S I data [] = (q, .ok st)) :
    (∀ D : ℕ, S.maxDepth = ((D : ℝ) : EReal) → (leafSamples st).length ≤ 2 ^ D) ∧
    (S.maxDepth = ⊤ → ∀ s ∈ st.samples, ((s.2 - s.1 : ℕ) : ℝ) < 2 * requiredSamples S.minSamplesLeaf data.length ∨
      ∃ calls indices, (I calls indices s.1 s.2).gain ≤ S.minImprovement) := by
  rw [minSamples_eq]
  obtain ⟨st', E, hfit', hE⟩ := fit_ok h (minSamples_eq S data.length ▸ hI)
  rw [hfit] at hfit'
  simp only [Prod.mk.injEq, Except.ok.injEq] at hfit'
  obtain ⟨rfl, rfl⟩ := hfit'
  constructor
  · intro D hD
    have hd := (hE.depth D hD).2
    have hk := hE.kraft
    rw [List.map_nil, List.sum_nil, zero_add] at hk
    rw [leafSamples_eq hE, List.length_map]
    have h1 : (E.length : ℝ) * (1 / 2) ^ D ≤ 1 := by
      refine le_trans ?_ hk.le
      have h2 : (E.map fun _ => (1 / 2 : ℝ) ^ D).sum ≤ (E.map fun e => (1 / 2 : ℝ) ^ e.depth).sum :=
        List.sum_le_sum fun e he => pow_le_pow_of_le_one (by norm_num) (by norm_num) (hd e he)
      simpa using h2
    have h3 : (E.length : ℝ) ≤ 2 ^ D := by
      rw [one_div, inv_pow, ← div_eq_mul_inv, div_le_one (by positivity)] at h1
      exact h1
    exact_mod_cast h3
  · intro hD s hs
    rw [hE.samples] at hs
    obtain ⟨e, he, rfl⟩ := List.mem_map.1 hs
    rcases hE.stopped e he with h1 | h1
    · rw [hD] at h1
      exact absurd (top_le_iff.1 h1) (EReal.coe_ne_top _)
    · exact h1

/-- Two samples with `max_leaves = 1` give two leaves. -/
theorem C61_full_false : ¬ C61_full := by
  intro hfull
  have h := oneInteger_input ⊤ (data := [row 0, row 1]) (by simp)
  have hC := oneInteger_contract ⊤ ([row 0, row 1] : List Row).length
  obtain ⟨st, r, hfit, _, _, hpart, hne, _⟩ := C41_fit h hC
  obtain ⟨_, hstop, hmax⟩ := hfull _ _ _ h hC _ _ hfit
  have hmax : (leafSamples st).length ≤ 1 := by
    have h1 : (((leafSamples st).length : ℝ) : EReal) ≤ ((1 : ℝ) : EReal) := hmax
    exact_mod_cast EReal.coe_le_coe_iff.1 h1
  have hflat := hpart.length_eq
  obtain ⟨l, hl⟩ : ∃ l, leafSamples st = [l] := by
    match hL : leafSamples st with
    | [] => rw [hL] at hflat; simp at hflat
    | [l] => exact ⟨l, rfl⟩
    | a :: b :: L => rw [hL] at hmax; simp at hmax
  rw [hl] at hflat
  obtain ⟨s, hs⟩ : ∃ s, st.samples = [s] := by
    have : st.samples.length = 1 := by
      have := congrArg List.length hl
      simpa [leafSamples] using this
    exact List.length_eq_one_iff.1 this
  have hlen : l.length ≤ s.2 - s.1 := by
    have hl' := hl
    rw [leafSamples, hs, List.map_cons, List.map_nil] at hl'
    injection hl' with hl' _
    rw [← hl', List.length_take]
    exact min_le_left _ _
  have hl2 : l.length = 2 := by simpa using hflat
  rcases hstop rfl s (by simp [hs]) with h1 | ⟨c, ix, h1⟩
  · rw [show (oneInteger ⊤).minSamplesLeaf = 1 from rfl, requiredSamples_one] at h1
    have : s.2 - s.1 < 2 := by
      have h1' : ((s.2 - s.1 : ℕ) : ℝ) < (2 : ℕ) := by simpa using h1
      exact_mod_cast h1'
    omega
  · simp only [firstSample, oneInteger] at h1
    rw [if_pos (by omega)] at h1
    norm_num at h1

/-! ### C59 -/

/-- C59, full: what is learned does not depend on the trees that were learned before. -/
def C59_full : Prop :=
  ∀ (before : List (Settings × Impurity × List Row)) (S : Settings) (I : Impurity) (data : List Row), TreeInput S data →
    SplitContract I S.minImprovement (requiredSamples S.minSamplesLeaf data.length) →
    (fit S I data (history before [])).2 = (fit S I data []).2

theorem loop_queue {total : ℕ} : ∀ {fuel : ℕ} {st : State} {q : List Task} {st' : State},
    (loop S I total fuel st q).2 = .ok st' → (loop S I total fuel st q).1 = []
  | _, st, [], _, _ => by simp [loop]
  | 0, st, t :: q, st', h => by simp [loop] at h
  | fuel + 1, st, t :: q, st', h => by
    simp only [loop] at h ⊢
    cases hc : c45 S I total st t with
    | error e => rw [hc] at h; simp at h
    | ok x =>
      rw [hc] at h
      exact loop_queue h

theorem history_nil : ∀ {before : List (Settings × Impurity × List Row)},
    (∀ x ∈ before, ∃ st, (fit x.1 x.2.1 x.2.2 []).2 = .ok st) → history before [] = []
  | [], _ => rfl
  | (S, I, data) :: l, h => by
    obtain ⟨st, hst⟩ := h (S, I, data) (by simp)
    rw [history, show (fit S I data []).1 = [] from loop_queue hst]
    exact history_nil fun x hx => h x (by simp [hx])

/-- C59 for histories in which no fit raised an exception. -/
theorem C59_after_success_partial {before : List (Settings × Impurity × List Row)}
    (hb : ∀ x ∈ before, ∃ st, (fit x.1 x.2.1 x.2.2 []).2 = .ok st) (S : Settings) (I : Impurity) (data : List Row) :
    (fit S I data (history before [])).2 = (fit S I data []).2 := by
  rw [history_nil hb]

/-- Two successful fits before. -/
example : ∀ x ∈ [(oneInteger ⊤, firstSample, [row 3, row 5]), (oneInteger 0, firstSample, [row 1])],
    ∃ st, (fit x.1 x.2.1 x.2.2 []).2 = .ok st := by
  intro x hx
  rcases List.mem_pair.1 hx with rfl | rfl
  · obtain ⟨st, r, hfit, _⟩ := C41_fit (oneInteger_input ⊤ (data := [row 3, row 5]) (by simp)) (oneInteger_contract ⊤ _)
    exact ⟨st, by rw [hfit]⟩
  · obtain ⟨st, r, hfit, _⟩ := C41_fit (oneInteger_input 0 (data := [row 1]) (by simp)) (oneInteger_contract 0 _)
    exact ⟨st, by rw [hfit]⟩

/-- A variable that is neither continuous nor symbolic nor integer. -/
noncomputable def unsupported : Settings := ⟨[.other 0], 1, 0, ⊤, ⊤, 1⟩

/-- The failed fit leaves the second half of its data in the queue. -/
theorem failed_fit : fit unsupported firstSample [row 0, row 1] [] = ([⟨[row 0, row 1], 1, 2, 1⟩], .error .valueError) := by
  have hmin : unsupported.minSamples 2 = 1 := (minSamples_eq unsupported 2).symm.trans (requiredSamples_one 2)
  have h1 : c45 unsupported firstSample 2 ⟨[0, 1], 0, newUnit 0 .sum, []⟩ ⟨[row 0, row 1], 0, 2, 0⟩
      = .ok (⟨[0, 1], 1, newUnit 0 .sum, []⟩, [⟨[row 0, row 1], 0, 1, 1⟩, ⟨[row 0, row 1], 1, 2, 1⟩]) := by
    have hn : ¬ (((0 : ℕ) : EReal) ≥ unsupported.maxDepth ∨ ((2 - 0 : ℕ) : ℝ) < 2 * unsupported.minSamples 2) := by
      rw [hmin]
      simp [unsupported]
    simp only [c45, bind, Except.bind, (layered_newUnit (D := Leaf) 0 .sum).root, if_neg hn]
    have hg : ¬ (1 : ℝ) ≤ unsupported.minImprovement := by simp [unsupported]
    simp only [firstSample, if_pos (show 0 + 2 ≤ 2 by norm_num), if_neg hg]
  have h2 : c45 unsupported firstSample 2 ⟨[0, 1], 1, newUnit 0 .sum, []⟩ ⟨[row 0, row 1], 0, 1, 1⟩ = .error .valueError := by
    have hn : ((1 : ℕ) : EReal) ≥ unsupported.maxDepth ∨ ((1 - 0 : ℕ) : ℝ) < 2 * unsupported.minSamples 2 := by
      rw [hmin]
      right
      norm_num
    simp only [c45, bind, Except.bind, (layered_newUnit (D := Leaf) 0 .sum).root, if_pos hn]
    rfl
  have h3 : fit unsupported firstSample [row 0, row 1] []
      = loop unsupported firstSample 2 3 ⟨[0, 1], 0, newUnit 0 .sum, []⟩ [⟨[row 0, row 1], 0, 2, 0⟩] := rfl
  rw [h3]
  simp only [loop, h1, List.nil_append, h2]

theorem leaf_step {total n : ℕ} {st : State} {t : Task} {E : List Emitted} (hc : st.circuit = tree n E)
    (hE : ∀ e ∈ E, ∃ rows, LeafResult S.cap S.columns rows e.circuit e.Fs)
    (hn : (t.depth : EReal) ≥ S.maxDepth) (hl : t.data.length = n) (h0 : n ≠ 0)
    {rows : List Row} (hrows : gather t.data (slice st.indices t.start t.stop) = .ok rows) {g : Circuit}
    {Fs : Column × ℕ → (Leaf → ℝ) → ℝ} (hg : LeafResult S.cap S.columns rows g Fs) :
    c45 S I total st t = .ok ({ st with
      circuit := tree n (E ++ [⟨t.start, t.stop, t.depth, slice st.indices t.start t.stop, g, Fs⟩])
      samples := st.samples ++ [(t.start, t.stop)] }, []) := by
  have hroot : (tree n E).root = .ok 0 := by
    by_cases h : E = []
    · subst h
      exact (layered_newUnit 0 .sum).root
    · exact (denotes_tree h hE n).1.layered.root
  simp only [c45, bind, Except.bind, hroot, if_pos (show (t.depth : EReal) ≥ S.maxDepth ∨ _ from .inl hn), hrows, hg.eq, hl, if_neg h0,
    tree_append, hc]

/-- After a failed fit the next tree has a leaf for the data of the other tree: its leaves have the samples `[1]` and `[0, 1]`. -/
theorem C59_stale_leaf : ∃ st, (fit (oneInteger 0) firstSample [row 7, row 8]
    (history [(unsupported, firstSample, [row 0, row 1])] [])).2 = .ok st ∧ leafSamples st = [[1], [0, 1]] ∧
    ((st.circuit.outEdges 0).map linWeight).sum = 3 / 2 := by
  have hq : history [(unsupported, firstSample, [row 0, row 1])] [] = [⟨[row 0, row 1], 1, 2, 1⟩] := by
    rw [history, failed_fit]
    rfl
  have hcols : ∀ rows : List Row, ∀ ci ∈ (oneInteger 0).columns.zipIdx, ColumnFits rows ci := by
    intro rows ci hci
    simp only [oneInteger, List.zipIdx_cons, List.zipIdx_nil, List.mem_singleton] at hci
    subst hci
    trivial
  obtain ⟨g1, F1, hg1⟩ := exists_leaf (cap := (oneInteger 0).cap) one_pos (columns := (oneInteger 0).columns) (by simp [oneInteger])
    (rows := [row 1]) (by simp) (hcols _)
  obtain ⟨g2, F2, hg2⟩ := exists_leaf (cap := (oneInteger 0).cap) one_pos (columns := (oneInteger 0).columns) (by simp [oneInteger])
    (rows := [row 7, row 8]) (by simp) (hcols _)
  have h1 := leaf_step (S := oneInteger 0) (I := firstSample) (total := 2) (n := 2) (st := ⟨[0, 1], 0, newUnit 0 .sum, []⟩)
    (t := ⟨[row 0, row 1], 1, 2, 1⟩) (E := []) rfl (by simp) (by simp [oneInteger]) rfl (by norm_num)
    (rows := [row 1]) rfl hg1
  have h2 := leaf_step (S := oneInteger 0) (I := firstSample) (total := 2) (n := 2)
    (st := ⟨[0, 1], 0, tree 2 [⟨1, 2, 1, [1], g1, F1⟩], [(1, 2)]⟩)
    (t := ⟨[row 7, row 8], 0, 2, 0⟩) (E := [⟨1, 2, 1, [1], g1, F1⟩]) rfl (by
      intro e he
      rw [List.mem_singleton.1 he]
      exact ⟨_, hg1⟩) (by simp [oneInteger]) rfl (by norm_num)
    (rows := [row 7, row 8]) rfl hg2
  have h3 : fit (oneInteger 0) firstSample [row 7, row 8] [⟨[row 0, row 1], 1, 2, 1⟩]
      = loop (oneInteger 0) firstSample 2 4 ⟨[0, 1], 0, newUnit 0 .sum, []⟩
          [⟨[row 0, row 1], 1, 2, 1⟩, ⟨[row 7, row 8], 0, 2, 0⟩] := rfl
  have h1' : c45 (oneInteger 0) firstSample 2 ⟨[0, 1], 0, newUnit 0 .sum, []⟩ ⟨[row 0, row 1], 1, 2, 1⟩
      = .ok (⟨[0, 1], 0, tree 2 [⟨1, 2, 1, [1], g1, F1⟩], [(1, 2)]⟩, []) := h1
  have h2' : c45 (oneInteger 0) firstSample 2 ⟨[0, 1], 0, tree 2 [⟨1, 2, 1, [1], g1, F1⟩], [(1, 2)]⟩ ⟨[row 7, row 8], 0, 2, 0⟩
      = .ok (⟨[0, 1], 0, tree 2 [⟨1, 2, 1, [1], g1, F1⟩, ⟨0, 2, 0, [0, 1], g2, F2⟩], [(1, 2), (0, 2)]⟩, []) := h2
  refine ⟨⟨[0, 1], 0, tree 2 [⟨1, 2, 1, [1], g1, F1⟩, ⟨0, 2, 0, [0, 1], g2, F2⟩], [(1, 2), (0, 2)]⟩, ?_, ?_, ?_⟩
  · rw [hq, h3]
    simp only [loop, h1', List.append_nil, h2']
  · rfl
  · obtain ⟨_, hpart, _⟩ := denotes_tree (S := oneInteger 0) (E := [⟨1, 2, 1, [1], g1, F1⟩, ⟨0, 2, 0, [0, 1], g2, F2⟩]) (by simp) (by
      intro e he
      rcases List.mem_pair.1 he with rfl | rfl
      · exact ⟨_, hg1⟩
      · exact ⟨_, hg2⟩) 2
    simp only
    generalize (tree 2 [⟨1, 2, 1, [1], g1, F1⟩, ⟨0, 2, 0, [0, 1], g2, F2⟩]).outEdges 0 = O at hpart
    rcases O with _ | ⟨a, _ | ⟨b, _ | ⟨c, O⟩⟩⟩ <;> simp only [List.forall₂_cons, List.forall₂_nil_left_iff, List.forall₂_nil_right_iff,
      reduceCtorEq, and_false, and_true] at hpart
    simp only [List.map_cons, List.map_nil, List.sum_cons, List.sum_nil, linWeight, hpart.1.weight, hpart.2.weight]
    rw [LogP.exp_log (by positivity), LogP.exp_log (by positivity)]
    norm_num

/-- The full property is false. -/
theorem C59_full_false : ¬ C59_full := by
  intro hfull
  have h := oneInteger_input 0 (data := [row 7, row 8]) (by simp)
  obtain ⟨st, hst, hsam, _⟩ := C59_stale_leaf
  obtain ⟨st', r, hfit, _, _, hpart, _⟩ := C41_fit h (oneInteger_contract 0 _)
  rw [hfull _ _ _ _ h (oneInteger_contract 0 _), hfit] at hst
  injection hst with hst
  rw [hst, hsam] at hpart
  have := hpart.length_eq
  simp at this

end PM.Props
