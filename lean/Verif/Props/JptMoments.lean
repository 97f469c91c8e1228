import Verif.Learn.JptMomentsLemmas
import Verif.Props.JptMarginal
import Verif.Props.JptCondition
import Verif.Circuit.CondReady

/-! # C117: the moments of a learned tree -/

namespace PM.Props
open Spec Learn.Jpt Graph Classical MeasureTheory

variable {S : Settings} {I : Impurity} {data : List Row}

/-- C117, full: a learned tree has the sample means and variances of its integer columns; the mean of a continuous column is in the
range of its entries, and its variance is positive unless the column is constant. -/
def C117_full : Prop :=
  ∀ (S : Settings) (I : Impurity) (data : List Row), TreeInput S data →
    SplitContract I S.minImprovement (requiredSamples S.minSamplesLeaf data.length) →
    (∀ x ∈ data, ∀ ci ∈ S.columns.zipIdx, HashesToItself x ci) → ∀ q st, fit S I data [] = (q, .ok st) →
    ∀ vars, (∀ col ∈ S.columns, columnVar col ∈ vars) → ∃ e var, (st.circuit.expectation freshMem vars).2 = .ok e ∧
      (st.circuit.variance freshMem vars).2 = .ok var ∧
      (∀ v i, (Column.integer v, i) ∈ S.columns.zipIdx → e v = some (sampleMean data i) ∧ var v = some (sampleVariance data i)) ∧
      ∀ P i, (Column.continuous P, i) ∈ S.columns.zipIdx →
        (∃ x, e P.var = some x ∧ ∀ a b, (∀ y ∈ data, a ≤ y.real i ∧ y.real i ≤ b) → a ≤ x ∧ x ≤ b) ∧
        ∃ w, var P.var = some w ∧ (0 < w ↔ ∃ x ∈ data, ∃ y ∈ data, x.real i ≠ y.real i)

theorem leaf_lengths {E : List Emitted} {st : State} (h : TreeInput S data) (hE : Inv S I data st [] E) :
    (E.map fun e => (e.idx.length : ℝ) / data.length).sum = 1 := by
  have hlen : (0 : ℝ) < data.length := by exact_mod_cast List.length_pos_iff.2 h.nonempty
  have h1 : (E.map fun e => (e.idx.length : ℝ) / data.length) = E.map fun e => (e.idx.length : ℝ) * (data.length : ℝ)⁻¹ := by
    simp only [div_eq_mul_inv]
  rw [h1, List.sum_map_mul_right, ← div_eq_mul_inv, div_eq_one_iff_eq hlen.ne']
  have h2 := (partition_of hE).length_eq
  rw [leafSamples_eq hE, List.length_flatten, List.length_range, List.map_map] at h2
  rw [← h2, Nat.cast_list_sum, List.map_map]
  rfl

theorem sampleMoment_flatten {E : List Emitted} {st : State} (h : TreeInput S data) (hE : Inv S I data st [] E) (i k : ℕ) (c : ℝ) :
    (E.map fun e => (e.idx.length : ℝ) / data.length * sampleMoment (rowsOf data e.idx) i k c).sum = sampleMoment data i k c := by
  have h1 : ∀ e ∈ E, (e.idx.length : ℝ) / data.length * sampleMoment (rowsOf data e.idx) i k c
      = ((rowsOf data e.idx).map fun x => ((x.int i : ℝ) - c) ^ k).sum * (data.length : ℝ)⁻¹ := by
    intro e he
    obtain ⟨hne, _, _⟩ := emitted_rows h hE he
    have hlen : ((rowsOf data e.idx).length : ℝ) ≠ 0 := by exact_mod_cast (List.length_pos_iff.2 hne).ne'
    have hl : (rowsOf data e.idx).length = e.idx.length := by simp [rowsOf]
    rw [hl] at hlen
    rw [sampleMoment, hl]
    field_simp
  rw [List.map_congr_left h1, List.sum_map_mul_right, sampleMoment, div_eq_mul_inv]
  congr 1
  have hp := (partition_of hE).map fun i => data.getD i default
  rw [leafSamples_eq hE] at hp
  have hdata : (List.range data.length).map (fun i => data.getD i default) = data := by
    refine List.ext_getElem (by simp) fun i h1 h2 => ?_
    simp only [List.getElem_map, List.getElem_range]
    exact List.getD_eq_getElem _ _ h2
  rw [hdata, List.map_flatten, List.map_map] at hp
  rw [← (hp.map _).sum_eq, List.map_flatten, List.sum_flatten, List.map_map, List.map_map]
  rfl

theorem mixture_between {E : List Emitted} {st : State} (h : TreeInput S data) (hE : Inv S I data st [] E) {F : Emitted → ℝ} {a b : ℝ}
    (hF : ∀ e ∈ E, a ≤ F e ∧ F e ≤ b) :
    a ≤ (E.map fun e => (e.idx.length : ℝ) / data.length * F e).sum ∧ (E.map fun e => (e.idx.length : ℝ) / data.length * F e).sum ≤ b := by
  have h1 := leaf_lengths h hE
  have hsum : ∀ c : ℝ, (E.map fun e => (e.idx.length : ℝ) / data.length * c).sum = c := fun c => by rw [List.sum_map_mul_right, h1, one_mul]
  constructor
  · rw [← hsum a]
    exact List.sum_le_sum fun e he => mul_le_mul_of_nonneg_left (hF e he).1 (by positivity)
  · rw [← hsum b]
    exact List.sum_le_sum fun e he => mul_le_mul_of_nonneg_left (hF e he).2 (by positivity)

/-- **C117**, all moments of the integer columns: `moment(order, center)` returns the mean of `(x - center) ^ order` over the training
rows.  Partial: trees with a symbolic column raise (`C117_symbolic_raises`), and integers that are not their own hash are excluded. -/
theorem C117_moment_partial (h : TreeInput S data)
    (hI : SplitContract I S.minImprovement (requiredSamples S.minSamplesLeaf data.length)) {q : List Task} {st : State}
    (hfit : fit S I data [] = (q, .ok st)) (hnum : ∀ v dm, Column.symbolic v dm ∉ S.columns)
    {order : Var → Option ℕ} {center : Var → Option ℝ} {k : Var → ℕ} {c : Var → ℝ}
    (hord : ∀ col ∈ S.columns, order (columnVar col) = some (k (columnVar col)))
    (hcen : ∀ col ∈ S.columns, center (columnVar col) = some (c (columnVar col))) (m : Mem (Var → ℝ)) :
    ∃ res, (st.circuit.moment m order center).2 = .ok res ∧ (∀ v, res v = none ↔ ∀ col ∈ S.columns, columnVar col ≠ v) ∧
      ∀ v i, (Column.integer v, i) ∈ S.columns.zipIdx → (∀ x ∈ data, HashesToItself x (.integer v, i)) →
        res v = some (sampleMoment data i (k v) (c v)) := by
  obtain ⟨st', E, hfit', hE⟩ := fit_ok h (minSamples_eq S data.length ▸ hI)
  rw [hfit] at hfit'
  simp only [Prod.mk.injEq, Except.ok.injEq] at hfit'
  obtain ⟨rfl, rfl⟩ := hfit'
  obtain ⟨res, h1, h2, h3⟩ := tree_moment h hE hnum hord hcen m
  refine ⟨res, h1, fun v => ⟨fun hv col hcol => ?_, h2 v⟩, fun v i hci hh => ?_⟩
  · rintro rfl
    obtain ⟨i, hi, rfl⟩ := List.mem_iff_getElem.1 hcol
    have := h3 (S.columns[i], i) (by simp [List.mem_zipIdx_iff_getElem?, hi])
    rw [hv] at this
    cases this
  · have h4 := h3 _ hci
    simp only [columnVar] at h4
    rw [h4, ← sampleMoment_flatten h hE]
    congr 2
    refine List.map_congr_left fun e he => ?_
    obtain ⟨hne, hsub, hfits⟩ := emitted_rows h hE he
    obtain ⟨g, r, hr⟩ := (hE.leaf e he).2.parts _ hci
    rw [column_moment_integer hne (fun x hx => hh x (hsub x hx)) hr]

/-- **C117**, expectations: sample means for integer columns, numbers in the range of the entries for continuous columns. -/
theorem C117_expectation_partial (h : TreeInput S data)
    (hI : SplitContract I S.minImprovement (requiredSamples S.minSamplesLeaf data.length)) {q : List Task} {st : State}
    (hfit : fit S I data [] = (q, .ok st)) (hnum : ∀ v dm, Column.symbolic v dm ∉ S.columns) {vars : List Var}
    (hvars : ∀ col ∈ S.columns, columnVar col ∈ vars) (m : Mem (Var → ℝ)) :
    ∃ e, (st.circuit.expectation m vars).2 = .ok e ∧
      (∀ v i, (Column.integer v, i) ∈ S.columns.zipIdx → (∀ x ∈ data, HashesToItself x (.integer v, i)) → e v = some (sampleMean data i)) ∧
      ∀ P i, (Column.continuous P, i) ∈ S.columns.zipIdx →
        ∃ x, e P.var = some x ∧ ∀ a b, (∀ y ∈ data, a ≤ y.real i ∧ y.real i ≤ b) → a ≤ x ∧ x ≤ b := by
  have hord : ∀ col ∈ S.columns, (fun v => if v ∈ vars then some 1 else none) (columnVar col) = some ((fun _ => 1 : Var → ℕ) (columnVar col)) :=
    fun col hcol => if_pos (hvars col hcol)
  have hcen : ∀ col ∈ S.columns, (fun v => if v ∈ vars then some 0 else none) (columnVar col) = some ((fun _ => 0 : Var → ℝ) (columnVar col)) :=
    fun col hcol => if_pos (hvars col hcol)
  obtain ⟨res, h1, _, h3⟩ := C117_moment_partial h hI hfit hnum (order := fun v => if v ∈ vars then some 1 else none) (center := fun v => if v ∈ vars then some 0 else none)
      (k := fun _ => 1) (c := fun _ => 0) hord hcen m
  obtain ⟨st', E, hfit', hE⟩ := fit_ok h (minSamples_eq S data.length ▸ hI)
  rw [hfit] at hfit'
  simp only [Prod.mk.injEq, Except.ok.injEq] at hfit'
  obtain ⟨rfl, rfl⟩ := hfit'
  obtain ⟨res', h1', _, h3'⟩ := tree_moment h hE hnum (order := fun v => if v ∈ vars then some 1 else none) (center := fun v => if v ∈ vars then some 0 else none)
      (k := fun _ => 1) (c := fun _ => 0) hord hcen m
  rw [h1] at h1'
  obtain rfl := Except.ok.inj h1'
  refine ⟨res, h1, fun v i hci hh => ?_, fun P i hci => ⟨_, h3' _ hci, fun a b hab => mixture_between h hE fun e he => ?_⟩⟩
  · rw [h3 v i hci hh]
    simp [sampleMoment, sampleMean]
  · obtain ⟨hne, hsub, hfits⟩ := emitted_rows h hE he
    obtain ⟨g, r, hr⟩ := (hE.leaf e he).2.parts _ hci
    refine (column_between hne (hfits _ hci) hr).1 a b fun n d hk => ?_
    rcases column_leaf_range hne (hfits _ hci) hr hk (fun x hx => hab x (hsub x hx)) with ⟨lo, hi, l, u, rfl, h4, h5, h6⟩ | ⟨x, c, rfl, h4, h5⟩
    · rw [momentVal_uniform_one _ h4]
      constructor <;> linarith
    · simpa [momentVal, Leaf.moment, Leaf.diracMoment] using ⟨h4, h5⟩

/-- **C117**, variances: sample variances for integer columns.  For a continuous column the variance is non-negative, at most
`(b - μ) * (μ - a)` if the entries are between `a` and `b` and `μ` is the expectation, and positive exactly if some leaf of the tree has training rows with two different entries. -/
theorem C117_variance_partial (h : TreeInput S data)
    (hI : SplitContract I S.minImprovement (requiredSamples S.minSamplesLeaf data.length)) {q : List Task} {st : State}
    (hfit : fit S I data [] = (q, .ok st)) (hnum : ∀ v dm, Column.symbolic v dm ∉ S.columns) {vars : List Var}
    (hvars : ∀ col ∈ S.columns, columnVar col ∈ vars) (m : Mem (Var → ℝ)) :
    ∃ e var, (st.circuit.expectation m vars).2 = .ok e ∧ (st.circuit.variance m vars).2 = .ok var ∧
      (∀ v i, (Column.integer v, i) ∈ S.columns.zipIdx → (∀ x ∈ data, HashesToItself x (.integer v, i)) →
        var v = some (sampleVariance data i)) ∧
      ∀ P i, (Column.continuous P, i) ∈ S.columns.zipIdx →
        ∃ μ w, e P.var = some μ ∧ var P.var = some w ∧ 0 ≤ w ∧
          (∀ a b, (∀ y ∈ data, a ≤ y.real i ∧ y.real i ≤ b) → w ≤ (b - μ) * (μ - a)) ∧
          (0 < w ↔ ∃ idx ∈ leafSamples st, ∃ x ∈ trainingRows data idx, ∃ y ∈ trainingRows data idx, x.real i ≠ y.real i) := by
  obtain ⟨e, he, heint, hecont⟩ := C117_expectation_partial h hI hfit hnum hvars m
  have hedef : ∀ col ∈ S.columns, e (columnVar col) = some ((e (columnVar col)).getD 0) := by
    intro col hcol
    have hord : ∀ col ∈ S.columns, (fun v => if v ∈ vars then some 1 else none) (columnVar col) = some ((fun _ => 1 : Var → ℕ) (columnVar col)) :=
      fun col hcol => if_pos (hvars col hcol)
    have hcen : ∀ col ∈ S.columns, (fun v => if v ∈ vars then some 0 else none) (columnVar col) = some ((fun _ => 0 : Var → ℝ) (columnVar col)) :=
      fun col hcol => if_pos (hvars col hcol)
    obtain ⟨res, h1, h2, _⟩ := C117_moment_partial h hI hfit hnum (order := fun v => if v ∈ vars then some 1 else none) (center := fun v => if v ∈ vars then some 0 else none)
      (k := fun _ => 1) (c := fun _ => 0) hord hcen m
    have : res = e := Except.ok.inj (h1.symm.trans he)
    subst this
    cases hres : res (columnVar col) with
    | none => exact absurd rfl ((h2 _).1 hres col hcol)
    | some x => rfl
  have hord : ∀ col ∈ S.columns, (fun v => if v ∈ vars then some 2 else none) (columnVar col) = some ((fun _ => 2 : Var → ℕ) (columnVar col)) :=
    fun col hcol => if_pos (hvars col hcol)
  have hvareq : (st.circuit.variance m vars).2 =
      (st.circuit.moment (st.circuit.expectation m vars).1 (fun v => if v ∈ vars then some 2 else none) e).2 := by
    unfold Graph.variance
    generalize st.circuit.expectation m vars = y at he ⊢
    obtain ⟨m', y⟩ := y
    simp only at he
    subst he
    rfl
  obtain ⟨res, h1, _, h3⟩ := C117_moment_partial h hI hfit hnum (order := fun v => if v ∈ vars then some 2 else none) (center := e)
    (k := fun _ => 2) (c := fun v => (e v).getD 0) hord hedef
    (st.circuit.expectation m vars).1
  obtain ⟨st', E, hfit', hE⟩ := fit_ok h (minSamples_eq S data.length ▸ hI)
  rw [hfit] at hfit'
  simp only [Prod.mk.injEq, Except.ok.injEq] at hfit'
  obtain ⟨rfl, rfl⟩ := hfit'
  obtain ⟨e', he', _, hmean⟩ := tree_moment h hE hnum (order := fun v => if v ∈ vars then some 1 else none)
    (center := fun v => if v ∈ vars then some 0 else none) (k := fun _ => 1) (c := fun _ => 0) (fun col hcol => if_pos (hvars col hcol))
    (fun col hcol => if_pos (hvars col hcol)) m
  obtain rfl : e' = e := Except.ok.inj (he'.symm.trans he)
  obtain ⟨res', h1', _, h3'⟩ := tree_moment h hE hnum (order := fun v => if v ∈ vars then some 2 else none) (center := e')
    (k := fun _ => 2) (c := fun v => (e' v).getD 0) hord hedef
    (st.circuit.expectation m vars).1
  rw [h1] at h1'
  obtain rfl := Except.ok.inj h1'
  rw [← hvareq] at h1
  refine ⟨e', res, he, h1, fun v i hci hh => ?_, fun P i hci => ?_⟩
  · rw [h3 v i hci hh, heint v i hci hh]
    rfl
  obtain ⟨μ, hμ, hμr⟩ := hecont P i hci
  have hw := h3' _ hci
  simp only [columnVar, hμ, Option.getD_some] at hw
  have hbound : ∀ a b, (∀ y ∈ data, a ≤ y.real i ∧ y.real i ≤ b) → ∀ e' ∈ E,
      0 ≤ (e'.Fs (.continuous P, i) fun d => momentVal d 2 μ) ∧ (e'.Fs (.continuous P, i) fun d => momentVal d 2 μ) ≤ (b - a) ^ 2 := by
    intro a b hab e' he'
    obtain ⟨hne, hsub, hfits⟩ := emitted_rows h hE he'
    obtain ⟨g, r, hr⟩ := (hE.leaf e' he').2.parts _ hci
    obtain ⟨hμ1, hμ2⟩ := hμr a b hab
    refine (column_between hne (hfits _ hci) hr).1 0 _ fun n d hk => ?_
    rcases column_leaf_range hne (hfits _ hci) hr hk (fun x hx => hab x (hsub x hx)) with ⟨lo, hi, l, u, rfl, h4, h5, h6⟩ | ⟨x, c, rfl, h4, h5⟩
    · rw [momentVal_uniform_two _ h4]
      constructor
      · nlinarith [sq_nonneg (hi - μ + (lo - μ)), sq_nonneg (hi - μ), sq_nonneg (lo - μ)]
      · nlinarith [mul_nonneg (sub_nonneg.2 h5) (sub_nonneg.2 h6), sq_nonneg (hi - μ - (lo - μ))]
    · simp [momentVal, Leaf.moment, Leaf.diracMoment, sq_nonneg]
  obtain ⟨a, b, hab⟩ : ∃ a b : ℝ, ∀ y ∈ data, a ≤ y.real i ∧ y.real i ≤ b := by
    clear * -
    induction data with
    | nil => exact ⟨0, 0, by simp⟩
    | cons x l ih =>
      obtain ⟨a, b, hab⟩ := ih
      refine ⟨min a (x.real i), max b (x.real i), fun y hy => ?_⟩
      rcases List.mem_cons.1 hy with rfl | hy
      · exact ⟨min_le_right _ _, le_max_right _ _⟩
      · exact ⟨(min_le_left _ _).trans (hab y hy).1, (hab y hy).2.trans (le_max_left _ _)⟩
  have htight : ∀ a b, (∀ y ∈ data, a ≤ y.real i ∧ y.real i ≤ b) →
      (E.map fun e => (e.idx.length : ℝ) / data.length * e.Fs (.continuous P, i) fun d => momentVal d 2 μ).sum ≤ (b - μ) * (μ - a) := by
    intro a b hab
    have hm := hmean _ hci
    simp only [columnVar, hμ, Option.some.injEq] at hm
    have hle : ∀ e ∈ E, (e.idx.length : ℝ) / data.length * (e.Fs (.continuous P, i) fun d => momentVal d 2 μ) ≤
        (e.idx.length : ℝ) / data.length * (e.Fs (.continuous P, i) fun d => momentVal d 1 0) * (a + b - 2 * μ) +
          (e.idx.length : ℝ) / data.length * (μ ^ 2 - a * b) := by
      intro e he
      obtain ⟨hne, hsub, hfits⟩ := emitted_rows h hE he
      obtain ⟨g, r, hr⟩ := (hE.leaf e he).2.parts _ hci
      have := column_affine hne (hfits _ hci) hr (ℓ := fun d => momentVal d 1 0) (ℓ' := fun d => momentVal d 2 μ) (a := a + b - 2 * μ)
        (b := μ ^ 2 - a * b) fun n d hk => by
          rcases column_leaf_range hne (hfits _ hci) hr hk (fun x hx => hab x (hsub x hx)) with ⟨lo, hi, l, u, rfl, h4, h5, h6⟩ | ⟨x, c, rfl, h4, h5⟩
          · rw [momentVal_uniform_two _ h4, momentVal_uniform_one _ h4]
            nlinarith [mul_nonneg (sub_nonneg.2 h5) (sub_nonneg.2 h6), mul_nonneg (sub_nonneg.2 h5) (sub_pos.2 h4).le,
              mul_nonneg (sub_nonneg.2 h6) (sub_pos.2 h4).le]
          · simp only [momentVal, Leaf.moment, Leaf.diracMoment]
            norm_num
            nlinarith [mul_nonneg (sub_nonneg.2 h4) (sub_nonneg.2 h5), sq_nonneg (x - μ)]
      have hpos : (0 : ℝ) ≤ (e.idx.length : ℝ) / data.length := by positivity
      nlinarith [mul_le_mul_of_nonneg_left this hpos]
    refine (List.sum_le_sum hle).trans_eq ?_
    rw [List.sum_map_add, List.sum_map_mul_right, List.sum_map_mul_right, ← hm, leaf_lengths h hE]
    ring
  refine ⟨μ, _, hμ, hw, (mixture_between h hE (hbound a b hab)).1, htight, ?_⟩
  rw [leafSamples_eq hE]
  constructor
  · intro hpos
    by_contra hno
    push Not at hno
    refine hpos.ne' (List.sum_eq_zero fun x hx => ?_)
    obtain ⟨e', he', rfl⟩ := List.mem_map.1 hx
    obtain ⟨hne, hsub, hfits⟩ := emitted_rows h hE he'
    obtain ⟨g, r, hr⟩ := (hE.leaf e' he').2.parts _ hci
    have hz := (column_between hne (hfits _ hci) hr (ℓ := fun d => momentVal d 2 μ)).1 0 0 fun n d hk => by
      obtain ⟨x, c, rfl⟩ := (column_leaf_kind hne (hfits _ hci) hr hk).2 (hno _ (List.mem_map.2 ⟨e', he', rfl⟩))
      simp [momentVal, Leaf.moment, Leaf.diracMoment]
    rw [le_antisymm hz.2 hz.1, mul_zero]
  · rintro ⟨idx, hidx, hxy⟩
    obtain ⟨e', he', rfl⟩ := List.mem_map.1 hidx
    obtain ⟨hne, hsub, hfits⟩ := emitted_rows h hE he'
    obtain ⟨g, r, hr⟩ := (hE.leaf e' he').2.parts _ hci
    have hp := (column_between hne (hfits _ hci) hr (ℓ := fun d => momentVal d 2 μ)).2 fun n d hk => by
      obtain ⟨lo, hi, l, u, rfl⟩ := (column_leaf_kind hne (hfits _ hci) hr hk).1 hxy
      have hlt : lo < hi := hr.denotes.valid n _ hk
      rw [momentVal_uniform_two _ hlt]
      have : 0 < (hi - lo) ^ 2 := by
        have := sub_pos.2 hlt
        positivity
      nlinarith [sq_nonneg (hi - μ + (lo - μ))]
    have hlen : (0 : ℝ) < data.length := by exact_mod_cast List.length_pos_iff.2 h.nonempty
    have hl : (rowsOf data e'.idx).length = e'.idx.length := by simp [rowsOf]
    have hl' : (0 : ℝ) < e'.idx.length := by
      rw [← hl]
      exact_mod_cast List.length_pos_iff.2 hne
    refine lt_of_lt_of_le (mul_pos (div_pos hl' hlen) hp) (List.single_le_sum (fun x hx => ?_) _ (List.mem_map.2 ⟨e', he', rfl⟩))
    obtain ⟨e₂, he₂, rfl⟩ := List.mem_map.1 hx
    exact mul_nonneg (by positivity) (hbound a b hab e₂ he₂).1

/-- A tree with a symbolic column has no moments, not even of its other columns: every call of `moment` raises. -/
theorem C117_symbolic_raises (h : TreeInput S data)
    (hI : SplitContract I S.minImprovement (requiredSamples S.minSamplesLeaf data.length)) {q : List Task} {st : State}
    (hfit : fit S I data [] = (q, .ok st)) {v : Var} {dm : List (ℤ × ℤ)} (hs : Column.symbolic v dm ∈ S.columns)
    (order : Var → Option ℕ) (center : Var → Option ℝ) (m : Mem (Var → ℝ)) : ∃ e, (st.circuit.moment m order center).2 = .error e := by
  obtain ⟨st', E, hfit', hE⟩ := fit_ok h (minSamples_eq S data.length ▸ hI)
  rw [hfit] at hfit'
  simp only [Prod.mk.injEq, Except.ok.injEq] at hfit'
  obtain ⟨rfl, rfl⟩ := hfit'
  obtain ⟨hD, _, _⟩ := denotes_tree (emitted_ne_nil hE) (fun e he => ⟨_, (hE.leaf e he).2⟩) data.length
  rw [← hE.circuit] at hD
  obtain ⟨sc, hsc, hdec, hsc0⟩ := hD.scope
  obtain ⟨i, hi, hget⟩ := List.mem_iff_getElem.1 hs
  have hci : (Column.symbolic v dm, i) ∈ S.columns.zipIdx := by
    rw [← hget]
    simp [List.mem_zipIdx_iff_getElem?, hi]
  obtain ⟨n, d, hk, hv⟩ := exists_leaf_var hD.layered hsc (v := v) (by
    rw [hsc0, List.mem_toFinset]
    exact List.mem_map.2 ⟨_, hs, rfl⟩)
  obtain ⟨cj, hcj, hl⟩ := tree_leaves h hE n d hk
  have := column_inj h hci cj hcj (by rw [← hl.var, hv]; rfl)
  subst this
  obtain ⟨l, hl, _⟩ := hl
  subst hl
  exact C16_symbolic_raises hD.layered
    (reachable_of_root hD.layered.wf hD.layered.graded.acyclic hD.layered.root n (mem_ids_of_kind? hk)) hk order center m

/-! ### A concrete tree -/

/-- A continuous and an integer column, at most one split. -/
noncomputable def oneSplitNumbers : Settings := ⟨[.continuous ⟨0, 1, 0⟩, .integer 1], 1, 0, 1, ⊤, 1⟩

/-- A row with the number `x` in the continuous columns and `k` in the integer columns. -/
def numberRow (x : ℝ) (k : ℤ) : Row := ⟨fun _ => x, fun _ => k⟩

theorem oneSplitNumbers_input {data : List Row} (h : data ≠ []) : TreeInput oneSplitNumbers data where
  nonempty := h
  distinct := by simp [oneSplitNumbers, columnVar]
  columns := by
    intro ci hci
    simp only [oneSplitNumbers, List.zipIdx_cons, List.zipIdx_nil, List.mem_cons, List.not_mem_nil, or_false] at hci
    rcases hci with rfl | rfl
    · exact ⟨le_rfl, le_rfl⟩
    · trivial
  cap := one_pos

theorem oneSplitNumbers_contract (n : ℕ) :
    SplitContract firstSample oneSplitNumbers.minImprovement (requiredSamples oneSplitNumbers.minSamplesLeaf n) :=
  (requiredSamples_one n).symm ▸ firstSample_contract

theorem oneSplitNumbers_numeric (v : Var) (dm : List (ℤ × ℤ)) : Column.symbolic v dm ∉ oneSplitNumbers.columns := by
  simp [oneSplitNumbers]

theorem oneSplitNumbers_vars : ∀ col ∈ oneSplitNumbers.columns, columnVar col ∈ [0, 1] := by
  simp [oneSplitNumbers, columnVar]

theorem oneSplitNumbers_leaves {x y : Row} {q : List Task} {st : State}
    (hfit : fit oneSplitNumbers firstSample [x, y] [] = (q, .ok st)) : leafSamples st = [[0], [1]] := by
  have hms : oneSplitNumbers.minSamples 2 = 1 := by rw [← minSamples_eq]; exact requiredSamples_one 2
  have step : ∀ {fuel : ℕ} {st₀ : State} {t : Task} {q₀ : List Task},
      loop oneSplitNumbers firstSample 2 (fuel + 1) st₀ (t :: q₀) = (q, .ok st) →
      ∃ st₁ new, c45 oneSplitNumbers firstSample 2 st₀ t = .ok (st₁, new) ∧
        loop oneSplitNumbers firstSample 2 fuel st₁ (q₀ ++ new) = (q, .ok st) := by
    intro fuel st₀ t q₀ h
    rw [loop] at h
    cases hc : c45 oneSplitNumbers firstSample 2 st₀ t with
    | error e => rw [hc] at h; simp at h
    | ok x => rw [hc] at h; exact ⟨x.1, x.2, rfl, h⟩
  change loop oneSplitNumbers firstSample 2 (2 + 1) ⟨List.range 2, 0, newUnit 0 .sum, []⟩ [⟨[x, y], 0, 2, 0⟩] = (q, .ok st) at hfit
  obtain ⟨st₁, new₁, hc₁, hfit⟩ := step hfit
  obtain ⟨i1, s1, rfl⟩ := c45_split (by
    rw [hms]
    simp only [oneSplitNumbers, not_or]
    exact ⟨by norm_num, by norm_num⟩) (by simp [firstSample, oneSplitNumbers]) hc₁
  obtain ⟨st₂, new₂, hc₂, hfit⟩ := step (fuel := 1) hfit
  obtain ⟨i2, s2, rfl⟩ := c45_deep (by simp [oneSplitNumbers]) hc₂
  obtain ⟨st₃, new₃, hc₃, hfit⟩ := step (fuel := 0) hfit
  obtain ⟨i3, s3, rfl⟩ := c45_deep (by simp [oneSplitNumbers]) hc₃
  simp only [List.append_nil] at hfit
  obtain ⟨_, rfl⟩ := hfit
  unfold leafSamples
  rw [s3, s2, s1, i3, i2, i1]
  simp [firstSample, List.range, List.range.loop]

/-- The variance of a continuous column can be 0 although the column is not constant: the tree over `0` and `2` with one sample in every
leaf has two Dirac leaves, and the second moment of a Dirac distribution is computed as 0. -/
theorem C117_zero_variance : ∃ q st, fit oneSplitNumbers firstSample [numberRow 0 0, numberRow 2 1] [] = (q, .ok st) ∧
    ∃ var, (st.circuit.variance freshMem [0, 1]).2 = .ok var ∧ var 0 = some 0 := by
  obtain ⟨st, E, hfit, hE⟩ := fit_ok (oneSplitNumbers_input (data := [numberRow 0 0, numberRow 2 1]) (by simp))
    (minSamples_eq oneSplitNumbers _ ▸ oneSplitNumbers_contract _)
  obtain ⟨e, var, _, h1, _, h3⟩ := C117_variance_partial (oneSplitNumbers_input (by simp)) (oneSplitNumbers_contract _) hfit
    oneSplitNumbers_numeric oneSplitNumbers_vars freshMem
  obtain ⟨μ, w, _, hw, h0, _, hiff⟩ := h3 ⟨0, 1, 0⟩ 0 (by simp [oneSplitNumbers])
  refine ⟨_, st, hfit, var, h1, ?_⟩
  have : ¬ 0 < w := by
    rw [hiff, oneSplitNumbers_leaves hfit]
    simp [trainingRows]
  rw [hw, le_antisymm (not_lt.1 this) h0]

/-- The full claim fails: a non-constant continuous column with variance 0. -/
theorem C117_full_false : ¬ C117_full := by
  intro hall
  obtain ⟨q, st, hfit, var, hv, h0⟩ := C117_zero_variance
  have hash : ∀ x ∈ [numberRow 0 0, numberRow 2 1], ∀ ci ∈ oneSplitNumbers.columns.zipIdx, HashesToItself x ci := by
    intro x hx ci hci
    simp only [oneSplitNumbers, List.zipIdx_cons, List.zipIdx_nil, List.mem_cons, List.not_mem_nil, or_false] at hci hx
    rcases hci with rfl | rfl <;> rcases hx with rfl | rfl <;> simp [HashesToItself, numberRow]
  obtain ⟨e, var', _, hv', _, hc⟩ := hall oneSplitNumbers firstSample _ (oneSplitNumbers_input (by simp)) (oneSplitNumbers_contract _) hash q st hfit
    [0, 1] oneSplitNumbers_vars
  rw [hv] at hv'
  obtain rfl := Except.ok.inj hv'
  obtain ⟨_, w, hw, hiff⟩ := hc ⟨0, 1, 0⟩ 0 (by simp [oneSplitNumbers])
  rw [h0] at hw
  obtain rfl := Option.some.inj hw
  exact lt_irrefl _ (hiff.2 ⟨numberRow 0 0, by simp, numberRow 2 1, by simp, by simp [numberRow]⟩)

/-- The mean of the integer column with the entries 0 and 1 is 1/2, its variance 1/4; the hypotheses are met. -/
example : ∃ q st, fit oneSplitNumbers firstSample [numberRow 0 0, numberRow 2 1] [] = (q, .ok st) ∧
    ∃ e var, (st.circuit.expectation freshMem [0, 1]).2 = .ok e ∧ e 1 = some (1 / 2) ∧
      (st.circuit.variance freshMem [0, 1]).2 = .ok var ∧ var 1 = some (1 / 4) := by
  obtain ⟨st, E, hfit, hE⟩ := fit_ok (oneSplitNumbers_input (data := [numberRow 0 0, numberRow 2 1]) (by simp))
    (minSamples_eq oneSplitNumbers _ ▸ oneSplitNumbers_contract _)
  have hash : ∀ x ∈ [numberRow 0 0, numberRow 2 1], HashesToItself x (.integer 1, 1) := by
    intro x hx
    simp only [List.mem_cons, List.not_mem_nil, or_false] at hx
    rcases hx with rfl | rfl <;> simp [HashesToItself, numberRow]
  obtain ⟨e, var, h3, h1, h2, _⟩ := C117_variance_partial (oneSplitNumbers_input (by simp)) (oneSplitNumbers_contract _) hfit
    oneSplitNumbers_numeric oneSplitNumbers_vars freshMem
  obtain ⟨e', h3', h4, _⟩ := C117_expectation_partial (oneSplitNumbers_input (by simp)) (oneSplitNumbers_contract _) hfit
    oneSplitNumbers_numeric oneSplitNumbers_vars freshMem
  obtain rfl : e' = e := Except.ok.inj (h3'.symm.trans h3)
  refine ⟨_, st, hfit, e', var, h3, ?_, h1, ?_⟩
  · rw [h4 1 1 (by simp [oneSplitNumbers]) hash]
    norm_num [sampleMean, sampleMoment, numberRow]
  · rw [h2 1 1 (by simp [oneSplitNumbers]) hash]
    norm_num [sampleVariance, sampleMean, sampleMoment, numberRow]

/-- A tree with a symbolic column: every moment raises. -/
example : ∃ q st, fit oneSplit firstSample [row 0, row 1, row 2] [] = (q, .ok st) ∧
    ∃ err, (st.circuit.moment freshMem (fun _ => some 1) (fun _ => some 0)).2 = .error err := by
  obtain ⟨st, E, hfit, hE⟩ := fit_ok oneSplit_input (minSamples_eq oneSplit _ ▸ oneSplit_contract _)
  exact ⟨_, st, hfit, C117_symbolic_raises oneSplit_input (oneSplit_contract _) hfit (v := 0) (dm := [(0, 0), (1, 1), (2, 2)])
    (by simp [oneSplit]) _ _ _⟩

end PM.Props
