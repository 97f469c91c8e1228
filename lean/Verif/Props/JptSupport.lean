import Verif.Learn.JptSupportLemmas
import Verif.Props.JptMoments
import Verif.Props.JptMode
import Verif.Props.Sample

/-! # C118: what a learned tree considers possible -/

namespace PM.Props
open Spec Learn.Jpt Graph Classical

variable {S : Settings} {I : Impurity} {data : List Row}

/-- C118, full: a point is possible exactly if it resembles the training rows of one leaf in every column, and everything the tree
samples does. -/
def C118_full : Prop :=
  ∀ (S : Settings) (I : Impurity) (data : List Row), TreeInput S data →
    SplitContract I S.minImprovement (requiredSamples S.minSamplesLeaf data.length) → ∀ q st, fit S I data [] = (q, .ok st) →
    (∀ p m, ∃ l, st.circuit.likelihood m p = .ok l ∧
      (0 < l ↔ ∃ idx ∈ leafSamples st, ∀ ci ∈ S.columns.zipIdx, Resembles p (trainingRows data idx) ci)) ∧
    ∀ draws amount, Possible st.circuit draws → InSupport st.circuit draws → ∃ log, st.circuit.sample draws amount = .ok log ∧
      ∀ ρ < amount, ∃ p : Var → ℝ, (∀ col ∈ S.columns, cell log ρ (columnVar col) = some (p (columnVar col))) ∧
        ∃ idx ∈ leafSamples st, ∀ ci ∈ S.columns.zipIdx, Resembles p (trainingRows data idx) ci

/-- The likelihood of a point is never negative, and it is positive exactly if some leaf of the tree holds rows the point resembles in
every column. -/
theorem C118_possible_partial (h : TreeInput S data)
    (hI : SplitContract I S.minImprovement (requiredSamples S.minSamplesLeaf data.length))
    (hh : ∀ x ∈ data, ∀ ci ∈ S.columns.zipIdx, HashesToItself x ci) {q : List Task} {st : State}
    (hfit : fit S I data [] = (q, .ok st)) (p : Var → ℝ) :
    ∃ l, 0 ≤ l ∧ (∀ m, st.circuit.likelihood m p = .ok l) ∧
      (0 < l ↔ ∃ idx ∈ leafSamples st, ∀ ci ∈ S.columns.zipIdx, Resembles p (trainingRows data idx) ci) := by
  obtain ⟨st', E, hfit', hE⟩ := fit_ok h (minSamples_eq S data.length ▸ hI)
  rw [hfit] at hfit'
  simp only [Prod.mk.injEq, Except.ok.injEq] at hfit'
  obtain ⟨rfl, rfl⟩ := hfit'
  have hlen : (0 : ℝ) < data.length := by exact_mod_cast List.length_pos_iff.2 h.nonempty
  have hprod : ∀ e ∈ E, 0 ≤ (S.columns.zipIdx.map fun ci => e.Fs ci fun d => leafDensity d (p d.var)).prod := by
    intro e he
    refine List.prod_nonneg fun a ha => ?_
    obtain ⟨ci, hci, rfl⟩ := List.mem_map.1 ha
    exact column_nonneg hE he hci p
  have hterm : ∀ a ∈ E.map fun e => (e.idx.length : ℝ) / data.length *
      (S.columns.zipIdx.map fun ci => e.Fs ci fun d => leafDensity d (p d.var)).prod, 0 ≤ a := by
    intro a ha
    obtain ⟨e, he, rfl⟩ := List.mem_map.1 ha
    exact mul_nonneg (by positivity) (hprod e he)
  have hiff : ∀ e ∈ E, ∀ ci ∈ S.columns.zipIdx,
      (0 < (e.Fs ci fun d => leafDensity d (p d.var)) ↔ Resembles p (trainingRows data e.idx) ci) := by
    intro e he ci hci
    obtain ⟨hne, hsub, hfits⟩ := emitted_rows h hE he
    obtain ⟨g, r, hr⟩ := (hE.leaf e he).2.parts ci hci
    exact column_positive_iff h.cap hne (hfits ci hci) hr (fun x hx => hh x (hsub x hx) ci hci) p
  refine ⟨_, List.sum_nonneg hterm, fun m => tree_likelihood hE p m, ?_⟩
  rw [leafSamples_eq hE]
  constructor
  · intro hpos
    by_contra hc
    push Not at hc
    refine hpos.ne' (List.sum_eq_zero fun a ha => ?_)
    obtain ⟨e, he, rfl⟩ := List.mem_map.1 ha
    obtain ⟨ci, hci, hno⟩ := hc e.idx (List.mem_map.2 ⟨e, he, rfl⟩)
    have h0 : (e.Fs ci fun d => leafDensity d (p d.var)) = 0 :=
      le_antisymm (not_lt.1 fun hlt => hno ((hiff e he ci hci).1 hlt)) (column_nonneg hE he hci p)
    rw [List.prod_eq_zero (List.mem_map.2 ⟨ci, hci, h0⟩), mul_zero]
  · rintro ⟨idx, hidx, hres⟩
    obtain ⟨e, he, rfl⟩ := List.mem_map.1 hidx
    obtain ⟨hne, _, _⟩ := emitted_rows h hE he
    have hl : (0 : ℝ) < e.idx.length := by
      have : e.idx ≠ [] := fun h0 => hne (by simp [rowsOf, h0])
      exact_mod_cast List.length_pos_iff.2 this
    refine lt_of_lt_of_le (mul_pos (div_pos hl hlen) (List.prod_pos fun a ha => ?_)) (List.single_le_sum hterm _ (List.mem_map.2 ⟨e, he, rfl⟩))
    obtain ⟨ci, hci, rfl⟩ := List.mem_map.1 ha
    exact (hiff e he ci hci).2 (hres ci hci)

/-- Whatever the random numbers, every row a learned tree samples resembles the training rows of one leaf in all columns. -/
theorem C118_samples_partial (h : TreeInput S data)
    (hI : SplitContract I S.minImprovement (requiredSamples S.minSamplesLeaf data.length))
    (hh : ∀ x ∈ data, ∀ ci ∈ S.columns.zipIdx, HashesToItself x ci) {q : List Task} {st : State}
    (hfit : fit S I data [] = (q, .ok st)) {draws : Outcomes} (hp : Possible st.circuit draws) (hin : InSupport st.circuit draws)
    (amount : ℕ) : ∃ log, st.circuit.sample draws amount = .ok log ∧
      ∀ ρ < amount, ∃ p : Var → ℝ, (∀ col ∈ S.columns, cell log ρ (columnVar col) = some (p (columnVar col))) ∧
        ∃ idx ∈ leafSamples st, ∀ ci ∈ S.columns.zipIdx, Resembles p (trainingRows data idx) ci := by
  obtain ⟨st', E, hfit', hE⟩ := fit_ok h (minSamples_eq S data.length ▸ hI)
  have hfit0 := hfit
  rw [hfit] at hfit'
  simp only [Prod.mk.injEq, Except.ok.injEq] at hfit'
  obtain ⟨rfl, rfl⟩ := hfit'
  obtain ⟨hD, _, _⟩ := denotes_tree (emitted_ne_nil hE) (fun e he => ⟨_, (hE.leaf e he).2⟩) data.length
  rw [← hE.circuit] at hD
  obtain ⟨sc, hs, hdec, hsc⟩ := hD.scope
  have hn := (tree_neat h hE).norm
  obtain ⟨log, vs, hlog, hvs, _, _, hcell⟩ := C18_cells hD.layered hs hdec hn hp amount
  have hvs' := hvs
  rw [circuitVars_eq hD.layered.wf hD.layered.graded.acyclic hs hD.layered.root] at hvs'
  obtain rfl := Except.ok.inj hvs'
  refine ⟨log, hlog, fun ρ hρ => ?_⟩
  have hx : ∀ v ∈ sc 0, cell log ρ v = some ((cell log ρ v).getD 0) := by
    intro v hv
    obtain ⟨y, hy⟩ := Option.isSome_iff_exists.1 ((hcell ρ v).2 ⟨hρ, hv⟩)
    rw [hy]
    rfl
  obtain ⟨⟨l, hl, hpos⟩, _⟩ := C18_positive hD.layered hs hdec hn hD.valid hp hin amount hlog hvs hρ (fun v => (cell log ρ v).getD 0) hx freshMem
  refine ⟨fun v => (cell log ρ v).getD 0, fun col hcol => hx _ ?_, ?_⟩
  · rw [hsc, List.mem_toFinset]
    exact List.mem_map.2 ⟨col, hcol, rfl⟩
  · obtain ⟨l', _, hl', hiff⟩ := C118_possible_partial h hI hh hfit0 (fun v => (cell log ρ v).getD 0)
    rw [hl' freshMem] at hl
    obtain rfl := Except.ok.inj hl
    exact hiff.1 hpos

/-- An integer that is possible in an integer column occurs in the training data. -/
theorem C118_integers_partial (h : TreeInput S data)
    (hI : SplitContract I S.minImprovement (requiredSamples S.minSamplesLeaf data.length))
    (hh : ∀ x ∈ data, ∀ ci ∈ S.columns.zipIdx, HashesToItself x ci) {q : List Task} {st : State}
    (hfit : fit S I data [] = (q, .ok st)) {p : Var → ℝ} {l : ℝ} {m : Mem LogP} (hl : st.circuit.likelihood m p = .ok l) (hpos : 0 < l)
    {v : Var} {i : ℕ} (hci : (Column.integer v, i) ∈ S.columns.zipIdx) : ∃ x ∈ data, p v = x.int i := by
  obtain ⟨l', _, hl', hiff⟩ := C118_possible_partial h hI hh hfit p
  rw [hl' m] at hl
  obtain rfl := Except.ok.inj hl
  obtain ⟨idx, hidx, hres⟩ := hiff.1 hpos
  obtain ⟨st', E, hfit', hE⟩ := fit_ok h (minSamples_eq S data.length ▸ hI)
  rw [hfit] at hfit'
  simp only [Prod.mk.injEq, Except.ok.injEq] at hfit'
  obtain ⟨rfl, rfl⟩ := hfit'
  rw [leafSamples_eq hE] at hidx
  obtain ⟨e, he, rfl⟩ := List.mem_map.1 hidx
  obtain ⟨x, hx, hxp⟩ := hres _ hci
  exact ⟨x, (emitted_rows h hE he).2.1 x hx, hxp⟩

/-- The full claim fails for the integer -1, which is stored as -2. -/
theorem C118_full_false : ¬ C118_full := by
  intro hall
  refine C60_full_false ?_
  intro S I data h hI q st hfit x hx p hp
  have hlik := (hall S I data h hI q st hfit).1 p
  obtain ⟨l, hl, hiff⟩ := hlik freshMem
  obtain ⟨st', E, hfit', hE⟩ := fit_ok h (minSamples_eq S data.length ▸ hI)
  rw [hfit] at hfit'
  simp only [Prod.mk.injEq, Except.ok.injEq] at hfit'
  obtain ⟨rfl, rfl⟩ := hfit'
  obtain ⟨i, hi, hxi⟩ := List.mem_iff_getElem.1 hx
  obtain ⟨idx, hidx, hil⟩ := List.mem_flatten.1 ((partition_of hE).mem_iff.2 (by simpa using hi))
  have hxr : x ∈ trainingRows data idx := List.mem_map.2 ⟨i, hil, by rw [List.getD_eq_getElem _ _ hi, hxi]⟩
  refine ⟨l, hiff.2 ⟨idx, hidx, fun ci hci => ?_⟩, fun m => ?_⟩
  · have ha := hp ci hci
    obtain ⟨c, j⟩ := ci
    cases c with
    | other v => exact ha.elim
    | continuous P => exact ⟨⟨x, hxr, (show p P.var = x.real j from ha).ge⟩, x, hxr, (show p P.var = x.real j from ha).le⟩
    | symbolic v dm => exact ⟨x, hxr, ha⟩
    | integer v => exact ⟨x, hxr, ha⟩
  · rw [← hl, tree_likelihood hE, tree_likelihood hE]

/-- In a circuit with normalized sums, whose leaves have possible points, there are outcomes of the random choices as
`C118_samples_partial` asks for. -/
theorem exists_outcomes {g : Circuit} (hn : NormalizedSums g) (hd : ∀ n d, g.kind? n = some (.leaf d) → ∃ t, 0 < leafDensity d t) :
    ∃ draws, Possible g draws ∧ InSupport g draws := by
  have hj : ∀ n, ∃ j, g.kind? n = some .sum → ∃ hj : j < (g.outEdges n).length, linWeight (g.outEdges n)[j] ≠ 0 := by
    intro n
    by_cases hk : g.kind? n = some .sum
    · by_contra hc
      push Not at hc
      have h0 : ((g.outEdges n).map linWeight).sum = 0 := by
        refine List.sum_eq_zero fun a ha => ?_
        obtain ⟨e, he, rfl⟩ := List.mem_map.1 ha
        obtain ⟨j, hj, rfl⟩ := List.mem_iff_getElem.1 he
        exact (hc j).2 hj
      rw [hn n hk] at h0
      exact one_ne_zero h0
    · exact ⟨0, fun h => absurd h hk⟩
  have ht : ∀ n, ∃ t, ∀ d, g.kind? n = some (.leaf d) → 0 < leafDensity d t := by
    intro n
    by_cases hk : ∃ d, g.kind? n = some (.leaf d)
    · obtain ⟨d, hk⟩ := hk
      obtain ⟨t, ht⟩ := hd n d hk
      refine ⟨t, fun d' hk' => ?_⟩
      rw [hk] at hk'
      cases hk'
      exact ht
    · exact ⟨0, fun d h => absurd ⟨d, h⟩ hk⟩
  choose j hj using hj
  choose t ht using ht
  refine ⟨⟨fun n _ a => (List.range (g.outEdges n).length).map fun i => if i = j n then a else 0, fun n _ => List.range (g.outEdges n).length,
    fun n _ _ _ => t n⟩, ⟨fun n k a _ => by simp, fun n k a hk => ?_, fun n k a i e hk he hw => ?_, fun n k _ => List.Perm.refl _⟩,
    fun n d k a i hk _ => ht n d hk⟩
  · obtain ⟨h1, _⟩ := hj n hk
    simp only
    rw [show ((List.range (g.outEdges n).length).map fun i => if i = j n then a else 0).sum =
      ∑ i ∈ Finset.range (g.outEdges n).length, if i = j n then a else 0 from rfl, Finset.sum_ite_eq', if_pos (Finset.mem_range.2 h1)]
  · obtain ⟨h1, h2⟩ := hj n hk
    obtain ⟨hi, rfl⟩ := List.getElem?_eq_some_iff.1 he
    have : i ≠ j n := by
      rintro rfl
      exact h2 hw
    simp [this, hi]

/-- Every learned tree can be sampled. -/
example (h : TreeInput S data) (hc : S.columns ≠ [])
    (hI : SplitContract I S.minImprovement (requiredSamples S.minSamplesLeaf data.length)) {q : List Task} {st : State}
    (hfit : fit S I data [] = (q, .ok st)) : ∃ draws, Possible st.circuit draws ∧ InSupport st.circuit draws := by
  obtain ⟨st', E, hfit', hE⟩ := fit_ok h (minSamples_eq S data.length ▸ hI)
  rw [hfit] at hfit'
  simp only [Prod.mk.injEq, Except.ok.injEq] at hfit'
  obtain ⟨rfl, rfl⟩ := hfit'
  refine exists_outcomes (tree_neat h hE).norm fun n d hk => ?_
  obtain ⟨x, hx, _⟩ := (tree_facts h hc hE).2.1 n d hk
  exact ⟨x, hx⟩

/-- The tree with the leaves `{(0, 0)}` and `{(2, 1)}`: the training rows are possible, the mixed row `(0, 1)` and the mean are not. -/
example : ∃ q st, fit oneSplitNumbers firstSample [numberRow 0 0, numberRow 2 1] [] = (q, .ok st) ∧
    (∀ x k, (∃ l, 0 < l ∧ st.circuit.likelihood freshMem (fun v => if v = 0 then x else k) = .ok l) ↔ (x = 0 ∧ k = 0) ∨ (x = 2 ∧ k = 1)) := by
  obtain ⟨st, E, hfit, hE⟩ := fit_ok (oneSplitNumbers_input (data := [numberRow 0 0, numberRow 2 1]) (by simp))
    (minSamples_eq oneSplitNumbers _ ▸ oneSplitNumbers_contract _)
  have hash : ∀ x ∈ [numberRow 0 0, numberRow 2 1], ∀ ci ∈ oneSplitNumbers.columns.zipIdx, HashesToItself x ci := by
    intro x hx ci hci
    simp only [oneSplitNumbers, List.zipIdx_cons, List.zipIdx_nil, List.mem_cons, List.not_mem_nil, or_false] at hci hx
    rcases hci with rfl | rfl <;> rcases hx with rfl | rfl <;> simp [HashesToItself, numberRow]
  refine ⟨_, st, hfit, fun x k => ?_⟩
  obtain ⟨l, _, hl, hiff⟩ := C118_possible_partial (oneSplitNumbers_input (by simp)) (oneSplitNumbers_contract _) hash hfit
    (fun v => if v = 0 then x else k)
  rw [oneSplitNumbers_leaves hfit] at hiff
  have : (∃ l, 0 < l ∧ st.circuit.likelihood freshMem (fun v => if v = 0 then x else k) = .ok l) ↔ 0 < l := by
    rw [hl freshMem]
    constructor
    · rintro ⟨l', h1, h2⟩
      rwa [Except.ok.inj h2]
    · exact fun h => ⟨l, h, rfl⟩
  rw [this, hiff]
  simp only [oneSplitNumbers, List.zipIdx_cons, List.zipIdx_nil, List.mem_cons, List.not_mem_nil, or_false, forall_eq_or_imp, forall_eq,
    exists_eq_or_imp, exists_eq_left, Resembles, Agrees, trainingRows, List.map_cons, List.map_nil, numberRow, List.getD_cons_zero,
    List.getD_cons_succ]
  constructor
  · rintro (⟨⟨h1, h2⟩, h3⟩ | ⟨⟨h1, h2⟩, h3⟩)
    · exact .inl ⟨le_antisymm (by simpa using h2) (by simpa using h1), by simpa using h3⟩
    · exact .inr ⟨le_antisymm (by simpa using h2) (by simpa using h1), by simpa using h3⟩
  · rintro (⟨rfl, rfl⟩ | ⟨rfl, rfl⟩)
    · exact .inl (by simp)
    · exact .inr (by simp)

end PM.Props
