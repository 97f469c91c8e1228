import Verif.Learn.JptUniLemmas
import Verif.Props.JptMarginal
import Verif.Props.DetSum
import Verif.Dist.ModeLemmas
import Verif.Props.NygaMixture

/-! # C87: the marginals of a learned tree -/

namespace PM.Props
open Spec Learn.Jpt Graph Classical MeasureTheory

variable {S : Settings} {I : Impurity} {data : List Row}

/-- C87, full: the marginal of a learned tree on one of its variables is a model that gives every set of values of the variable the
probability it has in the tree. -/
def C87_full : Prop :=
  ∀ (S : Settings) (I : Impurity) (data : List Row), TreeInput S data →
    SplitContract I S.minImprovement (requiredSamples S.minSamplesLeaf data.length) → ∀ q st, fit S I data [] = (q, .ok st) →
    ∀ types, TypesOf S.columns types → ∀ ci ∈ S.columns.zipIdx, ∀ m m',
      ∃ g, marginal types st.circuit {columnVar ci.1} true m m' = .ok (some g) ∧
        ∀ dom, ColumnDomains S.columns dom → ∀ A, SetOf ci.1 A → ∀ m₁ m₂,
          (g.probability m₁ dom [[(columnVar ci.1, A)]]).2 = (st.circuit.probability m₂ dom [[(columnVar ci.1, A)]]).2

theorem density_zero {probs : List (ℤ × ℝ)} (hp : ∀ kp ∈ probs, 0 ≤ kp.2) {x : ℝ}
    (h : (probs.map fun kp => ENNReal.ofReal kp.2 • Measure.dirac (kp.1 : ℝ)).sum {x} = 0) :
    ((probs.filter fun kp => (kp.1 : ℝ) = x).map Prod.snd).sum = 0 := by
  rw [discrete_law_apply probs hp (measurableSet_singleton x), ENNReal.ofReal_eq_zero] at h
  have heq : (probs.map fun kp => Set.indicator {x} (fun _ => kp.2) (kp.1 : ℝ)).sum
      = ((probs.filter fun kp => (kp.1 : ℝ) = x).map Prod.snd).sum := by
    clear h hp
    induction probs with
    | nil => simp
    | cons a l ih =>
      rw [List.map_cons, List.sum_cons, ih, List.filter_cons]
      by_cases ha : (a.1 : ℝ) = x <;> simp [ha]
  rw [heq] at h
  refine le_antisymm h (List.sum_nonneg ?_)
  intro y hy
  obtain ⟨kp, hkp, rfl⟩ := List.mem_map.1 hy
  exact hp kp (List.mem_filter.1 hkp).1

theorem law_zero {probs : List (ℤ × ℝ)} (hp : ∀ kp ∈ probs, 0 ≤ kp.2) (hn : (probs.map Prod.fst).Nodup) {T : Set ℝ} (hT : MeasurableSet T)
    (h : ∀ k : ℤ, (k : ℝ) ∉ T → ((probs.filter fun kp => (kp.1 : ℝ) = (k : ℝ)).map Prod.snd).sum = 0) :
    (probs.map fun kp => ENNReal.ofReal kp.2 • Measure.dirac (kp.1 : ℝ)).sum Tᶜ = 0 := by
  rw [discrete_law_apply probs hp hT.compl, List.sum_eq_zero, ENNReal.ofReal_zero]
  intro y hy
  obtain ⟨kp, hkp, rfl⟩ := List.mem_map.1 hy
  by_cases hm : (kp.1 : ℝ) ∈ T
  · exact Set.indicator_of_notMem (by simpa using hm) _
  · rw [Set.indicator_of_mem (by simpa using hm), ← h kp.1 hm, PM.discrete_density hn hkp]

/-- The marginal of the base class on the variable of one column. -/
theorem tree_marginal {st : State} {E : List Emitted} (h : TreeInput S data) (hE : Inv S I data st [] E) {ci : Column × ℕ}
    (hci : ci ∈ S.columns.zipIdx) :
    ∃ g r, st.circuit.marginalInPlace {columnVar ci.1} = .ok (some g) ∧ OneVariableMarginal st.circuit g 0 r (columnVar ci.1) := by
  obtain ⟨hD, _, _⟩ := denotes_tree (emitted_ne_nil hE) (fun e he => ⟨_, (hE.leaf e he).2⟩) data.length
  rw [← hE.circuit] at hD
  obtain ⟨sc, hs, hdec, hsc⟩ := hD.scope
  refine marginal_one hD.layered hs hdec (tree_neat h hE) ?_
  rw [hsc, List.mem_toFinset]
  exact List.mem_map.2 ⟨ci.1, List.fst_mem_of_mem_zipIdx hci, rfl⟩

theorem marginal_column_leaf {st : State} {E : List Emitted} (h : TreeInput S data) (hE : Inv S I data st [] E) {ci : Column × ℕ}
    (hci : ci ∈ S.columns.zipIdx) {g : Circuit} {r : Node} (hM : OneVariableMarginal st.circuit g 0 r (columnVar ci.1)) {n : Node} {d : Leaf}
    (hk : g.kind? n = some (.leaf d)) : ColumnLeaf ci.1 d := by
  obtain ⟨cj, hcj, hl⟩ := tree_leaves h hE n d (hM.kind n _ hk)
  have hv := hl.var
  rw [hM.var hk] at hv
  rwa [column_inj h hci cj hcj hv.symm] at hl

/-- The marginal circuit has the probabilities of the tree. -/
theorem marginal_probability {st : State} {E : List Emitted} (h : TreeInput S data) (hE : Inv S I data st [] E) {ci : Column × ℕ}
    (hci : ci ∈ S.columns.zipIdx) (hh : ∀ x ∈ data, ∀ cj ∈ S.columns.zipIdx, cj ≠ ci → HashesToItself x cj) {g : Circuit} {r : Node}
    (hM : OneVariableMarginal st.circuit g 0 r (columnVar ci.1)) {dom : Var → VSet} (hdom : ColumnDomains S.columns dom) {A : VSet}
    (hA : SetOf ci.1 A) (m₁ m₂ : Mem ℝ) :
    (g.probability m₁ dom [[(columnVar ci.1, A)]]).2 = (st.circuit.probability m₂ dom [[(columnVar ci.1, A)]]).2 := by
  obtain ⟨hD, _, _⟩ := denotes_tree (emitted_ne_nil hE) (fun e he => ⟨_, (hE.leaf e he).2⟩) data.length
  rw [← hE.circuit] at hD
  obtain ⟨sc, hs, hdec, hsc⟩ := hD.scope
  have hvsc : columnVar ci.1 ∈ sc 0 := by
    rw [hsc, List.mem_toFinset]
    exact List.mem_map.2 ⟨ci.1, List.fst_mem_of_mem_zipIdx hci, rfl⟩
  have hdomF := tree_domain h hE hdom
  have hdomG : DomainFor g dom := ⟨hdomF.disjoint, fun n d hk => hdomF.fits n d (hM.kind n _ hk), fun n d hk => hdomF.covers n d (hM.kind n _ hk)⟩
  have hEv := tree_event h hE hci hA hvsc
  have hEvG : EventFor g {columnVar ci.1} [(columnVar ci.1, A)] := by
    refine ⟨hEv.nodup, ?_, hEv.disjoint, fun p hp n d hk => hEv.fits p hp n d (hM.kind n _ hk)⟩
    intro v hv
    simpa [SimpleEvent.keys] using hv
  have hvG : ∀ n d, g.kind? n = some (.leaf d) → d.Valid := fun n d hk => hD.valid n d (hM.kind n _ hk)
  obtain ⟨f, hf⟩ := exists_probValue hD.layered [(columnVar ci.1, A)]
  obtain ⟨f', hf'⟩ := exists_probValue hM.layered [(columnVar ci.1, A)]
  rw [probability_eq hD.layered hs hD.valid hdomF (Es := [[(columnVar ci.1, A)]]) (by simpa using hEv) (p := fun _ => f) (by simpa using hf) m₂,
    probability_eq hM.layered hM.scope hvG hdomG (Es := [[(columnVar ci.1, A)]]) (by simpa using hEvG) (p := fun _ => f') (by simpa using hf') m₁]
  simp only [List.map_cons, List.map_nil, List.sum_cons, List.sum_nil, add_zero]
  rw [hM.value _ ?_ f f' hf hf']
  intro n d hk hd
  obtain ⟨cj, hcj, hl⟩ := tree_leaves h hE n d hk
  have hne : cj ≠ ci := fun hc => hd (by rw [hl.var, hc])
  have hnorm : d.Normalized := by
    have := tree_leaves_of h hE (P := fun d => d.var ≠ columnVar ci.1 → d.Normalized) (by
      intro e he ck hck g r heq n d hk hd
      obtain ⟨hne, hsub, hfits⟩ := emitted_rows h hE he
      obtain ⟨h1, h2⟩ := column_leaves hne (hfits ck hck) heq n d hk
      exact h2 fun x hx => hh x (hsub x hx) ck hck fun hc => hd (by rw [h1.var, hc]))
    exact this n d hk hd
  rw [allowed_of_not_mem, measureReal_def, leafLaw_univ (hD.valid n d hk) hnorm]
  · rfl
  · simpa [SimpleEvent.keys] using hd

/-- The marginal on a discrete variable, for data whose integer entries are their own `hash`: a single distribution of the variable, with
the frequencies of the training data. -/
theorem C87_discrete_partial (h : TreeInput S data)
    (hI : SplitContract I S.minImprovement (requiredSamples S.minSamplesLeaf data.length)) {q : List Task} {st : State}
    (hfit : fit S I data [] = (q, .ok st)) (hh : ∀ x ∈ data, ∀ ci ∈ S.columns.zipIdx, HashesToItself x ci) {types : Var → VarType}
    (ht : TypesOf S.columns types) {ci : Column × ℕ} (hci : ci ∈ S.columns.zipIdx) (hd : IsDiscrete ci.1) (m : Mem Event) (m' : Mem ℝ) :
    ∃ d, marginal types st.circuit {columnVar ci.1} true m m' = .ok (some (newUnit 0 (.leaf d))) ∧ d.var = columnVar ci.1 ∧
      ∀ dom, ColumnDomains S.columns dom → ∀ A, SetOf ci.1 A → ∀ m₁,
        ((newUnit 0 (.leaf d)).probability m₁ dom [[(columnVar ci.1, A)]]).2 = .ok (relativeFrequency data ci A) := by
  have h86 := fun (dom : Var → VSet) (hdom : ColumnDomains S.columns dom) A (hA : SetOf ci.1 A) m =>
    C86_frequencies_partial h hI hfit hh hdom hci hd hA m
  obtain ⟨st', E, hfit', hE⟩ := fit_ok h (minSamples_eq S data.length ▸ hI)
  rw [hfit] at hfit'
  simp only [Prod.mk.injEq, Except.ok.injEq] at hfit'
  obtain ⟨rfl, rfl⟩ := hfit'
  obtain ⟨hD, _, _⟩ := denotes_tree (emitted_ne_nil hE) (fun e he => ⟨_, (hE.leaf e he).2⟩) data.length
  rw [← hE.circuit] at hD
  obtain ⟨g, r, hmar, hM⟩ := tree_marginal h hE hci
  have hvG : ∀ n d, g.kind? n = some (.leaf d) → d.Valid := fun n d hk => hD.valid n d (hM.kind n _ hk)
  set v := columnVar ci.1 with hv
  -- the leaves
  have hleaf : ∀ n d, g.kind? n = some (.leaf d) → (types v = .symbolic ∧ ∃ probs, d = .symbolic v probs) ∨
      (types v = .integer ∧ ∃ probs, d = .integer v probs) := by
    intro n d hk
    have hl := marginal_column_leaf h hE hci hM hk
    have hty := ht ci.1 (List.fst_mem_of_mem_zipIdx hci)
    obtain ⟨c, i⟩ := ci
    cases c with
    | other v => exact hd.elim
    | continuous P => exact hd.elim
    | integer v => obtain ⟨probs, rfl⟩ := hl; exact .inr ⟨hty, probs, rfl⟩
    | symbolic v domain => obtain ⟨probs, rfl, _⟩ := hl; exact .inl ⟨hty, probs, rfl⟩
  have hkeys : ∀ n v probs, g.kind? n = some (.leaf (.integer v probs)) → ∀ kp ∈ probs, kp.1 ≠ -1 ∧ kp.1.natAbs < 2 ^ 61 - 1 := by
    intro n w probs hk kp hkp
    have := tree_leaves_of h hE (P := fun d => ∀ w probs, d = .integer w probs → ∀ kp ∈ probs, kp.1 ≠ -1 ∧ kp.1.natAbs < 2 ^ 61 - 1) (by
      intro e he ck hck g r heq n d hk w probs hdw kp hkp
      obtain ⟨hne, hsub, hfits⟩ := emitted_rows h hE he
      have hcl := (column_leaves hne (hfits ck hck) heq n d hk).1
      obtain ⟨c, i⟩ := ck
      cases c with
      | other v => exact hcl.elim
      | continuous P => rcases hcl with ⟨_, _, _, _, rfl⟩ | ⟨_, _, rfl⟩ <;> cases hdw
      | symbolic v domain => obtain ⟨_, rfl, _⟩ := hcl; cases hdw
      | integer v =>
        simp only [columnCircuit, Except.ok.injEq, Prod.mk.injEq] at heq
        obtain ⟨rfl, rfl⟩ := heq
        have hd := kind_newUnit_leaf hk
        rw [hdw] at hd
        injection hd with _ hd
        subst hd
        obtain ⟨x, hx, hxk⟩ := keys_fitDiscrete (List.mem_map_of_mem hkp)
        obtain ⟨y, hy, rfl⟩ := List.mem_map.1 hx
        have hhy := hh y (hsub y hy) _ hck
        rw [pyHash_eq hhy.1 hhy.2] at hxk
        rw [← hxk]
        exact hhy)
    exact this n _ (hM.kind n _ hk) w probs rfl kp hkp
  -- the likelihood
  choose f hf using fun x : ℝ => exists_circuitValue hM.layered.graded.acyclic (fun d : Leaf => leafDensity d x)
  have hlik : ∀ x : Var → ℝ, g.likelihood freshMem x = .ok (f (x v) r) := by
    intro x
    have hfx : CircuitValue g (fun d => leafDensity d (x d.var)) (f (x v)) :=
      ⟨fun n d hk => by rw [(hf (x v)).leaf n d hk, hM.var hk], (hf (x v)).sum, (hf (x v)).prod⟩
    obtain ⟨_, _, _, _, h4⟩ := C01_loglikelihood hM.layered hM.scope hvG x hfx freshMem
    exact h4
  have hpos : ∃ x, 0 < f x r := by
    obtain ⟨e, he⟩ := List.exists_mem_of_ne_nil _ (emitted_ne_nil hE)
    obtain ⟨hne, hsub, hfits⟩ := emitted_rows h hE he
    obtain ⟨y, hy⟩ := List.exists_mem_of_ne_nil _ hne
    obtain ⟨x, hx⟩ : ∃ x : ℝ, Agrees (fun _ => x) y ci := by
      have hf := hfits ci hci
      obtain ⟨c, i⟩ := ci
      cases c with
      | other v => exact hd.elim
      | continuous P => exact hd.elim
      | integer v => exact ⟨_, rfl⟩
      | symbolic v domain =>
        obtain ⟨p, hp, hpe⟩ := List.mem_map.1 (hf.2.2 y hy)
        exact ⟨p.2, p, hp, hpe, rfl⟩
    refine ⟨x, ?_⟩
    obtain ⟨F, hF⟩ := exists_circuitValue hD.layered.graded.acyclic (fun d : Leaf => if d.var = v then leafDensity d x else 1)
    have hfx : CircuitValue g (fun d : Leaf => if d.var = v then leafDensity d x else 1) (f x) :=
      ⟨fun n d hk => by rw [(hf x).leaf n d hk, if_pos (hM.var hk)], (hf x).sum, (hf x).prod⟩
    rw [hM.value _ (fun n d _ hd => if_neg hd) F (f x) hF hfx, tree_value h hE hci (fun d hd => if_neg hd) hF]
    have hcol : ∀ e' ∈ E, e'.Fs ci (fun d : Leaf => if d.var = v then leafDensity d x else 1) = e'.Fs ci (fun d => leafDensity d x) := by
      intro e' he'
      obtain ⟨hne', _, hfits'⟩ := emitted_rows h hE he'
      obtain ⟨g', r', hr'⟩ := (hE.leaf e' he').2.parts ci hci
      exact Denotes_congr_leaves hr'.denotes fun n d hk => if_pos ((column_leaves hne' (hfits' ci hci) hr'.eq n d hk).1.var)
    have hnn : ∀ e' ∈ E, 0 ≤ e'.Fs ci (fun d => leafDensity d x) := by
      intro e' he'
      obtain ⟨g', r', hr'⟩ := (hE.leaf e' he').2.parts ci hci
      obtain ⟨f', hf'⟩ := exists_circuitValue hr'.denotes.layered.graded.acyclic (fun d : Leaf => leafDensity d x)
      rw [← hr'.denotes.value _ f' hf']
      exact circuitValue_nonneg hr'.denotes.layered.wf hr'.denotes.layered.graded.acyclic hf'
        (fun n d hk => leafDensity_nonneg (hr'.denotes.valid n d hk) _) _ (root_mem hr'.denotes.layered.root).1
    have hlen : (0 : ℝ) < data.length := by exact_mod_cast List.length_pos_iff.2 h.nonempty
    have hpe : 0 < (e.idx.length : ℝ) / data.length * e.Fs ci (fun d : Leaf => if d.var = v then leafDensity d x else 1) := by
      rw [hcol e he]
      obtain ⟨g', r', hr'⟩ := (hE.leaf e he).2.parts ci hci
      refine mul_pos (div_pos ?_ hlen) (hr'.pos y hy (fun _ => x) hx (hh y (hsub y hy) ci hci))
      have hb := emitted_bounds hE he
      exact_mod_cast (by omega : 0 < e.idx.length)
    refine lt_of_lt_of_le hpe (List.single_le_sum ?_ _ (List.mem_map.2 ⟨e, he, rfl⟩))
    intro z hz
    obtain ⟨e', he', rfl⟩ := List.mem_map.1 hz
    rw [hcol e' he']
    exact mul_nonneg (by positivity) (hnn e' he')
  have hty : Typed g (fun v => decide (types v = .symbolic)) := by
    intro n d hk
    rw [hM.var hk, decide_eq_true_iff]
    rcases hleaf n d hk with ⟨h1, probs, rfl⟩ | ⟨h1, probs, rfl⟩
    · exact ⟨fun _ => ⟨_, _, rfl⟩, fun _ => h1⟩
    · constructor
      · intro h2; rw [h1] at h2; cases h2
      · rintro ⟨_, _, h2⟩; cases h2
  have hprod : ProductsNonempty g := by
    intro n hk h0
    have := hM.oneFactor n hk
    rw [h0] at this
    cases this
  obtain ⟨d, probs, hmix, hdv, hdp, hdens⟩ := C25_from_mixture_partial hM.layered hM.scope (v := v) rfl hprod hty hvG
    (fun n d hk => (hleaf n d hk).imp (fun h => ⟨v, h.2⟩) fun h => ⟨v, h.2⟩) hkeys (lik := fun x => f x r) (fun x => hlik _) hpos m m'
  have hvar : d.var = v := by rw [hdp]; split <;> rfl
  have hdisc : (∃ probs, d = .symbolic v probs) ∨ ∃ probs, d = .integer v probs := by
    rw [hdp]
    split
    · exact .inl ⟨_, rfl⟩
    · exact .inr ⟨_, rfl⟩
  refine ⟨d, ?_, hvar, ?_⟩
  · have hnc : types v ≠ .continuous := by
      obtain ⟨n, dn, hk, _⟩ := exists_leaf_var (v := v) hM.layered hM.scope (by simp)
      rcases hleaf n dn hk with ⟨h1, _⟩ | ⟨h1, _⟩ <;> simp [h1]
    simp only [marginal, hmar, bind, Except.bind, simplifyUnivariate, hM.vars, Finset.card_singleton, lt_self_iff_false, Bool.true_eq_false,
      or_self, if_false, Finset.sort_singleton]
    cases hT : types v with
    | continuous => exact absurd hT hnc
    | symbolic => simp only [hmix, Except.map]
    | integer => simp only [hmix, Except.map]
  · intro dom hdom A hA m₁
    rw [← h86 dom hdom A hA freshMem, ← marginal_probability h hE hci (fun x hx cj hcj _ => hh x hx cj hcj) hM hdom hA freshMem freshMem]
    have hdomF := tree_domain h hE hdom
    have hdomG : DomainFor g dom :=
      ⟨hdomF.disjoint, fun n d hk => hdomF.fits n d (hM.kind n _ hk), fun n d hk => hdomF.covers n d (hM.kind n _ hk)⟩
    have hEv := tree_event h hE hci hA (V := {v}) (by simp [hv])
    have hEvG : EventFor g {v} [(v, A)] :=
      ⟨hEv.nodup, hEv.keys, hEv.disjoint, fun p hp n d hk => hEv.fits p hp n d (hM.kind n _ hk)⟩
    -- a leaf of the marginal has the same type as the new distribution
    obtain ⟨n₀, d₀, hk₀, _⟩ := exists_leaf_var (v := v) hM.layered hM.scope (by simp)
    have hfits : ∀ B : VSet, Fits d₀ B → Fits d B := by
      intro B hB
      rw [hdp]
      rcases hleaf n₀ d₀ hk₀ with ⟨h1, p₀, rfl⟩ | ⟨h1, p₀, rfl⟩
      · simp only [h1, decide_true, if_true]
        cases B <;> exact hB
      · simp only [h1, reduceCtorEq, decide_false, Bool.false_eq_true, if_false]
        cases B <;> exact hB
    have hdomL : DomainFor (newUnit 0 (.leaf d)) dom := by
      refine ⟨hdom.disjoint, fun n d' hk => ?_, fun n d' hk => ?_⟩
      · have := kind_newUnit_leaf hk
        subst this
        rw [hvar]
        have := hdomG.fits n₀ d₀ hk₀
        rw [hM.var hk₀] at this
        exact hfits _ this
      · have := kind_newUnit_leaf hk
        subst this
        rw [hvar]
        have hz : ∀ k : ℤ, (k : ℝ) ∉ (dom v).toSet → leafDensity d' k = 0 := by
          intro k hk0
          rw [hdens]
          have hzero : CircuitValue g (fun d => leafDensity d k) fun _ => 0 := by
            refine ⟨fun n dn hkn => ?_, fun n hkn => by simp, fun n hkn => ?_⟩
            · have hc := hdomG.covers n dn hkn
              rw [hM.var hkn] at hc
              have hc' : leafLaw dn {(k : ℝ)} = 0 := measure_mono_null (by simpa using hk0) hc
              have hval := hvG n dn hkn
              rcases hleaf n dn hkn with ⟨_, pn, rfl⟩ | ⟨_, pn, rfl⟩ <;> exact (density_zero hval.1 hc').symm
            · have := hM.oneFactor n hkn
              rw [succ, List.length_map] at this
              obtain ⟨e, he⟩ := List.length_eq_one_iff.1 this
              simp [he]
          exact circuitValue_unique hM.layered.wf hM.layered.graded.acyclic (hf k) hzero r (root_mem hM.layered.root).1
        rcases hdisc with ⟨p', rfl⟩ | ⟨p', rfl⟩ <;> exact law_zero hdv.1 hdv.2 (VSet.measurableSet_toSet _) hz
    have hEvL : EventFor (newUnit 0 (.leaf d)) {v} [(v, A)] := by
      refine ⟨hEv.nodup, hEv.keys, hEv.disjoint, fun p hp n d' hk hd' => ?_⟩
      have := kind_newUnit_leaf hk
      subst this
      refine hfits _ (hEvG.fits p hp n₀ d₀ hk₀ ?_)
      rw [hM.var hk₀, ← hvar, hd']
    have hbG : ∀ n d, g.kind? n = some (.leaf d) → HasBase (fun _ => false) d := by
      intro n dn hk
      rcases hleaf n dn hk with ⟨_, pn, rfl⟩ | ⟨_, pn, rfl⟩ <;> rfl
    have hbL : ∀ n d', (newUnit 0 (.leaf d)).kind? n = some (.leaf d') → HasBase (fun _ => false) d' := by
      intro n d' hk
      have := kind_newUnit_leaf hk
      subst this
      rcases hdisc with ⟨_, rfl⟩ | ⟨_, rfl⟩ <;> rfl
    have hsL : Scoped (newUnit 0 (.leaf d)) fun _ => {v} := hvar ▸ leaf_scoped 0 d
    have hdecL : Decomposable (newUnit 0 (.leaf d)) fun _ => {v} := by
      intro n hk
      have hn := mem_ids_of_kind? hk
      simp only [ids_newUnit, List.mem_singleton] at hn
      subst hn
      rw [kind?_newUnit] at hk
      cases hk
    obtain ⟨P, hP0, hP, hPi⟩ := C04_probability_is_integral hM.layered hM.scope hM.decomposable hvG hbG hdomG (Es := [[(v, A)]])
      (by simpa using hEvG) (by simp [DisjointFamily]) hlik freshMem
    obtain ⟨P', hP0', hP', hPi'⟩ := C04_probability_is_integral (layered_newUnit 0 (.leaf d)) hsL hdecL (leaf_valid hdv) hbL hdomL
      (Es := [[(v, A)]]) (by simpa using hEvL) (by simp [DisjointFamily]) (fun x => leaf_likelihood hdv freshMem x) m₁
    rw [hP, hP']
    congr 1
    refine (ENNReal.ofReal_eq_ofReal_iff hP0' hP0).1 ?_
    rw [hPi, hPi']
    simp only [hdens, hvar]

/-- What `marginal` returns for the variable of a continuous column, in terms of the marginal without simplification. -/
theorem marginal_continuous {st : State} {E : List Emitted} (h : TreeInput S data) (hE : Inv S I data st [] E) {types : Var → VarType}
    (ht : TypesOf S.columns types) {P : Learn.Nyga.Params} {i : ℕ} (hci : (Column.continuous P, i) ∈ S.columns.zipIdx) (m : Mem Event)
    (m' : Mem ℝ) :
    ∃ g r, marginal types st.circuit {P.var} false m m' = .ok (some g) ∧ OneVariableMarginal st.circuit g 0 r P.var ∧
      marginal types st.circuit {P.var} true m m' = (Learn.Nyga.fromUniformMixture g m').map some := by
  obtain ⟨g, r, hmar, hM⟩ := tree_marginal h hE hci
  have hmar' : st.circuit.marginalInPlace {P.var} = .ok (some g) := hmar
  have hM' : OneVariableMarginal st.circuit g 0 r P.var := hM
  have hty : types P.var = .continuous := ht _ (List.fst_mem_of_mem_zipIdx hci)
  refine ⟨g, r, ?_, hM', ?_⟩
  · simp only [marginal, hmar', bind, Except.bind, simplifyUnivariate, hM'.vars, or_true, if_true, Except.map]
  · simp only [marginal, hmar', bind, Except.bind, simplifyUnivariate, hM'.vars, Finset.card_singleton, lt_self_iff_false,
      Bool.true_eq_false, or_self, if_false, Finset.sort_singleton, hty]

/-- The marginal on a continuous variable, if all leaves of the tree for it are uniform distributions and the marginal without
simplification is not a single leaf: a model with the probabilities of the tree, of whose leaves at most one has a positive likelihood at
each point. -/
theorem C87_continuous_partial (h : TreeInput S data)
    (hI : SplitContract I S.minImprovement (requiredSamples S.minSamplesLeaf data.length)) {q : List Task} {st : State}
    (hfit : fit S I data [] = (q, .ok st)) {types : Var → VarType} (ht : TypesOf S.columns types) {P : Learn.Nyga.Params} {i : ℕ}
    (hci : (Column.continuous P, i) ∈ S.columns.zipIdx)
    (hh : ∀ x ∈ data, ∀ cj ∈ S.columns.zipIdx, HashesToItself x cj) (m : Mem Event) (m' : Mem ℝ)
    (hdirac : ∀ n x c, st.circuit.kind? n ≠ some (.leaf (.dirac P.var x c))) {g : Circuit}
    (hg : marginal types st.circuit {P.var} false m m' = .ok (some g)) (hroot : ∀ n d, g.root = .ok n → g.kind? n ≠ some (.leaf d)) :
    ∃ g', marginal types st.circuit {P.var} true m m' = .ok (some g') ∧
      (∀ dom, ColumnDomains S.columns dom → ∀ A, SetOf (.continuous P) A → ∀ m₁ m₂,
        (g'.probability m₁ dom [[(P.var, A)]]).2 = (st.circuit.probability m₂ dom [[(P.var, A)]]).2) ∧
      ∀ x n d n' d', g'.kind? n = some (.leaf d) → g'.kind? n' = some (.leaf d') → leafDensity d x ≠ 0 → leafDensity d' x ≠ 0 →
        n = n' := by
  obtain ⟨st', E, hfit', hE⟩ := fit_ok h (minSamples_eq S data.length ▸ hI)
  rw [hfit] at hfit'
  simp only [Prod.mk.injEq, Except.ok.injEq] at hfit'
  obtain ⟨rfl, rfl⟩ := hfit'
  obtain ⟨hD, _, _⟩ := denotes_tree (emitted_ne_nil hE) (fun e he => ⟨_, (hE.leaf e he).2⟩) data.length
  rw [← hE.circuit] at hD
  obtain ⟨g₀, r, hg₀, hM, htrue⟩ := marginal_continuous h hE ht hci m m'
  rw [hg] at hg₀
  simp only [Except.ok.injEq, Option.some.injEq] at hg₀
  subst hg₀
  have hU : UniformMixture g r P.var := by
    refine ⟨hM.layered, fun d => hroot r d hM.layered.root, hM.scope.sumNe, hM.oneFactor, fun n d hk => ?_⟩
    have hl := marginal_column_leaf h hE hci hM hk
    have hv := hD.valid n d (hM.kind n _ hk)
    rcases hl with ⟨lo, hi, a, b, rfl⟩ | ⟨x, c, rfl⟩
    · exact ⟨lo, hi, a, b, rfl, hv⟩
    · exact absurd (hM.kind n _ hk) (hdirac n x c)
  obtain ⟨g', h1, _, h3, h4⟩ := C64_from_uniform_mixture hU m'
  refine ⟨g', by rw [htrue, h1]; rfl, ?_, h4⟩
  intro dom hdom A hA m₁ m₂
  have hmp := marginal_probability h hE hci (fun x hx cj hcj _ => hh x hx cj hcj) hM hdom hA freshMem m₂
  refine Eq.trans ?_ hmp
  obtain ⟨J, hJ, hall⟩ := hdom.domain _ (List.fst_mem_of_mem_zipIdx hci)
  refine h3 dom hdom.disjoint ⟨J, hJ⟩ (fun x => by rw [show dom P.var = .interval J from hJ]; exact hall x) _ ?_ (by simp [DisjointFamily]) _ _
  intro F hF
  rw [List.mem_singleton] at hF
  subst hF
  have hEv := tree_event h hE hci hA (V := {P.var}) (by simp [columnVar])
  exact ⟨hEv.nodup, hEv.keys, hEv.disjoint, fun p hp n d hk => hEv.fits p hp n d (hM.kind n _ hk)⟩

theorem mapM_borders_error {g : Circuit} : ∀ (l : List Node), (∃ n ∈ l, ∀ v lo hi a b, g.kind? n ≠ some (.leaf (.uniform v lo hi a b))) →
    l.mapM (Learn.Nyga.bordersOf g) = .error .attributeError
  | [], h => by simp at h
  | n :: l, h => by
    rw [List.mapM_cons]
    by_cases hn : ∃ v lo hi a b, g.kind? n = some (.leaf (.uniform v lo hi a b))
    · obtain ⟨v, lo, hi, a, b, hk⟩ := hn
      rw [mapM_borders_error l (by
        obtain ⟨k, hk', hku⟩ := h
        rcases List.mem_cons.1 hk' with rfl | hk'
        · exact absurd hk (hku v lo hi a b)
        · exact ⟨k, hk', hku⟩)]
      simp only [Learn.Nyga.bordersOf, hk]
      rfl
    · push Not at hn
      have : Learn.Nyga.bordersOf g n = .error .attributeError := by
        unfold Learn.Nyga.bordersOf
        split
        · next hk => exact absurd hk (hn _ _ _ _ _)
        · rfl
      rw [this]
      rfl

/-- If one of several leaves of the marginal is a Dirac distribution, `marginal` raises: it has no `interval`. -/
theorem C87_dirac_raises (h : TreeInput S data)
    (hI : SplitContract I S.minImprovement (requiredSamples S.minSamplesLeaf data.length)) {q : List Task} {st : State}
    (hfit : fit S I data [] = (q, .ok st)) {types : Var → VarType} (ht : TypesOf S.columns types) {P : Learn.Nyga.Params} {i : ℕ}
    (hci : (Column.continuous P, i) ∈ S.columns.zipIdx) (m : Mem Event) (m' : Mem ℝ) {g : Circuit}
    (hg : marginal types st.circuit {P.var} false m m' = .ok (some g)) (hroot : ∀ n d, g.root = .ok n → g.kind? n ≠ some (.leaf d))
    (hdirac : ∃ n x c, g.kind? n = some (.leaf (.dirac P.var x c))) :
    marginal types st.circuit {P.var} true m m' = .error .attributeError := by
  obtain ⟨st', E, hfit', hE⟩ := fit_ok h (minSamples_eq S data.length ▸ hI)
  rw [hfit] at hfit'
  simp only [Prod.mk.injEq, Except.ok.injEq] at hfit'
  obtain ⟨rfl, rfl⟩ := hfit'
  obtain ⟨g₀, r, hg₀, hM, htrue⟩ := marginal_continuous h hE ht hci m m'
  rw [hg] at hg₀
  simp only [Except.ok.injEq, Option.some.injEq] at hg₀
  subst hg₀
  obtain ⟨n, x, c, hk⟩ := hdirac
  have hm := (mem_leavesOf hM.layered (fun d => hroot r d hM.layered.root)).2 ⟨_, hk⟩
  have he := mapM_borders_error (g := g) (g.leavesOf r) ⟨n, hm, fun v lo hi a b h' => by rw [hk] at h'; cases h'⟩
  rw [htrue]
  unfold Learn.Nyga.fromUniformMixture
  simp only [hM.vars, bind, Except.bind, Finset.sort_singleton, hM.layered.root, Learn.Nyga.mixturePoints, he, Except.map]

/-- If the marginal without simplification is a single leaf, `marginal` returns a sum unit without children, and all queries raise. -/
theorem C87_single_leaf_raises (h : TreeInput S data)
    (hI : SplitContract I S.minImprovement (requiredSamples S.minSamplesLeaf data.length)) {q : List Task} {st : State}
    (hfit : fit S I data [] = (q, .ok st)) {types : Var → VarType} (ht : TypesOf S.columns types) {P : Learn.Nyga.Params} {i : ℕ}
    (hci : (Column.continuous P, i) ∈ S.columns.zipIdx) (m : Mem Event) (m' : Mem ℝ) {g : Circuit}
    (hg : marginal types st.circuit {P.var} false m m' = .ok (some g)) {n : Node} {d : Leaf} (hroot : g.root = .ok n)
    (hk : g.kind? n = some (.leaf d)) :
    ∃ g', marginal types st.circuit {P.var} true m m' = .ok (some g') ∧ g'.kind? 0 = some .sum ∧ g'.succ 0 = [] ∧
      (∀ m₁ x, ∃ e, g'.likelihood m₁ x = .error e) ∧ ∀ m₁ dom A, ∃ e, (g'.probability m₁ dom A).2 = .error e := by
  obtain ⟨st', E, hfit', hE⟩ := fit_ok h (minSamples_eq S data.length ▸ hI)
  rw [hfit] at hfit'
  simp only [Prod.mk.injEq, Except.ok.injEq] at hfit'
  obtain ⟨rfl, rfl⟩ := hfit'
  obtain ⟨g₀, r, hg₀, hM, htrue⟩ := marginal_continuous h hE ht hci m m'
  rw [hg] at hg₀
  simp only [Except.ok.injEq, Option.some.injEq] at hg₀
  subst hg₀
  have hr := hM.layered.root
  rw [hroot] at hr
  injection hr with hr
  subst hr
  have hl : g.leavesOf n = [] := by
    unfold leavesOf isLeafUnit
    simp [hk]
  have hpts : Learn.Nyga.mixturePoints g n = .ok [] := by
    unfold Learn.Nyga.mixturePoints
    rw [hl]
    simp [pure, Except.pure, bind, Except.bind]
  have hv : (leafMix 0 []).circuitVars = .error .indexError := rfl
  refine ⟨leafMix 0 [], ?_, rfl, rfl, fun m₁ x => ⟨.indexError, ?_⟩, fun m₁ dom A => ⟨.indexError, ?_⟩⟩
  · rw [htrue]
    unfold Learn.Nyga.fromUniformMixture
    simp only [hM.vars, bind, Except.bind, Finset.sort_singleton, hM.layered.root, hpts]
    rfl
  · simp only [likelihood, logLikelihood, hv, Except.map]
  · simp only [Graph.probability, hv]

/-- The marginal on several variables, or without simplification: a model of the kept variables with the probabilities of the tree. -/
theorem C87_joint_partial (h : TreeInput S data)
    (hI : SplitContract I S.minImprovement (requiredSamples S.minSamplesLeaf data.length)) {q : List Task} {st : State}
    (hfit : fit S I data [] = (q, .ok st)) (hh : ∀ x ∈ data, ∀ cj ∈ S.columns.zipIdx, HashesToItself x cj) (types : Var → VarType)
    {vs : Finset Var} (hvs : ∃ c ∈ S.columns, columnVar c ∈ vs) {uni : Bool}
    (huni : uni = false ∨ 1 < ((S.columns.map columnVar).toFinset ∩ vs).card) (m : Mem Event) (m' : Mem ℝ) :
    ∃ g', marginal types st.circuit vs uni m m' = .ok (some g') ∧ g'.circuitVars = .ok ((S.columns.map columnVar).toFinset ∩ vs) ∧
      ∀ dom, ColumnDomains S.columns dom → ∀ Es : Event,
        (∀ F ∈ Es, EventFor st.circuit ((S.columns.map columnVar).toFinset ∩ vs) F) → ∀ m₁ m₂,
        (g'.probability m₁ dom Es).2 = (st.circuit.probability m₂ dom Es).2 := by
  obtain ⟨st', E, hfit', hE⟩ := fit_ok h (minSamples_eq S data.length ▸ hI)
  rw [hfit] at hfit'
  simp only [Prod.mk.injEq, Except.ok.injEq] at hfit'
  obtain ⟨rfl, rfl⟩ := hfit'
  obtain ⟨hD, _, _⟩ := denotes_tree (emitted_ne_nil hE) (fun e he => ⟨_, (hE.leaf e he).2⟩) data.length
  rw [← hE.circuit] at hD
  obtain ⟨sc, hs, hdec, hsc⟩ := hD.scope
  have hn := tree_neat h hE
  have hnorm := tree_leaves_of h hE (P := fun d => d.Normalized) (by
    intro e he ck hck g r heq n d hk
    obtain ⟨hne, hsub, hfits⟩ := emitted_rows h hE he
    exact (column_leaves hne (hfits ck hck) heq n d hk).2 fun x hx => hh x (hsub x hx) ck hck)
  obtain ⟨g', h1, _, h3, h4⟩ := C10_tree_partial (vs := vs) hD.layered hs hdec hD.valid hnorm hn.norm hn.pos hn.tree (by
    rw [hsc, Finset.not_disjoint_iff]
    obtain ⟨c, hc, hcv⟩ := hvs
    exact ⟨_, List.mem_toFinset.2 (List.mem_map_of_mem hc), hcv⟩)
  rw [hsc] at h3 h4
  refine ⟨g', ?_, h3, fun dom hdom Es hEs m₁ m₂ => h4 dom (tree_domain h hE hdom) Es hEs m₁ m₂⟩
  have hc : 1 < ((S.columns.map columnVar).toFinset ∩ vs).card ∨ uni = false := huni.symm
  simp only [marginal, h1, bind, Except.bind, simplifyUnivariate, h3, if_pos hc, Except.map]

/-- The marginal on variables the tree does not have is `None`. -/
theorem C87_none (h : TreeInput S data)
    (hI : SplitContract I S.minImprovement (requiredSamples S.minSamplesLeaf data.length)) {q : List Task} {st : State}
    (hfit : fit S I data [] = (q, .ok st)) (types : Var → VarType) {vs : Finset Var} (hvs : ∀ c ∈ S.columns, columnVar c ∉ vs) (uni : Bool)
    (m : Mem Event) (m' : Mem ℝ) : marginal types st.circuit vs uni m m' = .ok none := by
  obtain ⟨st', E, hfit', hE⟩ := fit_ok h (minSamples_eq S data.length ▸ hI)
  rw [hfit] at hfit'
  simp only [Prod.mk.injEq, Except.ok.injEq] at hfit'
  obtain ⟨rfl, rfl⟩ := hfit'
  obtain ⟨hD, _, _⟩ := denotes_tree (emitted_ne_nil hE) (fun e he => ⟨_, (hE.leaf e he).2⟩) data.length
  rw [← hE.circuit] at hD
  obtain ⟨sc, hs, hdec, hsc⟩ := hD.scope
  have : st.circuit.marginalInPlace vs = .ok none := by
    rw [C10_none hD.layered hs, hsc, Finset.disjoint_left]
    intro v hv
    obtain ⟨c, hc, rfl⟩ := List.mem_map.1 (List.mem_toFinset.1 hv)
    exact hvs c hc
  simp only [marginal, this, bind, Except.bind]

/-! ### Concrete trees -/

/-- One continuous variable. -/
noncomputable def oneContinuous : Settings := ⟨[.continuous ⟨0, 1, 0⟩], 1, 0, ⊤, ⊤, 1⟩

/-- A row with the number `x`. -/
def realRow (x : ℝ) : Row := ⟨fun _ => x, fun _ => 0⟩

theorem oneContinuous_input {data : List Row} (h : data ≠ []) : TreeInput oneContinuous data where
  nonempty := h
  distinct := by simp [oneContinuous]
  columns := by
    intro ci hci
    simp only [oneContinuous, List.zipIdx_cons, List.zipIdx_nil, List.mem_singleton] at hci
    subst hci
    exact ⟨le_rfl, le_rfl⟩
  cap := one_pos

theorem oneContinuous_contract (n : ℕ) :
    SplitContract firstSample oneContinuous.minImprovement (requiredSamples oneContinuous.minSamplesLeaf n) :=
  (requiredSamples_one n).symm ▸ firstSample_contract

/-- One row: the tree has one leaf with a Dirac distribution, and the marginal is not usable. -/
theorem C87_full_false : ¬ C87_full := by
  intro hfull
  have hin := oneContinuous_input (data := [realRow 5]) (by simp)
  have hI := oneContinuous_contract 1
  obtain ⟨st, E, hfit, hE⟩ := fit_ok hin (minSamples_eq oneContinuous 1 ▸ hI)
  have hci : (Column.continuous ⟨0, 1, 0⟩, 0) ∈ oneContinuous.columns.zipIdx := by simp [oneContinuous]
  have ht : TypesOf oneContinuous.columns fun _ => .continuous := by
    intro c hc
    simp only [oneContinuous, List.mem_singleton] at hc
    subst hc
    rfl
  have hdom : ColumnDomains oneContinuous.columns (fun _ => numbers) := by
    refine ⟨fun v => by simp [VSet.Disjoint, numbers, SimpleInterval.IsEmpty], fun c hc => ?_⟩
    simp only [oneContinuous, List.mem_singleton] at hc
    subst hc
    refine ⟨_, rfl, fun x => ⟨_, List.mem_singleton_self _, ?_⟩⟩
    simp [SimpleInterval.Mem, SimpleInterval.leftOK, SimpleInterval.rightOK]
  have hA : SetOf (.continuous ⟨0, 1, 0⟩) numbers :=
    ⟨by simp [VSet.Disjoint, numbers, SimpleInterval.IsEmpty], trivial⟩
  have hall : ∀ n d, st.circuit.kind? n = some (.leaf d) → ∃ x c, d = .dirac 0 x c := by
    refine tree_leaves_of hin hE ?_
    intro e he ci' hci' g r heq n d hk
    obtain ⟨hne, hsub, _⟩ := emitted_rows hin hE he
    simp only [oneContinuous, List.zipIdx_cons, List.zipIdx_nil, List.mem_singleton] at hci'
    subst hci'
    have hfit : Learn.Nyga.fit ⟨0, 1, 0⟩ oneContinuous.cap ((rowsOf [realRow 5] e.idx).map fun x => x.real 0) none
        = .ok (newUnit 0 (.leaf (.dirac 0 5 oneContinuous.cap))) := by
      refine fit_single (by simpa using hne) ?_ _ _
      intro y hy
      obtain ⟨x, hx, rfl⟩ := List.mem_map.1 hy
      rw [List.mem_singleton.1 (hsub x hx)]
      rfl
    simp only [columnCircuit, bind, Except.bind, hfit, (layered_newUnit 0 (Kind.leaf (Leaf.dirac 0 5 oneContinuous.cap))).root,
      Except.ok.injEq, Prod.mk.injEq] at heq
    obtain ⟨rfl, rfl⟩ := heq
    exact ⟨_, _, kind_newUnit_leaf hk⟩
  obtain ⟨g', hg', hp⟩ := hfull _ _ _ hin hI _ st hfit _ ht _ hci freshMem freshMem
  have h1 := (C86_range_partial hin hI hfit (by
    intro x hx ci hci
    simp only [oneContinuous, List.zipIdx_cons, List.zipIdx_nil, List.mem_singleton] at hci
    subst hci
    trivial) hdom hci hA freshMem).1 (fun _ _ _ _ t _ _ => by
      refine ⟨_, List.mem_singleton_self _, ?_⟩
      simp [SimpleInterval.Mem, SimpleInterval.leftOK, SimpleInterval.rightOK])
  have hpp := hp _ hdom _ hA freshMem freshMem
  rw [show columnVar (Column.continuous ⟨0, 1, 0⟩) = 0 from rfl] at hpp hg'
  rw [h1] at hpp
  obtain ⟨g, r, hg, hM, htrue⟩ := marginal_continuous hin hE ht hci freshMem freshMem
  by_cases hr : ∃ d, g.kind? r = some (.leaf d)
  · obtain ⟨d, hk⟩ := hr
    obtain ⟨g'', h2, _, _, _, h3⟩ := C87_single_leaf_raises hin hI hfit ht hci freshMem freshMem hg hM.layered.root hk
    have heq := h2.symm.trans hg'
    simp only [Except.ok.injEq, Option.some.injEq] at heq
    subst heq
    obtain ⟨e, he⟩ := h3 freshMem (fun _ => numbers) [[(0, numbers)]]
    rw [he] at hpp
    cases hpp
  · push Not at hr
    obtain ⟨n, d, hk, hd⟩ := exists_leaf_var (v := 0) hM.layered hM.scope (by simp)
    obtain ⟨x, c, rfl⟩ := hall n d (hM.kind n _ hk)
    have h2 := C87_dirac_raises hin hI hfit ht hci freshMem freshMem hg (fun n' d' h' => by
      rw [hM.layered.root] at h'
      injection h' with h'
      subst h'
      exact hr d') ⟨n, x, c, hk⟩
    have heq := h2.symm.trans hg'
    cases heq

theorem one_emitted {st : State} {E : List Emitted} (hE : Inv S I data st [] E) (hn : 0 < data.length)
    (h : ∀ e ∈ E, e.start = 0 ∧ e.stop = data.length) : ∃ e, E = [e] := by
  obtain ⟨ch, h1, h2⟩ := hE.segs
  simp only [List.map_nil, List.nil_append] at h2
  have h4 := (h2.pairwise_iff (R := fun a b : ℕ × ℕ => a.2 ≤ b.1 ∨ b.2 ≤ a.1) (fun h => h.symm)).2 (h1.pairwise.imp fun h => .inl h)
  match E, emitted_ne_nil hE with
  | [], h0 => exact absurd rfl h0
  | [e], _ => exact ⟨e, rfl⟩
  | a :: b :: l, _ =>
    simp only [List.map_cons, List.pairwise_cons] at h4
    have h5 := h4.1 (b.start, b.stop) (by simp)
    have ha := h a (by simp)
    have hb := h b (by simp)
    simp only at h5
    omega

theorem emitted_all {st : State} {E : List Emitted} (hE : Inv S I data st [] E) {e : Emitted} (he : e ∈ E)
    (h : e.start = 0 ∧ e.stop = data.length) : (rowsOf data e.idx).Perm data := by
  have h1 : e.idx = st.indices := by
    rw [(hE.leaf e he).1, h.1, h.2, ← hE.length]
    simp [slice]
  have h2 : (rowsOf data (List.range data.length)) = data := by
    refine List.ext_getElem (by simp [rowsOf]) ?_
    intro i h3 h4
    simp [rowsOf, h4]
  conv_rhs => rw [← h2]
  rw [h1]
  exact hE.perm.map _

/-- The tree of one row. -/
noncomputable def oneRowTree (w : LogP) (c : ℝ) : Circuit :=
  ⟨[(0, .sum), (1, .prod), (2, .leaf (.dirac 0 5 c))], [⟨1, 2, none⟩, ⟨0, 1, some w⟩]⟩

theorem oneRow_leaf (d : Leaf) :
    (newUnit 0 .prod).attachAll 0 [(newUnit 0 (.leaf d), 0, none)] = (⟨[(0, .prod), (1, .leaf d)], [⟨0, 1, none⟩]⟩ : Circuit) := by
  rfl

theorem oneRow_copy (d : Leaf) : (⟨[(0, .prod), (1, .leaf d)], [⟨0, 1, none⟩]⟩ : Circuit).copyAt (newUnit 0 (.sum : Kind Leaf)).fresh
    = ⟨[(1, .prod), (2, .leaf d)], [⟨1, 2, none⟩]⟩ := by
  rfl

theorem oneRow_reachable (d : Leaf) : (⟨[(1, .prod), (2, .leaf d)], [⟨1, 2, none⟩]⟩ : Circuit).removeUnreachable 1
    = ⟨[(1, .prod), (2, .leaf d)], [⟨1, 2, none⟩]⟩ := by
  rfl

theorem oneRow_parts (w : LogP) (c : ℝ) :
    (newUnit 0 .sum).attachAll 0 [((newUnit 0 .prod).attachAll 0 [(newUnit 0 (.leaf (.dirac 0 5 c)), 0, none)], 0, some w)]
      = oneRowTree w c := by
  rw [oneRow_leaf]
  simp only [attachAll, List.foldl_cons, List.foldl_nil, attach, oneRow_copy]
  rw [show (newUnit 0 (.sum : Kind Leaf)).fresh + 0 = 1 from rfl, addSubcircuit, mount, oneRow_reachable]
  rfl

theorem oneRow_tree {st : State} {E : List Emitted} (hE : Inv oneContinuous firstSample [realRow 5] st [] E) :
    ∃ w, st.circuit = oneRowTree w oneContinuous.cap := by
  have hall : ∀ e ∈ E, e.start = 0 ∧ e.stop = [realRow 5].length := by
    intro e he
    have := emitted_bounds hE he
    simp only [List.length_singleton] at this ⊢
    omega
  obtain ⟨e, rfl⟩ := one_emitted hE (by simp) hall
  have hp := emitted_all hE (List.mem_singleton_self _) (hall e (List.mem_singleton_self _))
  have hrows := hp.eq_singleton
  have hleaf := (hE.leaf e (List.mem_singleton_self _)).2.eq
  rw [hrows] at hleaf
  have hfit : Learn.Nyga.fit ⟨0, 1, 0⟩ oneContinuous.cap [5] none = .ok (newUnit 0 (.leaf (.dirac 0 5 oneContinuous.cap))) :=
    fit_single (by simp) (by simp) _ _
  have hcol : columnCircuit oneContinuous.cap [realRow 5] (.continuous ⟨0, 1, 0⟩) 0
      = .ok (newUnit 0 (.leaf (.dirac 0 5 oneContinuous.cap)), 0) := by
    simp only [columnCircuit, bind, Except.bind, List.map_cons, List.map_nil, realRow, hfit,
      (layered_newUnit 0 (Kind.leaf (Leaf.dirac 0 5 oneContinuous.cap))).root]
  generalize hcap : oneContinuous.cap = c at hleaf hcol ⊢
  have hc : e.circuit = (newUnit 0 .prod).attachAll 0 [(newUnit 0 (.leaf (.dirac 0 5 c)), 0, none)] := by
    have h0 : createLeafNode c oneContinuous.columns [realRow 5]
        = .ok ((newUnit 0 .prod).attachAll 0 [(newUnit 0 (.leaf (.dirac 0 5 c)), 0, none)]) := by
      unfold createLeafNode
      rw [show oneContinuous.columns.zipIdx = [(Column.continuous ⟨0, 1, 0⟩, 0)] from rfl, List.mapM_cons, hcol]
      simp only [List.mapM_nil, bind, Except.bind, pure, Except.pure, List.map_cons, List.map_nil]
    rw [h0] at hleaf
    injection hleaf with hleaf
    exact hleaf.symm
  rw [hE.circuit, tree, partsOf]
  simp only [List.map_cons, List.map_nil, hc]
  exact ⟨_, oneRow_parts _ _⟩

theorem oneRowTree_layered (w : LogP) (c : ℝ) : Layered (oneRowTree w c) 0 where
  wf := ⟨by simp [oneRowTree, ids], by simp [oneRowTree], by simp [oneRowTree, ids], by simp [oneRowTree, ids]⟩
  graded := ⟨fun n => n, by simp [oneRowTree]⟩
  leaves := Ex.leafTerminal_of (by simp [oneRowTree, succ, outEdges])
  weighted := Ex.weighted_of (by simp [oneRowTree, outEdges])
  root := by simp [root, oneRowTree, ids, inDegree, inEdges]

theorem oneRowTree_scoped (w : LogP) (c : ℝ) : Scoped (oneRowTree w c) (fun _ => {0}) :=
  Ex.scoped_of (by simp [oneRowTree, Leaf.var]) (by simp [oneRowTree, succ, outEdges]) (by simp [oneRowTree, succ, outEdges])

theorem oneRowTree_marginal (w : LogP) (c : ℝ) :
    (oneRowTree w c).marginalInPlace {0} = .ok (some ⟨[(2, .leaf (.dirac 0 5 c))], []⟩) := by
  rw [marginal_eq (oneRowTree_layered w c) (oneRowTree_scoped w c), if_pos (keeps_iff_not_disjoint.2 (by simp))]
  generalize hg' : (oneRowTree w c).induced (keeps (fun _ => {0}) {0}) = g'
  have hg : g' = oneRowTree w c := by subst hg'; rfl
  have h0 : g'.root = .ok 0 := by subst hg; rfl
  have h1 : g'.bottomUp 0 = [2, 1, 0] := by subst hg; rfl
  simp only [simplify, h0, h1]
  subst hg
  rfl

/-- One row: the marginal without simplification is a single leaf. -/
example : ∃ q st g n d, fit oneContinuous firstSample [realRow 5] [] = (q, .ok st) ∧
    marginal (fun _ => .continuous) st.circuit {0} false freshMem freshMem = .ok (some g) ∧ g.root = .ok n ∧ g.kind? n = some (.leaf d) := by
  have hin := oneContinuous_input (data := [realRow 5]) (by simp)
  obtain ⟨st, E, hfit, hE⟩ := fit_ok hin (minSamples_eq oneContinuous 1 ▸ oneContinuous_contract 1)
  have hci : (Column.continuous ⟨0, 1, 0⟩, 0) ∈ oneContinuous.columns.zipIdx := by simp [oneContinuous]
  have ht : TypesOf oneContinuous.columns fun _ => .continuous := by
    intro c hc
    simp only [oneContinuous, List.mem_singleton] at hc
    subst hc
    rfl
  obtain ⟨g, r, hmar, hM, _⟩ := marginal_continuous hin hE ht hci freshMem freshMem
  obtain ⟨w, hw⟩ := oneRow_tree hE
  refine ⟨_, st, g, 2, .dirac 0 5 oneContinuous.cap, hfit, hmar, ?_⟩
  obtain ⟨g₁, r₁, hmar₁, _⟩ := tree_marginal hin hE hci
  rw [hw] at hmar₁
  have h1 := (oneRowTree_marginal w oneContinuous.cap).symm.trans hmar₁
  have h2 : st.circuit.marginalInPlace {0} = .ok (some g) := by
    have : marginal (fun _ => .continuous) st.circuit {0} false freshMem freshMem = .ok (some g) := hmar
    rw [marginal, hw, oneRowTree_marginal] at this
    rw [hw, oneRowTree_marginal]
    simp only [bind, Except.bind, simplifyUnivariate] at this
    revert this
    cases circuitVars (⟨[(2, .leaf (.dirac 0 5 oneContinuous.cap))], []⟩ : Circuit) <;> simp [Except.map]
  rw [hw, oneRowTree_marginal] at h2
  simp only [Except.ok.injEq, Option.some.injEq] at h2
  subst h2
  exact ⟨rfl, rfl⟩

/-- An impurity that finds no split. -/
noncomputable def neverSplit : Impurity := fun _ indices _ _ => ⟨-1, 0, indices⟩

theorem neverSplit_contract (k : ℝ) : SplitContract neverSplit 0 k where
  perm := by
    intro calls indices start stop h1 h2
    exact firstSample_contract.perm calls indices start stop h1 h2
  pos := by
    intro calls indices start stop h1 h2 h3
    simp only [neverSplit] at h3
    norm_num at h3

/-- One continuous variable and leaves of at least two samples. -/
noncomputable def twoPerLeaf : Settings := ⟨[.continuous ⟨0, 1, 0⟩], 2, 0, ⊤, ⊤, 1⟩

/-- Two rows in one leaf: two uniform distributions. -/
example : ∃ q st g, fit twoPerLeaf neverSplit [realRow 0, realRow 1] [] = (q, .ok st) ∧
    (∀ n x c, st.circuit.kind? n ≠ some (.leaf (.dirac 0 x c))) ∧
    marginal (fun _ => .continuous) st.circuit {0} false freshMem freshMem = .ok (some g) ∧
    ∀ n d, g.root = .ok n → g.kind? n ≠ some (.leaf d) := by
  have hin : TreeInput twoPerLeaf [realRow 0, realRow 1] := ⟨by simp, by simp [twoPerLeaf], (by
    intro ci hci
    simp only [twoPerLeaf, List.zipIdx_cons, List.zipIdx_nil, List.mem_singleton] at hci
    subst hci
    exact ⟨le_rfl, le_rfl⟩), one_pos⟩
  obtain ⟨st, E, hfit, hE⟩ := fit_ok hin (neverSplit_contract _)
  have hci : (Column.continuous ⟨0, 1, 0⟩, 0) ∈ twoPerLeaf.columns.zipIdx := by simp [twoPerLeaf]
  have ht : TypesOf twoPerLeaf.columns fun _ => .continuous := by
    intro c hc
    simp only [twoPerLeaf, List.mem_singleton] at hc
    subst hc
    rfl
  have hmin : twoPerLeaf.minSamples 2 = 2 := by
    rw [← minSamples_eq]
    exact if_pos (by norm_num [twoPerLeaf])
  have hall : ∀ e ∈ E, e.start = 0 ∧ e.stop = [realRow 0, realRow 1].length := by
    intro e he
    have h1 := emitted_bounds hE he
    have h2 := hE.min (e.start, e.stop) (by simpa using ⟨e, he, rfl, rfl⟩)
    simp only [List.length_cons, List.length_nil, zero_add, Nat.reduceAdd] at h1 h2 ⊢
    rw [hmin] at h2
    rcases h2 with h2 | h2
    · simpa using h2
    · have : 2 ≤ e.stop - e.start := by exact_mod_cast h2
      omega
  obtain ⟨e, rfl⟩ := one_emitted hE (by simp) hall
  have hp := emitted_all hE (List.mem_singleton_self _) (hall e (List.mem_singleton_self _))
  set col := (rowsOf [realRow 0, realRow 1] e.idx).map fun x => x.real 0 with hcol
  have hpc : col.Perm [0, 1] := hp.map fun x : Row => x.real 0
  have hF : FitInput ⟨0, 1, 0⟩ col none :=
    ⟨le_rfl, le_rfl, ⟨0, hpc.mem_iff.2 (by simp), 1, hpc.mem_iff.2 (by simp), by norm_num⟩, by simp⟩
  obtain ⟨G, r, hG, hGL, hGk, hGu, hGd, hGx, _⟩ := C39_fit hF twoPerLeaf.cap
  have hcc : columnCircuit twoPerLeaf.cap (rowsOf [realRow 0, realRow 1] e.idx) (.continuous ⟨0, 1, 0⟩) 0 = .ok (G, r) := by
    simp only [columnCircuit, bind, Except.bind, ← hcol, hG, hGL.root]
  have hsort : col.dedup.insertionSort (· ≤ ·) = [0, 1] := by
    have h1 : col.Nodup := hpc.nodup_iff.2 (by simp)
    rw [h1.dedup]
    have h2 : (col.insertionSort (· ≤ ·)).Perm [0, 1] := (List.perm_insertionSort _ _).trans hpc
    exact h2.eq_of_pairwise' (List.pairwise_insertionSort _ _) (by simp)
  have hleaves : ∀ n d, st.circuit.kind? n = some (.leaf d) → ∃ lo hi a b, d = .uniform 0 lo hi a b := by
    refine tree_leaves_of hin hE ?_
    intro e' he' ci hci' g' r' heq n d hk
    rw [List.mem_singleton] at he'
    subst he'
    simp only [twoPerLeaf, List.zipIdx_cons, List.zipIdx_nil, List.mem_singleton] at hci'
    subst hci'
    have h1 := hcc.symm.trans heq
    simp only [Except.ok.injEq, Prod.mk.injEq] at h1
    obtain ⟨rfl, rfl⟩ := h1
    obtain ⟨EE, h2, h3, _⟩ := hF.result twoPerLeaf.cap
    rw [hG] at h2
    injection h2 with h2
    subst h2
    obtain ⟨x, hx, _, rfl⟩ := h3.of_leaf hk
    obtain ⟨y, hy, rfl⟩ := List.mem_map.1 hx
    simp only [Learn.Nyga.entry, Learn.Nyga.quantile]
    exact ⟨_, _, _, _, rfl⟩
  obtain ⟨g, r₁, hmar, hM, _⟩ := marginal_continuous hin hE ht hci freshMem freshMem
  refine ⟨_, st, g, hfit, ?_, hmar, ?_⟩
  · intro n x c hk
    obtain ⟨lo, hi, a, b, h⟩ := hleaves n _ hk
    cases h
  · intro n d hn hk
    have hr := hM.layered.root
    rw [hn] at hr
    injection hr with hr
    subst hr
    obtain ⟨f, hf⟩ := exists_circuitValue hM.layered.graded.acyclic fun d' => if d' = d ∨ d'.var ≠ 0 then (1 : ℝ) else 0
    obtain ⟨f', hf'⟩ := exists_circuitValue (g := st.circuit) (by
      rw [hE.circuit]
      exact (denotes_tree (emitted_ne_nil hE) (fun e he => ⟨_, (hE.leaf e he).2⟩) 2).1.layered.graded.acyclic)
      fun d' => if d' = d ∨ d'.var ≠ 0 then (1 : ℝ) else 0
    obtain ⟨f'', hf''⟩ := exists_circuitValue hGL.graded.acyclic fun d' => if d' = d ∨ d'.var ≠ 0 then (1 : ℝ) else 0
    have h1 := hM.value _ (fun n' d' _ hd' => if_pos (.inr hd')) f' f hf' hf
    rw [hf.leaf n d hk, if_pos (.inl rfl), tree_value hin hE hci (fun d' hd' => if_pos (.inr hd')) hf'] at h1
    obtain ⟨G', r', hres⟩ := (hE.leaf e (List.mem_singleton_self _)).2.parts _ hci
    have hGG := hcc.symm.trans hres.eq
    simp only [Except.ok.injEq, Prod.mk.injEq] at hGG
    obtain ⟨rfl, rfl⟩ := hGG
    have hb := emitted_bounds hE (List.mem_singleton_self e)
    have ha := hall e (List.mem_singleton_self e)
    rw [List.map_singleton, List.sum_singleton, ← hres.denotes.value _ f'' hf'', hf''.sum r hGk, hb.2.2, ha.1, ha.2] at h1
    obtain ⟨hw1, hw2, _⟩ := C40_weights_partial hF hG hGL.root
    have h57 := C57_no_better_split hF hG hGL.root hsort.symm rfl
    have hsame : ∀ c ∈ G.succ r, G.kind? c = some (.leaf d) := by
      intro c hc
      obtain ⟨ed, hed, rfl⟩ := List.mem_map.1 hc
      by_contra hne
      have hlt : ((G.outEdges r).map fun e => linWeight e * f'' e.dst).sum < ((G.outEdges r).map linWeight).sum := by
        refine List.sum_lt_sum _ _ ?_ ⟨ed, hed, ?_⟩
        · intro e' he'
          obtain ⟨lo, hi, b, _, hk'⟩ := hGu e'.dst (List.mem_map_of_mem he')
          rw [hf''.leaf _ _ hk']
          have := (hw1 e' he').le
          split_ifs <;> linarith
        · obtain ⟨lo, hi, b, _, hk'⟩ := hGu ed.dst (List.mem_map_of_mem hed)
          have hnd : ¬ (Leaf.uniform 0 lo hi .closed b = d ∨ (Leaf.uniform 0 lo hi .closed b).var ≠ 0) := by
            rintro (h | h)
            · exact hne (h ▸ hk')
            · exact h rfl
          rw [hf''.leaf _ _ hk', if_neg hnd, mul_zero]
          exact hw1 ed hed
      rw [hw2] at hlt
      norm_num at h1
      linarith
    obtain ⟨c, hc, hc0⟩ := (hGx 0).2 ⟨⟨0, hpc.mem_iff.2 (by simp), le_rfl⟩, ⟨0, hpc.mem_iff.2 (by simp), le_rfl⟩⟩
    obtain ⟨c', hc', hc1⟩ := (hGx 1).2 ⟨⟨1, hpc.mem_iff.2 (by simp), le_rfl⟩, ⟨1, hpc.mem_iff.2 (by simp), le_rfl⟩⟩
    have hc1' : (1 : ℝ) ∈ intervalOf G c := by
      obtain ⟨v, lo, hi, a, b, h2, h3⟩ := hc1
      exact ⟨v, lo, hi, a, b, (hsame c hc).trans ((hsame c' hc').symm.trans h2), h3⟩
    obtain ⟨i, j, _, hj, hij, hbest⟩ := h57 c hc
    have hi0 := (hij 0 (by simp)).1 (by simpa using hc0)
    have hj1 := (hij 1 (by simp)).1 (by simpa using hc1')
    have h2 := hbest 1 (by simp; omega) (by simp; omega)
    exact absurd h2 (not_le.2 (Real.exp_pos _))

/-- Two rows in two leaves: two Dirac distributions. -/
example : ∃ q st g, fit oneContinuous firstSample [realRow 0, realRow 1] [] = (q, .ok st) ∧
    marginal (fun _ => .continuous) st.circuit {0} false freshMem freshMem = .ok (some g) ∧
    (∀ n d, g.root = .ok n → g.kind? n ≠ some (.leaf d)) ∧ ∃ n x c, g.kind? n = some (.leaf (.dirac 0 x c)) := by
  have hin := oneContinuous_input (data := [realRow 0, realRow 1]) (by simp)
  obtain ⟨st, E, hfit, hE⟩ := fit_ok hin (minSamples_eq oneContinuous 2 ▸ oneContinuous_contract 2)
  have hci : (Column.continuous ⟨0, 1, 0⟩, 0) ∈ oneContinuous.columns.zipIdx := by simp [oneContinuous]
  have ht : TypesOf oneContinuous.columns fun _ => .continuous := by
    intro c hc
    simp only [oneContinuous, List.mem_singleton] at hc
    subst hc
    rfl
  have hone : ∀ e ∈ E, ∃ i, e.idx = [i] := by
    intro e he
    have h1 := emitted_bounds hE he
    refine List.length_eq_one_iff.1 ?_
    rcases hE.stopped e he with h2 | h2 | ⟨calls, ix, h2⟩
    · rw [show oneContinuous.maxDepth = ⊤ from rfl, ge_iff_le, top_le_iff] at h2
      exact absurd h2 (EReal.coe_ne_top (e.depth : ℝ))
    · rw [← minSamples_eq, show oneContinuous.minSamplesLeaf = 1 from rfl, requiredSamples_one] at h2
      have : e.stop - e.start < 2 := by
        have h1' : ((e.stop - e.start : ℕ) : ℝ) < (2 : ℕ) := by simpa using h2
        exact_mod_cast h1'
      omega
    · by_contra hne
      simp only [firstSample, oneContinuous] at h2
      rw [if_pos (by omega)] at h2
      norm_num at h2
  have hval : ∀ e ∈ E, ∀ i, e.idx = [i] → ∀ ℓ, e.Fs (Column.continuous ⟨0, 1, 0⟩, 0) ℓ
      = ℓ (.dirac 0 (([realRow 0, realRow 1].getD i default).real 0) oneContinuous.cap) := by
    intro e he i hi ℓ
    obtain ⟨G, r, hres⟩ := (hE.leaf e he).2.parts _ hci
    have heq := hres.eq
    have hf : Learn.Nyga.fit ⟨0, 1, 0⟩ oneContinuous.cap ((rowsOf [realRow 0, realRow 1] e.idx).map fun x => x.real 0) none
        = .ok (newUnit 0 (.leaf (.dirac 0 (([realRow 0, realRow 1].getD i default).real 0) oneContinuous.cap))) :=
      fit_single (by simp [hi, rowsOf]) (by simp [hi, rowsOf]) _ _
    simp only [columnCircuit, bind, Except.bind, hf, (layered_newUnit 0 _).root, Except.ok.injEq, Prod.mk.injEq] at heq
    obtain ⟨rfl, rfl⟩ := heq
    obtain ⟨f, hf⟩ := exists_circuitValue hres.denotes.layered.graded.acyclic ℓ
    rw [← hres.denotes.value ℓ f hf, hf.leaf 0 _ (by rw [kind?_newUnit])]
  obtain ⟨g, r, hmar, hM, _⟩ := marginal_continuous hin hE ht hci freshMem freshMem
  refine ⟨_, st, g, hfit, hmar, ?_, ?_⟩
  · intro n d hn hk
    have hr := hM.layered.root
    rw [hn] at hr
    injection hr with hr
    subst hr
    obtain ⟨f, hf⟩ := exists_circuitValue hM.layered.graded.acyclic fun d' => if d' = .dirac 0 0 oneContinuous.cap ∨ d'.var ≠ 0 then (1 : ℝ) else 0
    obtain ⟨f', hf'⟩ := exists_circuitValue (g := st.circuit) (by
      rw [hE.circuit]
      exact (denotes_tree (emitted_ne_nil hE) (fun e he => ⟨_, (hE.leaf e he).2⟩) 2).1.layered.graded.acyclic)
      fun d' => if d' = .dirac 0 0 oneContinuous.cap ∨ d'.var ≠ 0 then (1 : ℝ) else 0
    have h1 := hM.value _ (fun n' d' _ hd' => if_pos (.inr hd')) f' f hf' hf
    rw [hf.leaf n d hk, tree_value hin hE hci (fun d' hd' => if_pos (.inr hd')) hf'] at h1
    have hperm := partition_of hE
    rw [leafSamples_eq hE] at hperm
    have h2 : (E.map fun e => (e.idx.length : ℝ) / ([realRow 0, realRow 1].length : ℕ) *
        e.Fs (Column.continuous ⟨0, 1, 0⟩, 0) fun d' => if d' = .dirac 0 0 oneContinuous.cap ∨ d'.var ≠ 0 then (1 : ℝ) else 0).sum
        = (((E.map Emitted.idx).flatten).map fun i => if i = 1 then (0 : ℝ) else 1 / 2).sum := by
      have : ∀ E' : List Emitted, (∀ e ∈ E', e ∈ E) →
        (E'.map fun e => (e.idx.length : ℝ) / ([realRow 0, realRow 1].length : ℕ) *
        e.Fs (Column.continuous ⟨0, 1, 0⟩, 0) fun d' => if d' = .dirac 0 0 oneContinuous.cap ∨ d'.var ≠ 0 then (1 : ℝ) else 0).sum
        = (((E'.map Emitted.idx).flatten).map fun i => if i = 1 then (0 : ℝ) else 1 / 2).sum := by
        intro E' hE'
        induction E' with
        | nil => simp
        | cons a l ih =>
          have ha := hE' a (by simp)
          obtain ⟨i, hi⟩ := hone a ha
          have hi2 : i < 2 := by
            have : i ∈ List.range [realRow 0, realRow 1].length := hperm.mem_iff.1 (List.mem_flatten.2 ⟨_, List.mem_map_of_mem ha, by simp [hi]⟩)
            simpa using this
          rw [List.map_cons, List.sum_cons, ih (fun e he => hE' e (by simp [he])), List.map_cons, List.flatten_cons, List.map_append, List.sum_append, hval a ha i hi, hi]
          congr 1
          interval_cases i <;> simp [realRow, Leaf.var]
      exact this E fun _ h => h
    rw [h2, (hperm.map _).sum_eq] at h1
    simp [List.range_succ] at h1
    split_ifs at h1 <;> norm_num at h1
  · obtain ⟨n, d, hk, hd⟩ := exists_leaf_var (v := 0) hM.layered hM.scope (by simp)
    have hall : ∀ n d, st.circuit.kind? n = some (.leaf d) → ∃ x c, d = .dirac 0 x c := by
      refine tree_leaves_of hin hE ?_
      intro e he ci' hci' g r heq n d hk
      obtain ⟨i, hi⟩ := hone e he
      simp only [oneContinuous, List.zipIdx_cons, List.zipIdx_nil, List.mem_singleton] at hci'
      subst hci'
      have hf : Learn.Nyga.fit ⟨0, 1, 0⟩ oneContinuous.cap ((rowsOf [realRow 0, realRow 1] e.idx).map fun x => x.real 0) none
          = .ok (newUnit 0 (.leaf (.dirac 0 (([realRow 0, realRow 1].getD i default).real 0) oneContinuous.cap))) :=
        fit_single (by simp [hi, rowsOf]) (by simp [hi, rowsOf]) _ _
      simp only [columnCircuit, bind, Except.bind, hf, (layered_newUnit 0 _).root, Except.ok.injEq, Prod.mk.injEq] at heq
      obtain ⟨rfl, rfl⟩ := heq
      exact ⟨_, _, kind_newUnit_leaf hk⟩
    obtain ⟨x, c, rfl⟩ := hall n d (hM.kind n _ hk)
    exact ⟨n, x, c, hk⟩

/-- Both variables of three rows: the hypotheses of the theorems on discrete variables and on several variables are met. -/
example : ∃ q st, fit twoColumns firstSample [row 0, row 1, row 1] [] = (q, .ok st) ∧
    (∃ d, marginal (fun v => if v = 0 then .symbolic else .integer) st.circuit {0} true freshMem freshMem
      = .ok (some (newUnit 0 (.leaf d)))) ∧
    (∃ g', marginal (fun v => if v = 0 then .symbolic else .integer) st.circuit {0, 1} true freshMem freshMem = .ok (some g') ∧
      g'.circuitVars = .ok {0, 1}) ∧
    marginal (fun v => if v = 0 then .symbolic else .integer) st.circuit {2} true freshMem freshMem = .ok none := by
  have hI : SplitContract firstSample twoColumns.minImprovement (requiredSamples twoColumns.minSamplesLeaf [row 0, row 1, row 1].length) :=
    oneInteger_contract ⊤ 3
  obtain ⟨st, r, hfit, _⟩ := C41_fit twoColumns_input hI
  have hh : ∀ x ∈ [row 0, row 1, row 1], ∀ ci ∈ twoColumns.columns.zipIdx, HashesToItself x ci := by
    intro x hx ci hci
    simp only [twoColumns, List.zipIdx_cons, List.zipIdx_nil, List.mem_cons, List.not_mem_nil, or_false] at hx hci
    rcases hci with rfl | rfl
    · trivial
    · rcases hx with rfl | rfl | rfl <;> simp [HashesToItself, row]
  have hvars : (twoColumns.columns.map columnVar).toFinset = {0, 1} := rfl
  refine ⟨_, st, hfit, ?_, ?_, ?_⟩
  · obtain ⟨d, hd, _⟩ := C87_discrete_partial twoColumns_input hI hfit hh (types := fun v => if v = 0 then .symbolic else .integer) (by
      intro c hc
      simp only [twoColumns, List.mem_cons, List.not_mem_nil, or_false] at hc
      rcases hc with rfl | rfl <;> rfl) (ci := (.symbolic 0 [(0, 0), (1, 1)], 0)) (by simp [twoColumns]) trivial freshMem freshMem
    exact ⟨d, hd⟩
  · obtain ⟨g', h1, h2, _⟩ := C87_joint_partial twoColumns_input hI hfit hh (fun v => if v = 0 then .symbolic else .integer) (vs := {0, 1})
      ⟨.integer 1, by simp [twoColumns], by simp [columnVar]⟩ (uni := true) (.inr (by rw [hvars]; simp)) freshMem freshMem
    exact ⟨g', h1, by rw [h2, hvars]; rfl⟩
  · refine C87_none twoColumns_input hI hfit _ ?_ _ _ _
    intro c hc
    simp only [twoColumns, List.mem_cons, List.not_mem_nil, or_false] at hc
    rcases hc with rfl | rfl <;> simp [columnVar]

end PM.Props
