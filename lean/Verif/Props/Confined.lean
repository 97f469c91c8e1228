import Verif.Props.Pruned

/-!
# C95: conditioning confines the model to the event

The weights after conditioning are wrong in general (C08), but what is possible is right: the event has probability one afterwards, and an
event is impossible afterwards exactly if it was impossible together with the evidence before.
-/

namespace PM.Props

open Spec Graph MeasureTheory

variable {g : Circuit} {r : Node} {sc : Node → Finset Var} {dom : Var → VSet} {E : SimpleEvent}

theorem linWeight_pos_of (hp : PositiveWeights g) {n : Node} (hk : g.kind? n = some .sum) {e : Edge} (he : e ∈ g.outEdges n) :
    0 < linWeight e := by
  obtain ⟨x, hx⟩ := hp n hk e he
  unfold linWeight
  rw [hx]
  exact Real.exp_pos x

/-- What a possible unit computes after pruning. -/
theorem pruned_positive (hL : Layered g r) (hp : PositiveWeights g) {P T C f : Node → ℝ} {B ℓ : Leaf → ℝ}
    (hP : CircuitValue g B P) (hT : RemainingWeight g P T) (hf : CircuitValue g ℓ f)
    (hC : PrunedValue g P T (fun d => ℓ d / B d) C) (hℓ : ∀ n d, g.kind? n = some (.leaf d) → 0 ≤ ℓ d)
    (hB : ∀ n d, g.kind? n = some (.leaf d) → 0 ≤ B d) (hz : ∀ n d, g.kind? n = some (.leaf d) → B d = 0 → ℓ d = 0) :
    ∀ n, n ∈ g.ids → P n ≠ 0 → 0 < T n ∧ 0 ≤ C n ∧ (C n = 0 ↔ f n = 0) ∧
      ((∀ n d, g.kind? n = some (.leaf d) → ℓ d = B d) → C n = 1) := by
  have hnull := circuitValue_null hL hP hf hB hz
  have hfnn := circuitValue_nonneg hL.wf hL.graded.acyclic hf hℓ
  refine hL.graded.acyclic.induct ?_
  intro n ih hn hPn
  have ih' : ∀ e ∈ possibleEdges g P n, 0 < T e.dst ∧ 0 ≤ C e.dst ∧ (C e.dst = 0 ↔ f e.dst = 0) ∧
      ((∀ n d, g.kind? n = some (.leaf d) → ℓ d = B d) → C e.dst = 1) := by
    intro e he
    obtain ⟨h1, h2⟩ := mem_possibleEdges.1 he
    exact ih _ (dst_mem_succ h1) (hL.wf.dstMem e (mem_outEdges.1 h1).1) h2
  obtain ⟨K, hk⟩ := exists_kind? hn
  cases K with
  | leaf d =>
    have hB : 0 < B d := by
      rw [hP.leaf n d hk] at hPn
      exact lt_of_le_of_ne (hB n d hk) (Ne.symm hPn)
    rw [hT.leaf n d hk, hC.leaf n d hk, hf.leaf n d hk]
    refine ⟨one_pos, div_nonneg (hℓ n d hk) hB.le, ?_, fun h => ?_⟩
    · rw [div_eq_zero_iff]
      exact ⟨fun h => h.resolve_right hB.ne', .inl⟩
    · rw [h n d hk, div_self hB.ne']
  | prod =>
    have hne : ∀ e ∈ g.outEdges n, e ∈ possibleEdges g P n := by
      intro e he
      refine mem_possibleEdges.2 ⟨he, fun h0 => hPn ?_⟩
      rw [hP.prod n hk]
      exact List.prod_eq_zero (List.mem_map.2 ⟨e, he, h0⟩)
    refine ⟨?_, ?_, ?_, fun h => ?_⟩
    · by_cases h1 : (possibleEdges g P n).length = 1
      · obtain ⟨e, he⟩ := List.length_eq_one_iff.1 h1
        rw [hT.single n e he]
        exact (ih' e (by rw [he]; simp)).1
      · rw [hT.prod n hk h1]
        exact one_pos
    · rw [hC.prod n hk]
      refine List.prod_nonneg fun x hx => ?_
      obtain ⟨e, he, rfl⟩ := List.mem_map.1 hx
      exact (ih' e (hne e he)).2.1
    · rw [hC.prod n hk, hf.prod n hk, List.prod_eq_zero_iff, List.prod_eq_zero_iff, List.mem_map, List.mem_map]
      exact ⟨fun ⟨e, he, h0⟩ => ⟨e, he, (ih' e (hne e he)).2.2.1.1 h0⟩, fun ⟨e, he, h0⟩ => ⟨e, he, (ih' e (hne e he)).2.2.1.2 h0⟩⟩
    · rw [hC.prod n hk]
      refine List.prod_eq_one fun x hx => ?_
      obtain ⟨e, he, rfl⟩ := List.mem_map.1 hx
      exact (ih' e (hne e he)).2.2.2 h
  | sum =>
    have hw : ∀ e ∈ possibleEdges g P n, 0 < linWeight e * T e.dst := fun e he =>
      mul_pos (linWeight_pos_of hp hk (mem_possibleEdges.1 he).1) (ih' e he).1
    have hex : ∃ e, e ∈ possibleEdges g P n := by
      by_contra hno
      apply hPn
      rw [hP.sum n hk]
      refine List.sum_eq_zero fun x hx => ?_
      obtain ⟨e, he, rfl⟩ := List.mem_map.1 hx
      have : P e.dst = 0 := by
        by_contra h0
        exact hno ⟨e, mem_possibleEdges.2 ⟨he, h0⟩⟩
      rw [this, mul_zero]
    have hden : 0 < ((possibleEdges g P n).map fun e => linWeight e * T e.dst).sum := by
      refine List.sum_pos _ ?_ ?_
      · intro x hx
        obtain ⟨e, he, rfl⟩ := List.mem_map.1 hx
        exact hw e he
      · obtain ⟨e, he⟩ := hex
        intro h0
        rw [List.map_eq_nil_iff] at h0
        rw [h0] at he
        cases he
    have hnn : ∀ x ∈ (possibleEdges g P n).map fun e => linWeight e * T e.dst * C e.dst, 0 ≤ x := by
      intro x hx
      obtain ⟨e, he, rfl⟩ := List.mem_map.1 hx
      exact mul_nonneg (hw e he).le (ih' e he).2.1
    refine ⟨?_, ?_, ?_, fun h => ?_⟩
    · by_cases h1 : (possibleEdges g P n).length = 1
      · obtain ⟨e, he⟩ := List.length_eq_one_iff.1 h1
        rw [hT.single n e he]
        exact (ih' e (by rw [he]; simp)).1
      · rw [hT.sum n hk h1]
        exact hden
    · rw [hC.sum n hk]
      exact div_nonneg (List.sum_nonneg hnn) hden.le
    · rw [hC.sum n hk, div_eq_zero_iff, or_iff_left hden.ne', hf.sum n hk]
      constructor
      · intro h0
        refine List.sum_eq_zero fun x hx => ?_
        obtain ⟨e, he, rfl⟩ := List.mem_map.1 hx
        have hz : f e.dst = 0 := by
          by_cases hPe : P e.dst = 0
          · exact hnull e.dst (hL.wf.dstMem e (mem_outEdges.1 he).1) hPe
          · have hm := mem_possibleEdges.2 ⟨he, hPe⟩
            have hle' := List.single_le_sum hnn _ (List.mem_map.2 ⟨e, hm, rfl⟩)
            rw [h0] at hle'
            have hCe : C e.dst = 0 := by
              by_contra hC0
              have := mul_pos (hw e hm) (lt_of_le_of_ne (ih' e hm).2.1 (Ne.symm hC0))
              exact absurd hle' (not_le.2 this)
            exact (ih' e hm).2.2.1.1 hCe
        rw [hz, mul_zero]
      · intro h0
        refine List.sum_eq_zero fun x hx => ?_
        obtain ⟨e, he, rfl⟩ := List.mem_map.1 hx
        have he1 := (mem_possibleEdges.1 he).1
        have hfn : ∀ x ∈ (g.outEdges n).map fun e => linWeight e * f e.dst, 0 ≤ x := by
          intro x hx
          obtain ⟨e, he, rfl⟩ := List.mem_map.1 hx
          exact mul_nonneg (linWeight_nonneg e) (hfnn e.dst (hL.wf.dstMem e (mem_outEdges.1 he).1))
        have hle' := List.single_le_sum hfn _ (List.mem_map.2 ⟨e, he1, rfl⟩)
        rw [h0] at hle'
        have hfe : f e.dst = 0 := by
          by_contra hf0
          have := mul_pos (linWeight_pos_of hp hk he1)
            (lt_of_le_of_ne (hfnn e.dst (hL.wf.dstMem e (mem_outEdges.1 he1).1)) (Ne.symm hf0))
          exact absurd hle' (not_le.2 this)
        rw [(ih' e he).2.2.1.2 hfe, mul_zero]
    · rw [hC.sum n hk, div_eq_one_iff_eq hden.ne']
      congr 1
      refine List.map_congr_left fun e he => ?_
      rw [(ih' e he).2.2.2 h, mul_one]

theorem pruned_possible (hL : Layered g r) (hp : PositiveWeights g) {P T C f : Node → ℝ} {B ℓ : Leaf → ℝ}
    (hP : CircuitValue g B P) (hT : RemainingWeight g P T) (hf : CircuitValue g ℓ f)
    (hC : PrunedValue g P T (fun d => ℓ d / B d) C) (hℓ : ∀ n d, g.kind? n = some (.leaf d) → 0 ≤ ℓ d)
    (hle : ∀ n d, g.kind? n = some (.leaf d) → ℓ d ≤ B d) :
    ∀ n, n ∈ g.ids → P n ≠ 0 → 0 < T n ∧ 0 ≤ C n ∧ (C n = 0 ↔ f n = 0) ∧
      ((∀ n d, g.kind? n = some (.leaf d) → ℓ d = B d) → C n = 1) :=
  pruned_positive hL hp hP hT hf hC hℓ (fun n d hk => (hℓ n d hk).trans (hle n d hk))
    fun n d hk h0 => le_antisymm (h0 ▸ hle n d hk) (hℓ n d hk)

theorem sum_eq_zero_iff_map {α : Type} {l : List α} {a b : α → ℝ} (ha : ∀ x ∈ l, 0 ≤ a x) (hb : ∀ x ∈ l, 0 ≤ b x)
    (h : ∀ x ∈ l, a x = 0 ↔ b x = 0) : (l.map a).sum = 0 ↔ (l.map b).sum = 0 := by
  induction l with
  | nil => simp
  | cons x l ih =>
    have ih := ih (fun y hy => ha y (by simp [hy])) (fun y hy => hb y (by simp [hy])) fun y hy => h y (by simp [hy])
    have h1 : 0 ≤ (l.map a).sum := List.sum_nonneg fun y hy => by
      obtain ⟨z, hz, rfl⟩ := List.mem_map.1 hy
      exact ha z (by simp [hz])
    have h2 : 0 ≤ (l.map b).sum := List.sum_nonneg fun y hy => by
      obtain ⟨z, hz, rfl⟩ := List.mem_map.1 hy
      exact hb z (by simp [hz])
    simp only [List.map_cons, List.sum_cons]
    rw [add_eq_zero_iff_of_nonneg (ha x (by simp)) h1, add_eq_zero_iff_of_nonneg (hb x (by simp)) h2, h x (by simp), ih]

/-- **C95**: on every smooth, decomposable tree without zero weights and every simple event `E` of positive probability that meets the
support of every leaf in at most one interval, `conditional(E)` returns a model in which `E` has probability one and in which an event
`Fs` is impossible exactly if `E ∩ Fs` is impossible in the original model.  Conditioning the result again, on a simple event `F`, returns
`None` exactly if `E ∩ F` is impossible in the original model. -/
theorem C95_confined (hL : Layered g r) (hs : Scoped g sc) (hdec : Decomposable g sc)
    (hv : ∀ n d, g.kind? n = some (.leaf d) → d.Valid) (hp : PositiveWeights g) (ht : TreeShaped g)
    (hdom : DomainFor g dom) (hE : EventFor g (sc r) E) (hpr : ProperEvent g dom E) (hone : OneInterval g dom E)
    {pE : ℝ} {m₀ : Mem ℝ} (hpE : (g.probability m₀ dom [E]).2 = .ok pE) (hpos : 0 < pE) :
    ∃ g' r', g.conditional dom [E] = .ok (some g', pE) ∧ Layered g' r' ∧ Scoped g' sc ∧ sc r' = sc r ∧
      (∀ m, (g'.probability m dom [E]).2 = .ok 1) ∧
      ∀ Fs : Event, (∀ F ∈ Fs, EventFor g (sc r) F) → ∀ m m', ∃ q p, (g'.probability m dom Fs).2 = .ok q ∧
        (g.probability m' dom (Fs.map fun F => E.inter F)).2 = .ok p ∧ 0 ≤ q ∧ (q = 0 ↔ p = 0) ∧
        ∀ F, Fs = [F] → ProperEvent g' dom F → ∀ res q', g'.conditional dom [F] = .ok (res, q') → q' = q ∧ (res = none ↔ p = 0) := by
  obtain ⟨P, T, hP, hT, _⟩ := C88_defined hL E
  rw [probability_eq hL hs hv hdom (by simpa using hE) (p := fun _ => P) (by simpa using hP)] at hpE
  simp only [List.map_cons, List.map_nil, List.sum_cons, List.sum_nil, add_zero, Except.ok.injEq] at hpE
  subst hpE
  obtain ⟨g', r', h1, h2, h3, _, h5, _, hv', hdom', hEv, _, h7⟩ := pruned_full hL hs hdec hv hp ht hdom hE hpr hone hP hT hpos
  have hr := (root_mem hL.root).1
  choose C hC using fun F : SimpleEvent => exists_prunedValue hL.graded.acyclic P T
    (fun d : Leaf => (leafLaw d).real (allowed E d.var ∩ allowed F d.var) / (leafLaw d).real (allowed E d.var))
  choose f hf using fun F : SimpleEvent => exists_circuitValue hL.graded.acyclic
    (fun d : Leaf => (leafLaw d).real (allowed E d.var ∩ allowed F d.var))
  have hposs := fun F : SimpleEvent => pruned_possible hL hp hP hT (hf F) (hC F) (fun _ _ _ => measureReal_nonneg)
    (fun n d hk => by
      have := finite_leafLaw (hv n d hk)
      exact measureReal_mono Set.inter_subset_left) r hr hpos.ne'
  refine ⟨g', r', h1, h2, h3, h5, fun m => ?_, fun Fs hF m m' => ?_⟩
  · rw [h7 [E] (by simpa using hE) C (fun F _ => hC F) m]
    simp only [List.map_cons, List.map_nil, List.sum_cons, List.sum_nil, add_zero]
    rw [(hposs E).2.2.2 fun _ d _ => by rw [Set.inter_self]]
  have hq := h7 Fs hF C (fun F _ => hC F) m
  have hzero : (Fs.map fun F => C F r).sum = 0 ↔ (Fs.map fun F => f F r).sum = 0 := by
    refine sum_eq_zero_iff_map (fun F _ => (hposs F).2.1) (fun F _ => ?_) fun F _ => (hposs F).2.2.1
    exact (circuitValue_mono hL.graded.acyclic hL.wf (hf F) (hf F) (fun _ _ _ => measureReal_nonneg) (fun _ _ _ => le_rfl) r hr).1
  refine ⟨_, (Fs.map fun F => f F r).sum, hq, ?_, ?_, hzero, ?_⟩
  · have := probability_eq hL hs hv hdom (Es := Fs.map fun F => E.inter F)
      (by intro X hX; obtain ⟨F, hFm, rfl⟩ := List.mem_map.1 hX; exact eventFor_inter hL hs hE (hF F hFm))
      (p := fun X => Classical.choose (exists_probValue hL X))
      (fun X _ => Classical.choose_spec (exists_probValue hL X)) m'
    rw [this, List.map_map]
    congr 2
    refine List.map_congr_left fun F hFm => ?_
    have hfF : ∀ φ, CircuitValue g (fun d => (leafLaw d).real (allowed (E.inter F) d.var)) φ →
        CircuitValue g (fun d => (leafLaw d).real (allowed E d.var ∩ allowed F d.var)) φ := by
      intro φ hφ
      simp only [allowed_inter (hF F hFm).nodup (compatible_of hL hs hE (hF F hFm))] at hφ
      exact hφ
    exact circuitValue_unique hL.wf hL.graded.acyclic (hfF _ (Classical.choose_spec (exists_probValue hL (E.inter F)))) (hf F) r hr
  · refine List.sum_nonneg fun x hx => ?_
    obtain ⟨F, _, rfl⟩ := List.mem_map.1 hx
    exact (hposs F).2.1
  · rintro F rfl hprF res q' hcond
    obtain ⟨h8, h9⟩ := C07_simple h2 h3 hv' hdom' (hEv F (hF F (by simp))) hprF hcond m
    rw [hq] at h8
    injection h8 with h8
    subst h8
    exact ⟨rfl, h9.trans hzero⟩

/-- `C95_confined` on `½ U[0,1] + ½ U[0,4]` given `[0, 2]`. -/
example : ∃ g' r', mix.conditional (fun _ => realLine) [upTo2] = .ok (some g', 3 / 4) ∧ Layered g' r' ∧
    ∀ m, (g'.probability m (fun _ => realLine) [upTo2]).2 = .ok 1 := by
  have hpE : (mix.probability freshMem (fun _ => realLine) [upTo2]).2 = .ok (3 / 4) := by
    rw [probability_eq mix_layered mix_scoped mix_valid mix_domain (by simpa using mix_event (by norm_num)) (p := fun _ => mixP)
      (by simpa using mixP_value)]
    simp [mixP]
  obtain ⟨g', r', h1, h2, _, _, h3, _⟩ := C95_confined mix_layered mix_scoped mix_decomposable mix_valid
    (Ex.positive_of (by simp [mix, outEdges, Ex.lw])) (by simp [TreeShaped, mix]) mix_domain (mix_event (by norm_num)) mix_proper mix_one
    hpE (by norm_num)
  exact ⟨g', r', h1, h2, h3⟩

end PM.Props
