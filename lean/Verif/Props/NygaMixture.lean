import Verif.Learn.NygaMixtureLemmas
import Verif.Props.Probability
import Verif.Circuit.CondReady

/-!
# C64: a Nyga distribution made from a mixture of uniform distributions
-/

namespace PM.Props
open Graph Spec MeasureTheory Learn.Nyga

/-- A mixture of uniform distributions of the variable `v`: sum units and products of one factor above uniform leaves.  The root is not a
leaf. -/
structure UniformMixture (g : Circuit) (r : Node) (v : Var) : Prop where
  layered : Layered g r
  root : ∀ d, g.kind? r ≠ some (.leaf d)
  children : ∀ n, g.kind? n = some .sum → g.succ n ≠ []
  oneFactor : ∀ n, g.kind? n = some .prod → (g.succ n).length = 1
  uniform : ∀ n d, g.kind? n = some (.leaf d) → ∃ lo hi a b, d = .uniform v lo hi a b ∧ lo < hi

/-- `x` is a border of one of the leaves. -/
def IsBorder (g : Circuit) (x : ℝ) : Prop :=
  ∃ n v lo hi a b, g.kind? n = some (.leaf (.uniform v lo hi a b)) ∧ (x = lo ∨ x = hi)

namespace UniformMixture

variable {g : Circuit} {r : Node} {v : Var}

theorem scope (h : UniformMixture g r v) : Scoped g (fun _ => {v}) where
  leaf n d hk := by obtain ⟨lo, hi, a, b, rfl, _⟩ := h.uniform n d hk; rfl
  sumNe := h.children
  sum _ _ _ _ := rfl
  prod n hk w := by
    obtain ⟨c, hc⟩ := List.length_eq_one_iff.1 (h.oneFactor n hk)
    simp [hc]

theorem decomposable (h : UniformMixture g r v) : Decomposable g (fun _ => {v}) := by
  intro n hk
  obtain ⟨c, hc⟩ := List.length_eq_one_iff.1 (h.oneFactor n hk)
  simp [hc]

theorem valid (h : UniformMixture g r v) : ∀ n d, g.kind? n = some (.leaf d) → d.Valid := by
  intro n d hk
  obtain ⟨lo, hi, a, b, rfl, h1⟩ := h.uniform n d hk
  exact h1

theorem exists_leaf (h : UniformMixture g r v) : ∃ n lo hi a b, g.kind? n = some (.leaf (.uniform v lo hi a b)) ∧ lo < hi := by
  obtain ⟨n, d, hk, _⟩ := exists_leaf_var (v := v) h.layered h.scope (by simp)
  obtain ⟨lo, hi, a, b, rfl, h1⟩ := h.uniform n d hk
  exact ⟨n, lo, hi, a, b, hk, h1⟩

/-- The sorted borders. -/
theorem points (h : UniformMixture g r v) :
    ∃ pts, mixturePoints g r = .ok pts ∧ pts.Pairwise (· < ·) ∧ ∀ t, t ∈ pts ↔ IsBorder g t := by
  classical
  have hl : ∀ n ∈ g.leavesOf r, ∃ v lo hi a b, g.kind? n = some (.leaf (.uniform v lo hi a b)) := by
    intro n hn
    obtain ⟨d, hk⟩ := (mem_leavesOf h.layered h.root).1 hn
    obtain ⟨lo, hi, a, b, rfl, _⟩ := h.uniform n d hk
    exact ⟨v, lo, hi, a, b, hk⟩
  obtain ⟨bs, h1, h2, h3⟩ := mapM_borders (g.leavesOf r) hl
  refine ⟨bs.flatten.toFinset.sort (· ≤ ·), ?_, (Finset.sortedLT_sort _).pairwise, ?_⟩
  · unfold mixturePoints
    rw [h1]
    rfl
  · intro t
    rw [Finset.mem_sort, List.mem_toFinset]
    constructor
    · intro ht
      obtain ⟨n, _, v, lo, hi, a, b, hk, h4⟩ := h3 t ht
      exact ⟨n, v, lo, hi, a, b, hk, h4⟩
    · rintro ⟨n, v, lo, hi, a, b, hk, h4⟩
      obtain ⟨h5, h6⟩ := h2 n ((mem_leavesOf h.layered h.root).2 ⟨_, hk⟩) v lo hi a b hk
      rcases h4 with rfl | rfl
      · exact h5
      · exact h6

theorem value_scale {f : Node → ℝ} {ℓ ℓ' : Leaf → ℝ} {c : ℝ} (h : UniformMixture g r v) (hf : CircuitValue g ℓ f)
    (hc : ∀ n d, g.kind? n = some (.leaf d) → ℓ' d = ℓ d * c) : CircuitValue g ℓ' (fun n => f n * c) where
  leaf n d hk := by rw [hc n d hk, hf.leaf n d hk]
  sum n hk := by
    rw [hf.sum n hk, ← List.sum_map_mul_right]
    congr 1
    apply List.map_congr_left
    intro e _
    ring
  prod n hk := by
    have h1 := h.oneFactor n hk
    rw [succ, List.length_map] at h1
    obtain ⟨e, he⟩ := List.length_eq_one_iff.1 h1
    rw [hf.prod n hk, he]
    simp

/-- The mass of a piece. -/
theorem mass (h : UniformMixture g r v) {pts : List ℝ} (hp : pts.Pairwise (· < ·)) (hb : ∀ t, t ∈ pts ↔ IsBorder g t)
    {i : ℕ} (hi : i + 1 < pts.length) {x : ℝ} (h1 : pts.getD i 0 < x) (h2 : x < pts.getD (i + 1) 0) {f : Node → ℝ}
    (hf : CircuitValue g (fun d => leafDensity d x) f) (c : Bound) (m : Mem ℝ) :
    (g.probabilityOfSimpleEvent m [(v, .interval [⟨(pts.getD i 0 : EReal), (pts.getD (i + 1) 0 : EReal), .closed, c⟩])]).2
      = .ok (f r * (pts.getD (i + 1) 0 - pts.getD i 0)) := by
  unfold probabilityOfSimpleEvent
  refine (query_eq_meaning h.layered.wf h.layered.graded h.layered.root (forward_meaning h.layered
    (ℓ := fun d => leafDensity d x * (pts.getD (i + 1) 0 - pts.getD i 0)) ?_ (h.value_scale hf fun _ _ _ => rfl)) m).1
  intro n d hk
  obtain ⟨lo, hi', a, b, rfl, hlt⟩ := h.uniform n d hk
  have hlo := (hb lo).2 ⟨n, v, lo, hi', a, b, hk, .inl rfl⟩
  have hhi := (hb hi').2 ⟨n, v, lo, hi', a, b, hk, .inr rfl⟩
  have := uniform_piece (v := v) (l := a) (r := b) (c := c) hlt (h1.trans h2) (no_between hp hi hlo) (no_between hp hi hhi) h1 h2
  rw [← this]
  simp [Leaf.probEvent, SimpleEvent.get, Leaf.var, Except.bind, bind]

end UniformMixture

/-- **C64.** `NygaDistribution.from_uniform_mixture` of any mixture of uniform distributions (nested or not, overlapping or not): the
result has the likelihood of the mixture at every point that is not a border of one of its leaves, the same probability of every event,
and at every point at most one of its leaves has a positive likelihood. -/
theorem C64_from_uniform_mixture {g : Circuit} {r : Node} {v : Var} (h : UniformMixture g r v) (m : Mem ℝ) :
    ∃ g', fromUniformMixture g m = .ok g' ∧
      (∀ x : Var → ℝ, ¬ IsBorder g (x v) → g'.likelihood freshMem x = g.likelihood freshMem x) ∧
      (∀ dom : Var → VSet, (∀ u, (dom u).Disjoint) → (∃ J, dom v = .interval J) → (∀ x, (dom v).Mem x) →
        ∀ Es, (∀ E ∈ Es, EventFor g {v} E) → DisjointFamily Es →
        ∀ m₁ m₂, (g'.probability m₁ dom Es).2 = (g.probability m₂ dom Es).2) ∧
      ∀ x n d n' d', g'.kind? n = some (.leaf d) → g'.kind? n' = some (.leaf d') → leafDensity d x ≠ 0 → leafDensity d' x ≠ 0 →
        n = n' := by
  classical
  obtain ⟨pts, hpts, hp, hb⟩ := h.points
  choose f hf using fun x : ℝ => exists_circuitValue h.layered.graded.acyclic (fun d : Leaf => leafDensity d x)
  have hri := (root_mem h.layered.root).1
  have hf0 : ∀ x, 0 ≤ f x r := fun x =>
    circuitValue_nonneg h.layered.wf h.layered.graded.acyclic (hf x) (fun n d hk => leafDensity_nonneg (h.valid n d hk) _) r hri
  -- the weights
  let mid : ℝ × ℝ × Bound → ℝ := fun I => (I.1 + I.2.1) / 2
  let p : ℝ × ℝ × Bound → ℝ := fun I => f (mid I) r * (I.2.1 - I.1)
  have hlt : ∀ i, i < pts.length - 1 → pts.getD i 0 < pts.getD (i + 1) 0 := fun i hi => getD_lt hp (by omega) (by omega)
  have hw : weigh g v (pieces pts) m = .ok ((pieces pts).map p) := by
    refine weigh_eq (pieces pts) m fun I hI m => ?_
    obtain ⟨i, hi, rfl⟩ := List.mem_map.1 hI
    have hi := List.mem_range.1 hi
    have hlt := hlt i hi
    refine h.mass hp hb (by omega) ?_ ?_ (hf _) _ m
    · show pts.getD i 0 < (pts.getD i 0 + pts.getD (i + 1) 0) / 2
      linarith
    · show (pts.getD i 0 + pts.getD (i + 1) 0) / 2 < pts.getD (i + 1) 0
      linarith
  have hlen : 2 ≤ pts.length := by
    obtain ⟨n, lo, hi, a, b, hk, hlh⟩ := h.exists_leaf
    have h1 := (hb lo).2 ⟨n, v, lo, hi, a, b, hk, .inl rfl⟩
    have h2 := (hb hi).2 ⟨n, v, lo, hi, a, b, hk, .inr rfl⟩
    by_contra hc
    match pts, hc, h1, h2 with
    | [], _, h1, _ => simp at h1
    | [t], _, h1, h2 =>
      rw [List.mem_singleton] at h1 h2
      linarith
    | _ :: _ :: _, hc, _, _ => simp at hc
  have hne : entries v pts p ≠ [] := by
    simp only [entries, ne_eq, List.map_eq_nil_iff, List.range_eq_nil]
    omega
  have hfresh := entries_fresh v pts p
  have hden := hfresh.denotes hne (v := v) (by
    intro x hx
    obtain ⟨i, hi, rfl⟩ := List.mem_map.1 hx
    exact ⟨hlt i (List.mem_range.1 hi), rfl⟩)
  have hval : ∀ x : ℝ, ∀ f', CircuitValue (leafMix 0 (entries v pts p)) (fun d => leafDensity d x) f' →
      f' 0 = ∑ i ∈ Finset.range (pts.length - 1), p (piece pts i) *
        leafDensity (.uniform v (pts.getD i 0) (pts.getD (i + 1) 0) .closed (piece pts i).2.2) x := by
    intro x f' hf'
    rw [hden.value _ f' hf', entries, List.map_map, Finset.sum_eq_multiset_sum]
    change _ = (((List.range (pts.length - 1)).map _ : List ℝ) : Multiset ℝ).sum
    rw [Multiset.sum_coe]
    congr 1
    apply List.map_congr_left
    intro i hi
    have hi := List.mem_range.1 hi
    simp only [Function.comp, pieceEntry]
    rw [LogP.exp_log]
    · rfl
    · exact mul_nonneg (hf0 _) (sub_nonneg.2 (hlt i hi).le)
  -- the density of the mixture is constant on pieces
  have hconst : ∀ i, i < pts.length - 1 → ∀ x, pts.getD i 0 < x → x < pts.getD (i + 1) 0 →
      p (piece pts i) = f x r * (pts.getD (i + 1) 0 - pts.getD i 0) := by
    intro i hi x h1 h2
    have hlt := hlt i hi
    have e1 := h.mass hp hb (by omega) h1 h2 (hf x) .closed m
    have e2 := h.mass (x := mid (piece pts i)) hp hb (by omega)
      (show pts.getD i 0 < (pts.getD i 0 + pts.getD (i + 1) 0) / 2 by linarith)
      (show (pts.getD i 0 + pts.getD (i + 1) 0) / 2 < pts.getD (i + 1) 0 by linarith) (hf _) .closed m
    rw [e1] at e2
    injection e2 with e2
    exact e2.symm
  have hdensity : ∀ x, ¬ IsBorder g x → ∀ f', CircuitValue (leafMix 0 (entries v pts p)) (fun d => leafDensity d x) f' →
      f' 0 = f x r := by
    intro x hx f' hf'
    rw [hval x f' hf']
    have hout : (∀ t ∈ pts, x < t) ∨ (∀ t ∈ pts, t < x) → (∀ i ∈ Finset.range (pts.length - 1), p (piece pts i) *
        leafDensity (.uniform v (pts.getD i 0) (pts.getD (i + 1) 0) .closed (piece pts i).2.2) x = 0) ∧ f x r = 0 := by
      intro ho
      constructor
      · intro i hi
        have hi := Finset.mem_range.1 hi
        rw [uniform_outside, mul_zero]
        have m1 : pts.getD i 0 ∈ pts := by rw [getD_get (by omega)]; exact List.getElem_mem _
        have m2 : pts.getD (i + 1) 0 ∈ pts := by rw [getD_get (by omega)]; exact List.getElem_mem _
        exact ho.imp (fun ho => ho _ m1) (fun ho => ho _ m2)
      · have h0 : CircuitValue g (fun d => leafDensity d x) (fun n => f x n * 0) := by
          refine h.value_scale (hf x) fun n d hk => ?_
          obtain ⟨lo, hi, a, b, rfl, _⟩ := h.uniform n d hk
          rw [mul_zero]
          exact uniform_outside (ho.imp (fun ho => ho _ ((hb lo).2 ⟨n, v, lo, hi, a, b, hk, .inl rfl⟩))
            (fun ho => ho _ ((hb hi).2 ⟨n, v, lo, hi, a, b, hk, .inr rfl⟩)))
        rw [circuitValue_unique h.layered.wf h.layered.graded.acyclic (hf x) h0 r hri, mul_zero]
    rcases locate hp (fun hc => hx ((hb x).1 hc)) with h1 | h1 | ⟨j, hj, h1, h2⟩
    · obtain ⟨h3, h4⟩ := hout (.inl h1)
      rw [h4, Finset.sum_eq_zero h3]
    · obtain ⟨h3, h4⟩ := hout (.inr h1)
      rw [h4, Finset.sum_eq_zero h3]
    · rw [Finset.sum_eq_single j]
      · rw [hconst j (by omega) x h1 h2, uniform_inside' h1 h2]
        have : pts.getD (j + 1) 0 - pts.getD j 0 ≠ 0 := sub_ne_zero.2 (h1.trans h2).ne'
        field_simp
      · intro i hi hij
        have hi := Finset.mem_range.1 hi
        rw [uniform_outside, mul_zero]
        rcases Nat.lt_or_gt_of_ne hij with h3 | h3
        · exact .inr ((getD_le hp (show i + 1 ≤ j by omega) (by omega)).trans_lt h1)
        · exact .inl (h2.trans_le (getD_le hp (show j + 1 ≤ i by omega) (by omega)))
      · intro hc
        exact absurd (Finset.mem_range.2 (show j < pts.length - 1 by omega)) hc
  obtain ⟨sc', hsc', hdec', hscr'⟩ := hden.scope
  choose f' hf' using fun x : ℝ => exists_circuitValue hden.layered.graded.acyclic (fun d : Leaf => leafDensity d x)
  have hvar : ∀ n d, (leafMix 0 (entries v pts p)).kind? n = some (.leaf d) → ∃ i, i < pts.length - 1 ∧ n = i + 1 ∧
      d = .uniform v (pts.getD i 0) (pts.getD (i + 1) 0) .closed (piece pts i).2.2 := by
    intro n d hk
    obtain ⟨e, he, h1, h2⟩ := hfresh.of_leaf hk
    obtain ⟨i, hi, rfl⟩ := List.mem_map.1 he
    exact ⟨i, List.mem_range.1 hi, h1.symm, h2.symm⟩
  have hlik : ∀ x : Var → ℝ, (leafMix 0 (entries v pts p)).likelihood freshMem x = .ok (f' (x v) 0) := by
    intro x
    refine (C01_loglikelihood hden.layered hsc' hden.valid x (f := f' (x v)) ⟨?_, (hf' _).sum, (hf' _).prod⟩ freshMem).choose_spec.2.2.2
    intro n d hk
    obtain ⟨i, hi, rfl, rfl⟩ := hvar n d hk
    exact (hf' (x v)).leaf _ _ hk
  have hlik0 : ∀ x : Var → ℝ, g.likelihood freshMem x = .ok (f (x v) r) := by
    intro x
    refine (C01_loglikelihood h.layered h.scope h.valid x (f := f (x v)) ⟨?_, (hf _).sum, (hf _).prod⟩ freshMem).choose_spec.2.2.2
    intro n d hk
    obtain ⟨lo, hi, a, b, rfl, _⟩ := h.uniform n d hk
    exact (hf (x v)).leaf _ _ hk
  refine ⟨leafMix 0 (entries v pts p), ?_, ?_, ?_, ?_⟩
  · unfold fromUniformMixture
    rw [circuitVars_eq h.layered.wf h.layered.graded.acyclic h.scope h.layered.root]
    simp only [bind, Except.bind, Finset.sort_singleton, h.layered.root, hpts, hw]
    rw [entries_eq]
    rfl
  · intro x hx
    rw [hlik, hlik0, hdensity _ hx _ (hf' _)]
  · rintro dom hd1 ⟨J, hJ⟩ hd2 Es hE hdis m₁ m₂
    have huniv : (dom v).toSet = Set.univ := Set.eq_univ_of_forall hd2
    have hbase : ∀ n d, g.kind? n = some (.leaf d) → HasBase (fun _ => true) d := by
      intro n d hk
      obtain ⟨lo, hi, a, b, rfl, _⟩ := h.uniform n d hk
      rfl
    have hbase' : ∀ n d, (leafMix 0 (entries v pts p)).kind? n = some (.leaf d) → HasBase (fun _ => true) d := by
      intro n d hk
      obtain ⟨i, hi, rfl, rfl⟩ := hvar n d hk
      rfl
    have hdom : DomainFor g dom := by
      refine ⟨hd1, fun n d hk => ?_, fun n d hk => ?_⟩
      · obtain ⟨lo, hi, a, b, rfl, _⟩ := h.uniform n d hk
        rw [show (Leaf.uniform v lo hi a b).var = v from rfl, hJ]
        trivial
      · obtain ⟨lo, hi, a, b, rfl, _⟩ := h.uniform n d hk
        rw [show (Leaf.uniform v lo hi a b).var = v from rfl, huniv]
        simp
    have hdom' : DomainFor (leafMix 0 (entries v pts p)) dom := by
      refine ⟨hd1, fun n d hk => ?_, fun n d hk => ?_⟩
      · obtain ⟨i, hi, rfl, rfl⟩ := hvar n d hk
        simp only [Leaf.var, hJ]
        trivial
      · obtain ⟨i, hi, rfl, rfl⟩ := hvar n d hk
        simp only [Leaf.var, huniv]
        simp
    have hE' : ∀ E ∈ Es, EventFor (leafMix 0 (entries v pts p)) (sc' 0) E := by
      intro E hEm
      have h1 := hE E hEm
      refine ⟨h1.nodup, by rw [hscr']; exact h1.keys, h1.disjoint, ?_⟩
      intro q hq n d hk hd
      obtain ⟨i, hi, rfl, rfl⟩ := hvar n d hk
      obtain ⟨n', lo, hi', a, b, hk', _⟩ := h.exists_leaf
      have := h1.fits q hq n' _ hk' hd
      cases hq2 : q.2 with
      | interval I => trivial
      | symbols S => rw [hq2] at this; exact absurd this id
    obtain ⟨P, hP0, hP, hPi⟩ := C04_probability_is_integral h.layered h.scope h.decomposable h.valid hbase hdom hE hdis hlik0 m₂
    obtain ⟨P', hP0', hP', hPi'⟩ := C04_probability_is_integral hden.layered hsc' hdec' hden.valid hbase' hdom' hE' hdis hlik m₁
    rw [hP, hP']
    congr 1
    have : ENNReal.ofReal P' = ENNReal.ofReal P := by
      rw [hPi, hPi', hscr']
      unfold integralOver
      rw [lmarginal_singleton, lmarginal_singleton]
      refine lintegral_congr_ae ?_
      have hfin : {t : ℝ | t ∈ pts}.Finite := pts.toFinset.finite_toSet.subset fun t ht => by simpa using ht
      have hae : ∀ᵐ t : ℝ ∂(baseMeasure (fun _ => true) v), t ∉ {t : ℝ | t ∈ pts} := by
        have : baseMeasure (fun _ => true) v = volume := rfl
        rw [this]
        exact hfin.measure_zero _ |> measure_eq_zero_iff_ae_notMem.1
      filter_upwards [hae] with t ht
      simp only [Function.update_self]
      rw [hdensity t (fun hc => ht ((hb t).2 hc)) _ (hf' t)]
    exact (ENNReal.ofReal_eq_ofReal_iff hP0' hP0).1 this
  · intro x n d n' d' hk hk' hd hd'
    obtain ⟨i, hi, rfl, rfl⟩ := hvar n d hk
    obtain ⟨j, hj, rfl, rfl⟩ := hvar n' d' hk'
    by_contra hne
    have key : ∀ i j, i < j → j < pts.length - 1 →
        leafDensity (.uniform v (pts.getD i 0) (pts.getD (i + 1) 0) .closed (piece pts i).2.2) x ≠ 0 →
        leafDensity (.uniform v (pts.getD j 0) (pts.getD (j + 1) 0) .closed (piece pts j).2.2) x ≠ 0 → False := by
      intro i j hij hj h1 h2
      have h3 : x < pts.getD (i + 1) 0 := by
        by_contra hc
        apply h1
        simp only [leafDensity]
        rw [if_neg]
        rintro ⟨-, h4⟩
        have : (piece pts i).2.2 = .opn := by
          simp only [piece]
          rw [if_neg (by omega)]
        simp only [this, SimpleInterval.rightOK, EReal.coe_lt_coe_iff] at h4
        exact hc h4
      have h4 : pts.getD j 0 ≤ x := by
        by_contra hc
        exact h2 (uniform_outside (.inl (not_le.1 hc)))
      have := getD_le hp (show i + 1 ≤ j by omega) (by omega)
      linarith
    rcases Nat.lt_or_gt_of_ne (show i ≠ j from fun hc => hne (by rw [hc])) with h1 | h1
    · exact key i j h1 hj hd hd'
    · exact key j i h1 hi hd' hd

/-- The theorem applies to two overlapping uniform distributions. -/
example : ∃ g', fromUniformMixture (leafMix 0 [(1, .uniform 0 0 2 .closed .closed, LogP.log (1 / 4)),
    (2, .uniform 0 1 3 .opn .closed, LogP.log (3 / 4))]) freshMem = .ok g' ∧
    ∀ x : Var → ℝ, x 0 ≠ 0 → x 0 ≠ 1 → x 0 ≠ 2 → x 0 ≠ 3 → g'.likelihood freshMem x =
      (leafMix 0 [(1, .uniform 0 0 2 .closed .closed, LogP.log (1 / 4)), (2, .uniform 0 1 3 .opn .closed, LogP.log (3 / 4))]).likelihood
        freshMem x := by
  have hfr : FreshIds 0 [(1, Leaf.uniform 0 0 2 .closed .closed, LogP.log (1 / 4)), (2, .uniform 0 1 3 .opn .closed, LogP.log (3 / 4))] :=
    ⟨by simp, by simp⟩
  have hl : ∀ n d, (leafMix 0 [(1, Leaf.uniform 0 0 2 .closed .closed, LogP.log (1 / 4)),
      (2, .uniform 0 1 3 .opn .closed, LogP.log (3 / 4))]).kind? n = some (.leaf d) →
      d = .uniform 0 0 2 .closed .closed ∨ d = .uniform 0 1 3 .opn .closed := by
    intro n d hk
    obtain ⟨x, hx, rfl, rfl⟩ := hfr.of_leaf hk
    simpa using (List.mem_cons.1 hx).imp (fun h => by rw [h]) (fun h => by rw [List.mem_singleton.1 h])
  have hm : UniformMixture (leafMix 0 [(1, Leaf.uniform 0 0 2 .closed .closed, LogP.log (1 / 4)),
      (2, .uniform 0 1 3 .opn .closed, LogP.log (3 / 4))]) 0 0 := by
    refine ⟨hfr.layered, fun d hk => (by rw [hfr.kind] at hk; exact nomatch hk), ?_, fun n hk => absurd hk hfr.not_prod, ?_⟩
    · intro n hk
      rw [hfr.sum_iff.1 hk, hfr.succ]
      simp
    · intro n d hk
      rcases hl n d hk with rfl | rfl
      · exact ⟨0, 2, _, _, rfl, by norm_num⟩
      · exact ⟨1, 3, _, _, rfl, by norm_num⟩
  obtain ⟨g', h1, h2, -⟩ := C64_from_uniform_mixture hm freshMem
  refine ⟨g', h1, fun x h3 h4 h5 h6 => h2 x ?_⟩
  rintro ⟨n, v, lo, hi, a, b, hk, he⟩
  rcases hl n _ hk with h | h <;> injection h with _ e1 e2
  · subst e1 e2
    exact he.elim h3 h5
  · subst e1 e2
    exact he.elim h4 h6

/-- A circuit that is a single uniform leaf has no `leaves`: the result has a root without children and its likelihood raises. -/
theorem C64_single_leaf : ∃ g', fromUniformMixture (newUnit 0 (.leaf (.uniform 0 0 1 .closed .closed))) freshMem = .ok g' ∧
    ∀ x e, g'.likelihood freshMem x = .ok e → False := by
  have hd : Denotes (newUnit 0 (.leaf (.uniform 0 0 1 .closed .closed))) 0 {0} _ := denotes_leaf 0 (show (0 : ℝ) < 1 by norm_num)
  obtain ⟨sc, hsc, -, hr⟩ := hd.scope
  refine ⟨leafMix 0 [], ?_, ?_⟩
  · unfold fromUniformMixture
    rw [circuitVars_eq hd.layered.wf hd.layered.graded.acyclic hsc hd.layered.root, hr]
    simp only [bind, Except.bind, Finset.sort_singleton, hd.layered.root]
    have : mixturePoints (newUnit 0 (.leaf (.uniform 0 0 1 .closed .closed))) 0 = .ok [] := by
      unfold mixturePoints
      have : (newUnit 0 (.leaf (Leaf.uniform 0 0 1 .closed .closed))).leavesOf 0 = [] := rfl
      rw [this]
      simp [pure, Except.pure, bind, Except.bind]
    rw [this]
    rfl
  · intro x e h
    have hv : (leafMix 0 []).circuitVars = .error .indexError := rfl
    simp only [likelihood, logLikelihood, hv] at h
    exact absurd h (by simp [Except.map])

end PM.Props
