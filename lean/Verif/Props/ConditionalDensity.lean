import Verif.Circuit.CondDensity
import Verif.Props.Unions

/-!
# C97: the likelihoods of a conditional circuit

C88, C95 and C96 are about the probabilities of events after conditioning.  C97 is about `likelihood` at every single point (for continuous
variables the probabilities do not determine it: the borders of the truncated leaves count).
-/

namespace PM.Props

open Classical Spec Graph MeasureTheory

variable {g : Circuit} {r : Node} {sc : Node → Finset Var} {dom : Var → VSet} {E : SimpleEvent} {Es : Event}

/-- What conditioning on one or more simple events yields, for arbitrary values of the leaves. -/
theorem conditional_values (hL : Layered g r) (hs : Scoped g sc) (hdec : Decomposable g sc)
    (hv : ∀ n d, g.kind? n = some (.leaf d) → d.Valid) (hp : PositiveWeights g) (ht : TreeShaped g)
    (hdom : DomainFor g dom) (hE : UnionFor g (sc r) dom Es)
    {P T : SimpleEvent → Node → ℝ} (hP : ∀ E ∈ Es, CircuitValue g (fun d => (leafLaw d).real (allowed E d.var)) (P E))
    (hT : ∀ E ∈ Es, RemainingWeight g (P E) (T E)) (hpos : ∃ E ∈ Es, P E r ≠ 0) :
    ∃ g' r' sc' y, g.conditional dom Es = .ok (some g', y) ∧ Layered g' r' ∧ Scoped g' sc' ∧
      (∀ n d, g'.kind? n = some (.leaf d) → d.Valid) ∧
      ∀ (φ : Leaf → ℝ) (ℓ : SimpleEvent → Leaf → ℝ), (∀ E ∈ Es, ∀ n d, g.kind? n = some (.leaf d) →
        (leafLaw d).real (allowed E d.var) ≠ 0 → φ (newLeaf (E.fillMissing dom ((sc r).sort (· ≤ ·))) d) = ℓ E d) →
        ∀ C : SimpleEvent → Node → ℝ, (∀ E ∈ Es, PrunedValue g (P E) (T E) (ℓ E) (C E)) → ∀ f', CircuitValue g' φ f' →
        f' r' = (Es.map fun E => P E r * C E r).sum / (Es.map fun E => P E r).sum := by
  match Es, hE, hP, hT, hpos with
  | [], _, _, _, h => obtain ⟨_, h, _⟩ := h; cases h
  | [E], hE, hP, hT, h =>
    obtain ⟨_, hm, h0⟩ := h
    rw [List.mem_singleton.1 hm] at h0
    have hm : E ∈ [E] := by simp
    have hpos : 0 < P E r := lt_of_le_of_ne (circuitValue_nonneg hL.wf hL.graded.acyclic (hP E hm) (fun _ _ _ => measureReal_nonneg) r
      (root_mem hL.root).1) (Ne.symm h0)
    obtain ⟨g', r', h1, h2, h3, _, h5, _, h6, _, _, h7, _⟩ := pruned_full hL hs hdec hv hp ht hdom (hE.event E hm) (hE.proper E hm)
      (hE.one E hm) (hP E hm) (hT E hm) hpos
    refine ⟨g', r', sc, _, h1, h2, h3, h6, fun φ ℓ hφ C hC f' hf' => ?_⟩
    obtain ⟨f'', h8, h9⟩ := h7 φ (ℓ E) (hφ E hm) (C E) (hC E hm)
    rw [circuitValue_unique h2.wf h2.graded.acyclic hf' h8 r' (root_mem h2.root).1, h9]
    simp only [List.map_cons, List.map_nil, List.sum_cons, List.sum_nil, add_zero]
    rw [mul_div_cancel_left₀ _ h0]
  | E₁ :: E₂ :: Es, hE, hP, hT, h =>
    obtain ⟨g', r', sc', y, h1, h2, h3, _, _, _, h6, _, _, h7, _⟩ := (union_full hL hs hdec hv hp ht hdom hE (by simp) hP hT).2 h
    exact ⟨g', r', sc', y, h1, h2, h3, h6, h7⟩

/-- **C97**: on every smooth, decomposable tree without zero weights and every union of one or more simple events, at least one of them
possible, that meet the support of every leaf in at most one interval, the likelihood that `conditional(Es)` gives to a point `x`, whose
values lie in the domains of the variables the simple events do not mention, is an average over the simple events, weighted with their probabilities.  For one of them it is what pruning (`PrunedValue`) makes of
the truncated densities of the leaves: the density divided by the probability of the event in the event, zero outside. -/
theorem C97_likelihood (hL : Layered g r) (hs : Scoped g sc) (hdec : Decomposable g sc)
    (hv : ∀ n d, g.kind? n = some (.leaf d) → d.Valid) (hp : PositiveWeights g) (ht : TreeShaped g)
    (hdom : DomainFor g dom) (hE : UnionFor g (sc r) dom Es)
    {P T : SimpleEvent → Node → ℝ} (hP : ∀ E ∈ Es, CircuitValue g (fun d => (leafLaw d).real (allowed E d.var)) (P E))
    (hT : ∀ E ∈ Es, RemainingWeight g (P E) (T E)) (hpos : ∃ E ∈ Es, P E r ≠ 0) :
    ∃ g' y, g.conditional dom Es = .ok (some g', y) ∧
      ∀ x : Var → ℝ, (∀ E ∈ Es, ∀ v ∈ sc r, v ∉ E.keys → x v ∈ (dom v).toSet) → ∀ C : SimpleEvent → Node → ℝ,
        (∀ E ∈ Es, PrunedValue g (P E) (T E)
          (fun d => (if x d.var ∈ allowed E d.var then leafDensity d (x d.var) else 0) / (leafLaw d).real (allowed E d.var)) (C E)) →
        ∀ m, g'.likelihood m x = .ok ((Es.map fun E => P E r * C E r).sum / (Es.map fun E => P E r).sum) := by
  obtain ⟨g', r', sc', y, h1, h2, h3, h4, h5⟩ := conditional_values hL hs hdec hv hp ht hdom hE hP hT hpos
  refine ⟨g', y, h1, fun x hx C hC m => ?_⟩
  obtain ⟨f', hf'⟩ := exists_circuitValue h2.graded.acyclic fun d : Leaf => leafDensity d (x d.var)
  obtain ⟨_, _, _, _, h6⟩ := C01_loglikelihood h2 h3 h4 x hf' m
  rw [h6, h5 _ _ (fun E hEm n d hk h0 =>
    (newLeaf_density hL hs hv hdom (hE.event E hEm) (hE.proper E hEm) (hE.one E hEm) (hx E hEm) hk).1 h0) C hC f' hf']

/-- The densities inside of the event. -/
theorem inside_value (hL : Layered g r) (hs : Scoped g sc) (hE : EventFor g (sc r) E) {x : Var → ℝ} {f φ : Node → ℝ}
    (hf : CircuitValue g (fun d => leafDensity d (x d.var)) f)
    (hφ : CircuitValue g (fun d => if x d.var ∈ allowed E d.var then leafDensity d (x d.var) else 0) φ) :
    φ r = if E.Mem x then f r else 0 := by
  have hr := (root_mem hL.root).1
  by_cases hx : E.Mem x
  · rw [if_pos hx]
    have hall : ∀ v, x v ∈ allowed E v := fun v p hp hpv => hpv ▸ hx p hp
    simp only [hall, if_true] at hφ
    exact circuitValue_unique hL.wf hL.graded.acyclic hφ hf r hr
  · rw [if_neg hx]
    unfold SimpleEvent.Mem at hx
    push Not at hx
    obtain ⟨p, hp, hpx⟩ := hx
    refine value_zero hL hs hφ (v := p.1) (fun d hd => if_neg fun h => hpx ?_) r hr (hE.keys p.1 (List.mem_map.2 ⟨p, hp, rfl⟩))
    have := h p hp hd.symm
    rwa [hd] at this

/-- The probabilities of the simple events, unit by unit, and the weights that remain. -/
theorem exists_values (hL : Layered g r) : ∃ P T : SimpleEvent → Node → ℝ, (∀ E, CircuitValue g (fun d => (leafLaw d).real (allowed E d.var)) (P E)) ∧
    ∀ E, RemainingWeight g (P E) (T E) := by
  choose P hP using fun E : SimpleEvent => exists_circuitValue hL.graded.acyclic fun d : Leaf => (leafLaw d).real (allowed E d.var)
  choose T hT using fun E => exists_remainingWeight hL.graded.acyclic hL.leaves (P E)
  exact ⟨P, T, hP, hT⟩

theorem exists_possible {P : SimpleEvent → Node → ℝ} {pE : ℝ} (h : (Es.map fun E => P E r).sum = pE) (hpos : 0 < pE) :
    ∃ E ∈ Es, P E r ≠ 0 := by
  by_contra hno
  push Not at hno
  refine (h ▸ hpos).ne' (List.sum_eq_zero fun x hx => ?_)
  obtain ⟨E, hEm, rfl⟩ := List.mem_map.1 hx
  exact hno E hEm

/-- **C97**: a point of the domain (as far as the simple events leave variables out) has a positive likelihood after conditioning exactly if it had one before and lies in the event.  The
weights in the result do not matter for this, so it holds where C08 fails. -/
theorem C97_support (hL : Layered g r) (hs : Scoped g sc) (hdec : Decomposable g sc)
    (hv : ∀ n d, g.kind? n = some (.leaf d) → d.Valid) (hp : PositiveWeights g) (ht : TreeShaped g)
    (hdom : DomainFor g dom) (hE : UnionFor g (sc r) dom Es)
    {pE : ℝ} {m₀ : Mem ℝ} (hpE : (g.probability m₀ dom Es).2 = .ok pE) (hpos : 0 < pE) :
    ∃ g' y, g.conditional dom Es = .ok (some g', y) ∧
      ∀ x : Var → ℝ, (∀ E ∈ Es, ∀ v ∈ sc r, v ∉ E.keys → x v ∈ (dom v).toSet) → ∀ m m', ∃ q p, g'.likelihood m x = .ok q ∧ g.likelihood m' x = .ok p ∧
        0 ≤ q ∧ (0 < q ↔ 0 < p ∧ ∃ E ∈ Es, E.Mem x) := by
  have hr := (root_mem hL.root).1
  obtain ⟨P, T, hP, hT⟩ := exists_values hL
  rw [probability_eq hL hs hv hdom hE.event (p := P) fun E _ => hP E] at hpE
  simp only [Except.ok.injEq] at hpE
  have hPnn : ∀ E, 0 ≤ P E r := fun E =>
    circuitValue_nonneg hL.wf hL.graded.acyclic (hP E) (fun _ _ _ => measureReal_nonneg) r hr
  obtain ⟨g', y, h1, h2⟩ := C97_likelihood hL hs hdec hv hp ht hdom hE (fun E _ => hP E) (fun E _ => hT E) (exists_possible hpE hpos)
  refine ⟨g', y, h1, fun x hx m m' => ?_⟩
  obtain ⟨f, hf⟩ := exists_circuitValue hL.graded.acyclic fun d : Leaf => leafDensity d (x d.var)
  obtain ⟨_, _, _, _, h3⟩ := C01_loglikelihood hL hs hv x hf m'
  have hdnn : ∀ n d, g.kind? n = some (.leaf d) → 0 ≤ leafDensity d (x d.var) := fun n d hk => leafDensity_nonneg (hv n d hk) _
  choose φ hφ using fun E : SimpleEvent => exists_circuitValue hL.graded.acyclic
    fun d : Leaf => if x d.var ∈ allowed E d.var then leafDensity d (x d.var) else 0
  choose C hC using fun E : SimpleEvent => exists_prunedValue hL.graded.acyclic (P E) (T E)
    fun d : Leaf => (if x d.var ∈ allowed E d.var then leafDensity d (x d.var) else 0) / (leafLaw d).real (allowed E d.var)
  have hℓnn : ∀ E : SimpleEvent, ∀ n d, g.kind? n = some (.leaf d) → (0 : ℝ) ≤ if x d.var ∈ allowed E d.var then leafDensity d (x d.var) else 0 := by
    intro E n d hk
    split
    · exact hdnn n d hk
    · exact le_rfl
  have hz : ∀ E ∈ Es, ∀ n d, g.kind? n = some (.leaf d) → (leafLaw d).real (allowed E d.var) = 0 →
      (if x d.var ∈ allowed E d.var then leafDensity d (x d.var) else 0) = 0 := by
    intro E hEm n d hk h0
    split
    · rename_i hmem
      exact (newLeaf_density hL hs hv hdom (hE.event E hEm) (hE.proper E hEm) (hE.one E hEm) (hx E hEm) hk).2 h0 hmem
    · rfl
  have hterm : ∀ E ∈ Es, 0 ≤ P E r * C E r ∧ (0 < P E r * C E r ↔ 0 < f r ∧ E.Mem x) := by
    intro E hEm
    have hin := inside_value hL hs (hE.event E hEm) hf (hφ E)
    have hfnn : 0 ≤ f r := circuitValue_nonneg hL.wf hL.graded.acyclic hf hdnn r hr
    have hφnn : 0 ≤ φ E r := circuitValue_nonneg hL.wf hL.graded.acyclic (hφ E) (hℓnn E) r hr
    have hφpos : 0 < φ E r ↔ 0 < f r ∧ E.Mem x := by
      rw [hin]
      by_cases hxm : E.Mem x <;> simp [hxm]
    rw [← hφpos]
    by_cases h0 : P E r = 0
    · rw [h0, zero_mul, circuitValue_null hL (hP E) (hφ E) (fun _ _ _ => measureReal_nonneg) (hz E hEm) r hr h0]
      exact ⟨le_rfl, Iff.rfl⟩
    · obtain ⟨_, hC0, hC1, _⟩ := pruned_positive hL hp (hP E) (hT E) (hφ E) (hC E) (hℓnn E) (fun _ _ _ => measureReal_nonneg) (hz E hEm)
        r hr h0
      have hPp : 0 < P E r := lt_of_le_of_ne (hPnn E) (Ne.symm h0)
      refine ⟨mul_nonneg hPp.le hC0, ?_⟩
      rw [mul_pos_iff_of_pos_left hPp, lt_iff_le_and_ne, lt_iff_le_and_ne, ne_comm, Ne, hC1, ne_comm (a := (0 : ℝ))]
      exact ⟨fun h => ⟨hφnn, h.2⟩, fun h => ⟨hC0, h.2⟩⟩
  have hnn : ∀ z ∈ Es.map fun E => P E r * C E r, 0 ≤ z := by
    intro z hz
    obtain ⟨E, hEm, rfl⟩ := List.mem_map.1 hz
    exact (hterm E hEm).1
  refine ⟨_, f r, h2 x hx C (fun E _ => hC E) m, h3, div_nonneg (List.sum_nonneg hnn) (hpE ▸ hpos.le), ?_⟩
  rw [hpE, div_pos_iff_of_pos_right hpos]
  constructor
  · intro h
    by_contra hno
    refine h.ne' (List.sum_eq_zero fun z hz => ?_)
    obtain ⟨E, hEm, rfl⟩ := List.mem_map.1 hz
    obtain ⟨h4, h5⟩ := hterm E hEm
    refine le_antisymm (not_lt.1 fun h6 => hno ?_) h4
    exact ⟨(h5.1 h6).1, E, hEm, (h5.1 h6).2⟩
  · rintro ⟨hfp, E, hEm, hxm⟩
    exact lt_of_lt_of_le ((hterm E hEm).2.2 ⟨hfp, hxm⟩) (List.single_le_sum hnn _ (List.mem_map.2 ⟨E, hEm, rfl⟩))

theorem sum_indicator_of_disjoint {Es : Event} (h : DisjointFamily Es) (x : Var → ℝ) (a : ℝ) :
    (Es.map fun E => if E.Mem x then a else 0).sum = if ∃ E ∈ Es, E.Mem x then a else 0 := by
  induction Es with
  | nil => simp
  | cons E Es ih =>
    obtain ⟨h1, h2⟩ := List.pairwise_cons.1 h
    rw [List.map_cons, List.sum_cons, ih h2]
    by_cases hx : E.Mem x
    · have : ¬ ∃ F ∈ Es, F.Mem x := fun ⟨F, hF, hxF⟩ => h1 F hF x ⟨hx, hxF⟩
      simp [hx, this]
    · simp [hx]

/-- **C97**: if at every sum unit the probabilities of the possible children are proportional to the weights left below them (for instance
if there are no sum units), the likelihood after conditioning on disjoint simple events is the likelihood before divided by the probability
of the event inside of the event, and zero outside. -/
theorem C97_bayes (hL : Layered g r) (hs : Scoped g sc) (hdec : Decomposable g sc)
    (hv : ∀ n d, g.kind? n = some (.leaf d) → d.Valid) (hp : PositiveWeights g) (ht : TreeShaped g)
    (hdom : DomainFor g dom) (hE : UnionFor g (sc r) dom Es) (hdis : DisjointFamily Es)
    {P T : SimpleEvent → Node → ℝ} (hP : ∀ E ∈ Es, CircuitValue g (fun d => (leafLaw d).real (allowed E d.var)) (P E))
    (hT : ∀ E ∈ Es, RemainingWeight g (P E) (T E)) (hprop : ∀ E ∈ Es, Proportional g (P E) (T E))
    {pE : ℝ} {m₀ : Mem ℝ} (hpE : (g.probability m₀ dom Es).2 = .ok pE) (hpos : 0 < pE) :
    ∃ g' y, g.conditional dom Es = .ok (some g', y) ∧
      ∀ x : Var → ℝ, (∀ E ∈ Es, ∀ v ∈ sc r, v ∉ E.keys → x v ∈ (dom v).toSet) → ∀ m m', ∃ p, g.likelihood m' x = .ok p ∧
        g'.likelihood m x = .ok (if ∃ E ∈ Es, E.Mem x then p / pE else 0) := by
  have hr := (root_mem hL.root).1
  rw [probability_eq hL hs hv hdom hE.event (p := P) hP] at hpE
  simp only [Except.ok.injEq] at hpE
  obtain ⟨g', y, h1, h2⟩ := C97_likelihood hL hs hdec hv hp ht hdom hE hP hT (exists_possible hpE hpos)
  refine ⟨g', y, h1, fun x hx m m' => ?_⟩
  obtain ⟨f, hf⟩ := exists_circuitValue hL.graded.acyclic fun d : Leaf => leafDensity d (x d.var)
  obtain ⟨_, _, _, _, h3⟩ := C01_loglikelihood hL hs hv x hf m'
  choose φ hφ using fun E : SimpleEvent => exists_circuitValue hL.graded.acyclic
    fun d : Leaf => if x d.var ∈ allowed E d.var then leafDensity d (x d.var) else 0
  have hz : ∀ E ∈ Es, ∀ n d, g.kind? n = some (.leaf d) → (leafLaw d).real (allowed E d.var) = 0 →
      (if x d.var ∈ allowed E d.var then leafDensity d (x d.var) else 0) = 0 := by
    intro E hEm n d hk h0
    split
    · rename_i hmem
      exact (newLeaf_density hL hs hv hdom (hE.event E hEm) (hE.proper E hEm) (hE.one E hEm) (hx E hEm) hk).2 h0 hmem
    · rfl
  refine ⟨f r, h3, ?_⟩
  rw [h2 x hx (fun E n => φ E n / P E n) (fun E hEm => prunedValue_of_null hL hp (hP E hEm) (hprop E hEm) (hφ E)
    (fun _ _ _ => measureReal_nonneg) (hz E hEm)) m, hpE]
  have hterm : (Es.map fun E => P E r * (φ E r / P E r)) = Es.map fun E => if E.Mem x then f r else 0 := by
    refine List.map_congr_left fun E hEm => ?_
    rw [← inside_value hL hs (hE.event E hEm) hf (hφ E)]
    by_cases h0 : P E r = 0
    · rw [h0, zero_mul, circuitValue_null hL (hP E hEm) (hφ E) (fun _ _ _ => measureReal_nonneg) (hz E hEm) r hr h0]
    · rw [mul_div_cancel₀ _ h0]
  rw [hterm, sum_indicator_of_disjoint hdis]
  split
  · rfl
  · rw [zero_div]

/-! ### Concrete cases -/

theorem realLine_all (x : Var → ℝ) (V : Finset Var) (Es : Event) :
    ∀ E ∈ Es, ∀ v ∈ V, v ∉ E.keys → x v ∈ realLine.toSet := fun _ _ v _ _ => by
  rw [realLine_toSet]
  trivial

theorem upTo2_for : UnionFor mix {0} (fun _ => realLine) [upTo2] := by
  refine ⟨?_, ?_, ?_⟩ <;> intro E hE <;> rw [List.mem_singleton.1 hE]
  · exact mix_event (by norm_num)
  · exact mix_proper
  · exact mix_one

/-- `C97_likelihood` on `½ U[0,1] + ½ U[0,4]` given `[0, 2]`: the likelihood of `½` is ¾ in the result (by Bayes' rule it is ⅚). -/
example : ∃ g' y, mix.conditional (fun _ => realLine) [upTo2] = .ok (some g', y) ∧
    ∀ m, g'.likelihood m (fun _ => 1 / 2) = .ok (3 / 4) := by
  obtain ⟨g', y, h1, h2⟩ := C97_likelihood (sc := fun _ => {0}) mix_layered mix_scoped mix_decomposable mix_valid
    (Ex.positive_of (by simp [mix, outEdges, Ex.lw])) (by simp [TreeShaped, mix]) mix_domain upTo2_for (P := fun _ => mixP) (T := fun _ _ => 1)
    (by simpa using mixP_value) (fun _ _ => mix_remaining) ⟨upTo2, by simp, by simp [mixP]⟩
  refine ⟨g', y, h1, fun m => ?_⟩
  rw [h2 (fun _ => 1 / 2) (realLine_all _ _ _) (fun _ n => if n = 0 then 3 / 4 else if n = 1 then 1 else 1 / 2) ?_ m]
  · norm_num [mixP]
  intro F hF
  rw [List.mem_singleton.1 hF]
  have hkind : ∀ n, mix.kind? n = some .sum → n = 0 := fun n h =>
    Ex.forall_kind (P := fun n k => k = .sum → n = 0) (by simp [mix]) n _ h rfl
  have hin : (1 / 2 : ℝ) ∈ allowed upTo2 0 := by
    rw [allowed_single]
    norm_num
  refine ⟨?_, fun n hk => ?_, fun n hk => ?_⟩
  · intro n d hk
    have a1 := uniform_real 0 (show (0 : ℝ) < 1 by norm_num) 0 2
    have a2 := uniform_real 0 (show (0 : ℝ) < 4 by norm_num) 0 2
    refine Ex.forall_kind (P := fun n k => ∀ d, k = .leaf d → (if n = 0 then (3 / 4 : ℝ) else if n = 1 then 1 else 1 / 2) =
      (if (1 / 2 : ℝ) ∈ allowed upTo2 d.var then leafDensity d (1 / 2) else 0) / (leafLaw d).real (allowed upTo2 d.var)) ?_ n _ hk d rfl
    intro q hq d hd
    simp only [mix, List.mem_cons, List.not_mem_nil, or_false] at hq
    have hmem : ∀ hi : ℝ, 1 ≤ hi → (SimpleInterval.mk ((0 : ℝ) : EReal) (hi : EReal) .closed .closed).Mem (1 / 2) := by
      intro hi h
      have : (1 / 2 : ℝ) ∈ (VSet.interval [cc 0 hi]).toSet := by
        rw [cc_toSet]
        constructor <;> linarith
      rwa [single_toSet] at this
    rcases hq with rfl | rfl | rfl
    · cases hd
    · simp only [Kind.leaf.injEq] at hd
      subst hd
      rw [if_pos (show (1 / 2 : ℝ) ∈ allowed upTo2 (Leaf.uniform 0 0 1 .closed .closed).var from hin)]
      simp only [Leaf.var, leafDensity, allowed_single]
      rw [if_pos (hmem 1 le_rfl), a1]
      norm_num
    · simp only [Kind.leaf.injEq] at hd
      subst hd
      rw [if_pos (show (1 / 2 : ℝ) ∈ allowed upTo2 (Leaf.uniform 0 0 4 .closed .closed).var from hin)]
      simp only [Leaf.var, leafDensity, allowed_single]
      rw [if_pos (hmem 4 (by norm_num)), a2]
      norm_num
  · rw [hkind n hk, mix_possible]
    simp (disch := norm_num) [Ex.linWeight_lw, -one_div]
    norm_num
  · exact absurd rfl (Ex.forall_kind (P := fun _ k => k = .prod → (0 : ℕ) ≠ 0) (by simp [mix]) n _ hk rfl)

/-- `C97_support` on the same: exactly the points of `[0, 2]` keep a positive likelihood. -/
example : ∃ g' y, mix.conditional (fun _ => realLine) [upTo2] = .ok (some g', y) ∧
    ∀ (x : Var → ℝ) m m', ∃ q p, g'.likelihood m x = .ok q ∧ mix.likelihood m' x = .ok p ∧ (0 < q ↔ 0 < p ∧ x 0 ∈ Set.Icc (0 : ℝ) 2) := by
  have hpE : (mix.probability freshMem (fun _ => realLine) [upTo2]).2 = .ok (3 / 4) := by
    rw [probability_eq mix_layered mix_scoped mix_valid mix_domain (by simpa using mix_event (by norm_num)) (p := fun _ => mixP)
      (by simpa using mixP_value)]
    simp [mixP]
  obtain ⟨g', y, h1, h2⟩ := C97_support (sc := fun _ => {0}) mix_layered mix_scoped mix_decomposable mix_valid
    (Ex.positive_of (by simp [mix, outEdges, Ex.lw])) (by simp [TreeShaped, mix]) mix_domain upTo2_for hpE (by norm_num)
  refine ⟨g', y, h1, fun x m m' => ?_⟩
  obtain ⟨q, p, h3, h4, _, h5⟩ := h2 x (realLine_all _ _ _) m m'
  refine ⟨q, p, h3, h4, h5.trans (and_congr_right fun _ => ?_)⟩
  rw [← cc_toSet]
  simp [SimpleEvent.Mem, upTo2, VSet.toSet]

/-- `C97_bayes` on `U[0,4] × U[0,4]` given the boxes `[0,1]²` and `[2,3]²`. -/
example : ∃ g' y, square.conditional (fun _ => realLine) [both 0 1, both 2 3] = .ok (some g', y) ∧
    ∀ (x : Var → ℝ) m m', ∃ p, square.likelihood m' x = .ok p ∧
      g'.likelihood m x = .ok (if ∃ E ∈ [both 0 1, both 2 3], E.Mem x then p / (1 / 8) else 0) := by
  obtain ⟨g', y, h1, h2⟩ := C97_bayes square_layered square_scoped square_decomposable square_valid
    (fun n hk => absurd hk (square_noSum n)) (by simp [TreeShaped, square]) square_domain boxes_for boxes_disjoint
    (P := fun _ n => if n = 0 then 1 / 16 else 1 / 4) (T := fun _ _ => 1) boxes_value
    (fun _ _ => ⟨fun _ _ _ => rfl, fun _ _ _ => rfl, fun n hk _ => absurd hk (square_noSum n), fun _ _ _ => rfl⟩)
    (fun _ _ n hk => absurd hk (square_noSum n)) (boxes_probability freshMem) (by norm_num)
  exact ⟨g', y, h1, fun x m m' => h2 x (realLine_all _ _ _) m m'⟩

end PM.Props
