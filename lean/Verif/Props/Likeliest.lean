import Verif.Dist.FitLemmas
import Verif.Props.LeafDiscrete
import Verif.Props.Multinomial
import Verif.Props.Nyga

/-!
# C113: what is fitted makes the data most likely
-/

namespace PM.Props

open Graph Spec Learn Learn.Nyga MeasureTheory

/-- The likelihood of independent rows under a distribution of one variable: the product of `likelihood` of the rows. -/
noncomputable def rowsLikelihood (d : Leaf) (rows : List ℝ) : ℝ := (rows.map fun x => (d.logLik x).exp).prod

/-- The same for weighted points: the product of the densities of the points, each to the power of its weight. -/
noncomputable def weightedLikelihood (φ : ℝ → ℝ) (points ws : List ℝ) : ℝ := ((points.zip ws).map fun a => φ a.1 ^ a.2).prod

theorem discrete_likelihood {v : Var} {probs : List (ℤ × ℝ)} (h : (Leaf.integer v probs).Valid) (k : ℤ) :
    ((Leaf.integer v probs).logLik k).exp = Leaf.lookup probs k := by
  rw [exp_logLik h, lookup_eq_density probs h.2]
  rfl

theorem symbolic_likelihood {v : Var} {probs : List (ℤ × ℝ)} (h : (Leaf.symbolic v probs).Valid) (k : ℤ) :
    ((Leaf.symbolic v probs).logLik k).exp = Leaf.lookup probs k := by
  rw [exp_logLik h, lookup_eq_density probs h.2]
  rfl

/-- The full property C113 for integers: after `fit(data)` no other integer distribution makes the data more likely. -/
def C113_full : Prop := ∀ (v : Var) (data : List ℤ), data ≠ [] → ∀ probs, (Leaf.integer v probs).Valid → (Leaf.integer v probs).Normalized →
  rowsLikelihood (.integer v probs) (data.map Int.cast) ≤ rowsLikelihood (.integer v (Leaf.fitDiscrete data)) (data.map Int.cast)

/-- C113 for integers.  Among all integer distributions, the fitted one makes the data most likely, and every other one makes it less
likely.  Missing: data with the value `-1` or with values from `2^61 - 1` on, whose hash is another number. -/
theorem C113_integer_partial (v : Var) {data : List ℤ} (hne : data ≠ []) (h1 : (-1 : ℤ) ∉ data) (h2 : ∀ k ∈ data, k.natAbs < 2 ^ 61 - 1)
    {probs : List (ℤ × ℝ)} (hv : (Leaf.integer v probs).Valid) (hn : (Leaf.integer v probs).Normalized) :
    rowsLikelihood (.integer v probs) (data.map Int.cast) ≤ rowsLikelihood (.integer v (Leaf.fitDiscrete data)) (data.map Int.cast) ∧
    (rowsLikelihood (.integer v probs) (data.map Int.cast) = rowsLikelihood (.integer v (Leaf.fitDiscrete data)) (data.map Int.cast) →
      ∀ k : ℤ, ((Leaf.integer v probs).logLik k).exp = ((Leaf.integer v (Leaf.fitDiscrete data)).logLik k).exp) := by
  obtain ⟨hf, hpos, hsum, hnd, _⟩ := C32_fit_partial hne h1 h2
  have hv' : (Leaf.integer v (Leaf.fitDiscrete data)).Valid := ⟨fun kp hkp => (hpos kp hkp).le, hnd⟩
  have := dict_likeliest hne hf hv.1 hv.2 hn
  simpa only [rowsLikelihood, List.map_map, Function.comp_def, discrete_likelihood hv, discrete_likelihood hv'] using this

/-- C113 for symbols.  `h` gives every element of the domain its hash, and the hashes are different. -/
theorem C113_symbolic {α : Type} [LinearOrder α] (v : Var) {domain : List (α × ℤ)} {data : List α} (hne : data ≠ [])
    (hdom : (domain.map Prod.fst).Nodup) (hhash : (domain.map Prod.snd).Nodup) (hdata : ∀ a ∈ data, a ∈ domain.map Prod.fst)
    {h : α → ℤ} (hh : ∀ e ∈ domain, h e.1 = e.2) :
    ∃ fitted, Leaf.fitSymbolic domain data = .ok fitted ∧ ∀ probs, (Leaf.symbolic v probs).Valid → (Leaf.symbolic v probs).Normalized →
      rowsLikelihood (.symbolic v probs) (data.map fun a => (h a : ℝ)) ≤ rowsLikelihood (.symbolic v fitted) (data.map fun a => (h a : ℝ)) ∧
      (rowsLikelihood (.symbolic v probs) (data.map fun a => (h a : ℝ)) = rowsLikelihood (.symbolic v fitted) (data.map fun a => (h a : ℝ)) →
        ∀ k : ℤ, ((Leaf.symbolic v probs).logLik k).exp = ((Leaf.symbolic v fitted).logLik k).exp) := by
  obtain ⟨fitted, hfit, hf, hpos, hsum, hnd, hkeys⟩ := C32_fit_symbolic hne hdom hhash hdata
  have hinj : ∀ a ∈ domain.map Prod.fst, ∀ b ∈ domain.map Prod.fst, h a = h b → a = b := by
    intro a ha b hb hab
    obtain ⟨e, he, rfl⟩ := List.mem_map.1 ha
    obtain ⟨e', he', rfl⟩ := List.mem_map.1 hb
    rw [hh e he, hh e' he'] at hab
    rw [List.inj_on_of_nodup_map hhash he he' hab]
  have hcount : ∀ a ∈ domain.map Prod.fst, (data.map h).count (h a) = data.count a := by
    intro a ha
    rw [List.count_eq_countP, List.countP_map, List.count_eq_countP]
    apply List.countP_congr
    intro b hb
    simp only [Function.comp, beq_iff_eq]
    exact ⟨fun hab => hinj b (hdata b hb) a ha hab, fun hab => by rw [hab]⟩
  have hf' : ∀ k, Leaf.lookup fitted k = ((data.map h).count k : ℝ) / (data.map h).length := by
    intro k
    rw [List.length_map]
    by_cases hk : k ∈ domain.map Prod.snd
    · obtain ⟨e, he, rfl⟩ := List.mem_map.1 hk
      rw [hf e he, ← hh e he, hcount _ (List.mem_map_of_mem he)]
    · rw [lookup_eq_zero fun hm => hk (by
        obtain ⟨kp, hkp, rfl⟩ := List.mem_map.1 hm
        exact hkeys kp hkp), List.count_eq_zero_of_not_mem, Nat.cast_zero, zero_div]
      intro hm
      obtain ⟨a, ha, rfl⟩ := List.mem_map.1 hm
      obtain ⟨e, he, rfl⟩ := List.mem_map.1 (hdata a ha)
      exact hk (by rw [hh e he]; exact List.mem_map_of_mem he)
  refine ⟨fitted, hfit, fun probs hv hn => ?_⟩
  have hv' : (Leaf.symbolic v fitted).Valid := ⟨fun kp hkp => (hpos kp hkp).le, hnd⟩
  have := dict_likeliest (by simpa using hne) hf' hv.1 hv.2 hn
  simpa only [rowsLikelihood, List.map_map, Function.comp_def, symbolic_likelihood hv, symbolic_likelihood hv'] using this

/-- C113 for tables.  Among all tables of the same shape whose entries sum to one, the fitted one makes the rows most likely, and
every other one makes them less likely. -/
theorem C113_table {T : Multinomial} (hT : Table T) {data : List (List ℕ)} (hd : ∀ row ∈ data, IsCell T.probs.shape row) (hne : data ≠ [])
    {T' : Multinomial} (hT' : Table T') (hsh : T'.probs.shape = T.probs.shape) (h1 : cellMass T'.probs Set.univ = 1) :
    ∃ M ls ls', T.fit data = .ok M ∧ data.mapM M.likelihood = .ok ls ∧ data.mapM T'.likelihood = .ok ls' ∧ ls'.prod ≤ ls.prod ∧
      (ls'.prod = ls.prod → ∀ i, IsCell T.probs.shape i → T'.likelihood i = M.likelihood i) := by
  obtain ⟨M, hM, hvars, hTM, hone, hget⟩ := (C55_fit hT data).1 hd hne
  have hshM : M.probs.shape = T.probs.shape := by rw [hTM.shape, hT.shape, hvars]
  replace hget : ∀ i, IsCell T.probs.shape i → M.probs.get i = (@List.count _ instBEqOfDecidableEq i data : ℝ) / data.length := by
    intro i hi
    rw [hget i hi]
    rw [lawful_beq_subsingleton (List.instBEq (α := ℕ)) instBEqOfDecidableEq]
  have hM' : ∀ i, IsCell T.probs.shape i → M.likelihood i = .ok (M.probs.get i) := fun i hi =>
    Multinomial.likelihood_eq hTM (by rw [hshM]; exact hi)
  have hT'' : ∀ i, IsCell T.probs.shape i → T'.likelihood i = .ok (T'.probs.get i) := fun i hi =>
    Multinomial.likelihood_eq hT' (by rw [hsh]; exact hi)
  have hmap : ∀ (F : List ℕ → Except PyErr ℝ) (G : List ℕ → ℝ) (rows : List (List ℕ)), (∀ i ∈ rows, F i = .ok (G i)) →
      rows.mapM F = .ok (rows.map G) := by
    intro F G rows
    induction rows with
    | nil => intro _; rfl
    | cons row rows ih =>
      intro h
      rw [List.mapM_cons, h row (by simp), ih fun i hi => h i (List.mem_cons_of_mem _ hi)]
      rfl
  have h0 : ∀ i, IsCell T.probs.shape i → 0 ≤ T'.probs.get i := fun i hi => hT'.nonneg i (by rw [hsh]; exact hi)
  have hsum : ∑ i ∈ (NdArray.cells T.probs.shape).toFinset, T'.probs.get i = 1 := by
    rw [← h1, ← NdArray.total_eq, ← hsh, List.sum_toFinset _ (NdArray.nodup_cells _)]
    rfl
  have hsub : data.toFinset ⊆ (NdArray.cells T.probs.shape).toFinset := fun i hi =>
    List.mem_toFinset.2 (NdArray.mem_cells.2 (hd i (List.mem_toFinset.1 hi)))
  have hcell : ∀ i ∈ (NdArray.cells T.probs.shape).toFinset, 0 ≤ T'.probs.get i := fun i hi =>
    h0 i (NdArray.mem_cells.1 (List.mem_toFinset.1 hi))
  obtain ⟨h2, h3⟩ := frequencies_likeliest hne (q := T'.probs.get) (fun i hi => h0 i (hd i hi)) (by
    rw [← hsum]
    exact Finset.sum_le_sum_of_subset_of_nonneg hsub fun i hi _ => hcell i hi)
  have hg : data.map M.probs.get = data.map fun x => (@List.count _ instBEqOfDecidableEq x data : ℝ) / data.length :=
    List.map_congr_left fun i hi => hget i (hd i hi)
  rw [← hg] at h2 h3
  refine ⟨M, _, _, hM, hmap _ _ _ fun i hi => hM' i (hd i hi), hmap _ _ _ fun i hi => hT'' i (hd i hi), h2, fun he i hi => ?_⟩
  rw [hM' i hi, hT'' i hi, hget i hi]
  have h4 := h3 he
  by_cases hk : i ∈ data
  · rw [h4 i hk]
  · congr 1
    have hk0 : @List.count _ instBEqOfDecidableEq i data = 0 := @List.count_eq_zero_of_not_mem _ instBEqOfDecidableEq _ _ _ hk
    rw [hk0, Nat.cast_zero, zero_div]
    by_contra hz
    have hlt := Finset.sum_lt_sum_of_subset (f := T'.probs.get) hsub (List.mem_toFinset.2 (NdArray.mem_cells.2 hi))
      (fun h => hk (List.mem_toFinset.1 h)) (lt_of_le_of_ne (h0 i hi) (Ne.symm hz)) fun j hj _ => hcell j hj
    rw [hsum, ← sum_frequencies hne] at hlt
    exact absurd (Finset.sum_congr rfl fun k hk => h4 k (List.mem_toFinset.1 hk)) hlt.ne

theorem interval_eq_set (lo hi : ℝ) (b : Bound) : {x : ℝ | (SimpleInterval.mk lo hi .closed b).Mem x}
    = if b = .closed then Set.Icc lo hi else Set.Ico lo hi := by
  ext x
  cases b <;> simp [SimpleInterval.Mem, SimpleInterval.leftOK, SimpleInterval.rightOK]

theorem interval_measurable (lo hi : ℝ) (b : Bound) : MeasurableSet {x : ℝ | (SimpleInterval.mk lo hi .closed b).Mem x} := by
  rw [interval_eq_set]
  split
  · exact measurableSet_Icc
  · exact measurableSet_Ico

theorem interval_volume (lo hi : ℝ) (b : Bound) : volume {x : ℝ | (SimpleInterval.mk lo hi .closed b).Mem x} = ENNReal.ofReal (hi - lo) := by
  rw [interval_eq_set]
  split
  · exact Real.volume_Icc
  · exact Real.volume_Ico

/-- The density of a learned quantile distribution, piece by piece. -/
theorem fit_pieces {P : Params} {data : List ℝ} {weights : Option (List ℝ)} (h : FitInput P data weights) {cap : ℝ} {g : Circuit} {r : Node}
    (hfit : fit P cap data weights = .ok g) (hr : g.root = .ok r) :
    ∃ len : Edge → ℝ, (∀ e ∈ g.outEdges r, 0 < len e) ∧
      (g.outEdges r).Pairwise (fun e e' => Disjoint (intervalOf g e.dst) (intervalOf g e'.dst)) ∧
      (∀ e ∈ g.outEdges r, MeasurableSet (intervalOf g e.dst)) ∧
      (∀ e ∈ g.outEdges r, volume (intervalOf g e.dst) = ENNReal.ofReal (len e)) ∧
      (∀ x ∈ data, ∃ e ∈ g.outEdges r, x ∈ intervalOf g e.dst) ∧
      (∀ x m, g.likelihood m (fun _ => x) = .ok (pieces (g.outEdges r) (fun e => intervalOf g e.dst) (fun e => linWeight e / len e) x)) ∧
      (∀ c ∈ g.succ r, ∀ x ∈ intervalOf g c, ∀ y ∈ intervalOf g c,
        pieces (g.outEdges r) (fun e => intervalOf g e.dst) (fun e => linWeight e / len e) x =
        pieces (g.outEdges r) (fun e => intervalOf g e.dst) (fun e => linWeight e / len e) y) ∧
      (∀ x, 0 ≤ pieces (g.outEdges r) (fun e => intervalOf g e.dst) (fun e => linWeight e / len e) x) ∧
      ∫⁻ x, ENNReal.ofReal (pieces (g.outEdges r) (fun e => intervalOf g e.dst) (fun e => linWeight e / len e) x) = 1 := by
  classical
  obtain ⟨g', r', hfit', hL, hk, hleaf, hdisj, hcover, _, _⟩ := C39_fit h cap
  obtain rfl : g = g' := Except.ok.inj (hfit.symm.trans hfit')
  obtain rfl : r = r' := Except.ok.inj (hr.symm.trans hL.root)
  obtain ⟨hw0, hw1, _⟩ := C40_weights_partial h hfit hr
  have hden : ∃ V F, Denotes g r V F := by
    obtain ⟨E, hfit', hE, _, ch, hch, hperm, _⟩ := h.result cap
    rw [hfit] at hfit'
    injection hfit' with hg
    have hF := fine_of h.two h.weights
    have hb : ∀ x ∈ E, x.2.1 < x.2.2 ∧ x.2.2 ≤ ((npUnique data).map Prod.fst).length := fun x hx =>
      (hch.bounds x.2 (hperm.mem_iff.1 (List.mem_map_of_mem hx))).2
    have hr0 : r = 0 := by
      have := hE.layered.root
      rw [← hg, hr] at this
      exact Except.ok.inj this
    have hne : (E.map fun x => entry P.var ((npUnique data).map Prod.fst) (weightsOf data weights) x.1 x.2) ≠ [] := by
      obtain ⟨x, hx, _⟩ := h.two
      obtain ⟨c, hc, _⟩ := (hcover x).2 ⟨⟨x, hx, le_rfl⟩, x, hx, le_rfl⟩
      intro h0
      rw [hg, hr0, hE.succ, h0] at hc
      simp at hc
    rw [hg, hr0]
    exact ⟨_, _, hE.denotes (v := P.var) hne fun x hx => by
      obtain ⟨y, hy, rfl⟩ := List.mem_map.1 hx
      exact ⟨quantile_valid hF (hb y hy).1 (hb y hy).2, rfl⟩⟩
  obtain ⟨V, F, hD⟩ := hden
  obtain ⟨sc, hsc, _, _⟩ := hD.scope
  have hmem : ∀ e ∈ g.outEdges r, e.dst ∈ g.succ r := fun e he => List.mem_map_of_mem he
  have hdata : ∃ lo hi : Node → ℝ, ∃ b : Node → Bound, ∀ c ∈ g.succ r, lo c < hi c ∧
      g.kind? c = some (.leaf (.uniform P.var (lo c) (hi c) .closed (b c))) := by
    have : ∀ c, ∃ q : ℝ × ℝ × Bound, c ∈ g.succ r → q.1 < q.2.1 ∧ g.kind? c = some (.leaf (.uniform P.var q.1 q.2.1 .closed q.2.2)) := by
      intro c
      by_cases hc : c ∈ g.succ r
      · obtain ⟨lo, hi, b, h1, h2⟩ := hleaf c hc
        exact ⟨(lo, hi, b), fun _ => ⟨h1, h2⟩⟩
      · exact ⟨(0, 0, .closed), fun h => absurd h hc⟩
    choose q hq using this
    exact ⟨fun c => (q c).1, fun c => (q c).2.1, fun c => (q c).2.2, hq⟩
  obtain ⟨lo, hi, b, hlb⟩ := hdata
  have hint : ∀ c ∈ g.succ r, intervalOf g c = {x | (SimpleInterval.mk (lo c) (hi c) .closed (b c)).Mem x} := by
    intro c hc
    ext x
    constructor
    · rintro ⟨v, lo', hi', l, r', h1, h2⟩
      rw [(hlb c hc).2] at h1
      cases h1
      exact h2
    · intro hx
      exact ⟨_, _, _, _, _, (hlb c hc).2, hx⟩
  set p : ℝ → ℝ := pieces (g.outEdges r) (fun e => intervalOf g e.dst) fun e => linWeight e / (hi e.dst - lo e.dst) with hp
  have hpair : (g.outEdges r).Pairwise fun e e' => Disjoint (intervalOf g e.dst) (intervalOf g e'.dst) := by
    rw [Graph.succ, List.pairwise_map] at hdisj
    exact hdisj
  have hlen : ∀ e ∈ g.outEdges r, 0 < hi e.dst - lo e.dst := fun e he => sub_pos.2 (hlb _ (hmem e he)).1
  have hms : ∀ e ∈ g.outEdges r, MeasurableSet (intervalOf g e.dst) := fun e he => by
    rw [hint _ (hmem e he)]
    exact interval_measurable _ _ _
  have hvol : ∀ e ∈ g.outEdges r, volume (intervalOf g e.dst) = ENNReal.ofReal (hi e.dst - lo e.dst) := fun e he => by
    rw [hint _ (hmem e he)]
    exact interval_volume _ _ _
  have hnn : ∀ e ∈ g.outEdges r, 0 ≤ linWeight e / (hi e.dst - lo e.dst) := fun e he => (div_pos (hw0 e he) (hlen e he)).le
  have hedge : ∀ c ∈ g.succ r, ∃ e ∈ g.outEdges r, e.dst = c := fun c hc => List.mem_map.1 hc
  have hpx : ∀ e ∈ g.outEdges r, ∀ x ∈ intervalOf g e.dst, p x = linWeight e / (hi e.dst - lo e.dst) := fun e he x hx =>
    pieces_of_mem hpair he hx
  have hcov : ∀ x ∈ data, ∃ e ∈ g.outEdges r, x ∈ intervalOf g e.dst := by
    intro x hx
    obtain ⟨c, hc, hxc⟩ := (hcover x).2 ⟨⟨x, hx, le_rfl⟩, x, hx, le_rfl⟩
    obtain ⟨e, he, rfl⟩ := hedge c hc
    exact ⟨e, he, hxc⟩
  refine ⟨fun e => hi e.dst - lo e.dst, hlen, hpair, hms, hvol, hcov, ?_, ?_, ?_, ?_⟩
  · intro x m
    obtain ⟨f, hf⟩ := exists_circuitValue hL.graded.acyclic fun d => leafDensity d x
    obtain ⟨_, _, _, _, h4⟩ := C01_loglikelihood hL hsc hD.valid (fun _ => x) hf m
    rw [h4, hf.sum r hk, pieces]
    congr 2
    apply List.map_congr_left
    intro e he
    have hc := hmem e he
    rw [hf.leaf _ _ (hlb _ hc).2, hint _ hc]
    simp only [leafDensity, Set.mem_ofPred_eq]
    split
    · rw [mul_one_div]
    · rw [mul_zero]
  · intro c hc x hx y hy
    obtain ⟨e, he, rfl⟩ := hedge c hc
    exact (hpx e he x hx).trans (hpx e he y hy).symm
  · intro x
    refine List.sum_nonneg fun y hy => ?_
    obtain ⟨e, he, rfl⟩ := List.mem_map.1 hy
    split
    · exact hnn e he
    · exact le_rfl
  · rw [lintegral_pieces hms hnn]
    have : (g.outEdges r).map (fun e => ENNReal.ofReal (linWeight e / (hi e.dst - lo e.dst)) * volume (intervalOf g e.dst))
        = ((g.outEdges r).map linWeight).map ENNReal.ofReal := by
      rw [List.map_map]
      apply List.map_congr_left
      intro e he
      rw [hvol e he, ← ENNReal.ofReal_mul (hnn e he), div_mul_cancel₀ _ (hlen e he).ne']
      rfl
    rw [this, ← ofReal_sum_list, hw1, ENNReal.ofReal_one]
    intro y hy
    obtain ⟨e, he, rfl⟩ := List.mem_map.1 hy
    exact (hw0 e he).le

/-- C113 for quantile distributions that are fitted without weights.  `p` is the fitted density: it is constant on each of the
intervals of the result and integrates to one.  No density `φ` that is constant on each of these intervals makes the data more likely,
and every other one makes it less likely. -/
theorem C113_quantiles {P : Params} {data : List ℝ} (h : FitInput P data none) {cap : ℝ} {g : Circuit} {r : Node}
    (hfit : fit P cap data none = .ok g) (hr : g.root = .ok r) :
    ∃ p : ℝ → ℝ, (∀ x m, g.likelihood m (fun _ => x) = .ok (p x)) ∧
      (∀ c ∈ g.succ r, ∀ x ∈ intervalOf g c, ∀ y ∈ intervalOf g c, p x = p y) ∧ (∀ x, 0 ≤ p x) ∧ ∫⁻ x, ENNReal.ofReal (p x) = 1 ∧
      ∀ φ : ℝ → ℝ, (∀ x, 0 ≤ φ x) → (∀ c ∈ g.succ r, ∀ x ∈ intervalOf g c, ∀ y ∈ intervalOf g c, φ x = φ y) →
        ∫⁻ x, ENNReal.ofReal (φ x) ≤ 1 →
        (data.map φ).prod ≤ (data.map p).prod ∧
        ((data.map φ).prod = (data.map p).prod → ∀ c ∈ g.succ r, ∀ x ∈ intervalOf g c, φ x = p x) := by
  classical
  obtain ⟨len, hlen, hpair, hms, hvol, hcov, hlik, hconst, hnn, hone⟩ := fit_pieces h hfit hr
  obtain ⟨hw0, _, hw, _, _⟩ := C40_weights_partial h hfit hr
  replace hw := hw rfl
  have hne : data ≠ [] := by
    obtain ⟨x, hx, _⟩ := h.two
    exact List.ne_nil_of_mem hx
  have hmem : ∀ e ∈ g.outEdges r, e.dst ∈ g.succ r := fun e he => List.mem_map_of_mem he
  refine ⟨_, hlik, hconst, hnn, hone, ?_⟩
  intro φ h0 hc h1
  obtain ⟨h2, h3⟩ := pieces_likeliest hne hpair hms hvol hlen (fun e he => by rw [hw e he]) hw0 hcov h0 (fun e he => hc _ (hmem e he)) h1
  refine ⟨h2, fun he c hcs x hx => ?_⟩
  obtain ⟨e, hee, rfl⟩ : ∃ e ∈ g.outEdges r, e.dst = c := List.mem_map.1 hcs
  have hpos : 0 < data.countP fun x => decide (x ∈ intervalOf g e.dst) := by
    by_contra hz
    have := hw0 e hee
    rw [hw e hee, Nat.eq_zero_of_not_pos hz] at this
    simp at this
  obtain ⟨y, hy, hym⟩ := List.countP_pos_iff.1 hpos
  have hym' := of_decide_eq_true hym
  rw [hc _ hcs x hx y hym', h3 he y hy]
  exact hconst _ hcs y hym' x hx

/-- C113 for quantile distributions that are fitted with weights, one for each distinct point in increasing order, which is how `fit`
reads them (C40).  A point of weight `w` counts as `w` observations: its likelihood is raised to the power `w`. -/
theorem C113_weighted_quantiles {P : Params} {data ws : List ℝ} (h : FitInput P data (some ws)) {cap : ℝ} {g : Circuit} {r : Node}
    (hfit : fit P cap data (some ws) = .ok g) (hr : g.root = .ok r) :
    ∃ p : ℝ → ℝ, (∀ x m, g.likelihood m (fun _ => x) = .ok (p x)) ∧
      (∀ c ∈ g.succ r, ∀ x ∈ intervalOf g c, ∀ y ∈ intervalOf g c, p x = p y) ∧ (∀ x, 0 ≤ p x) ∧ ∫⁻ x, ENNReal.ofReal (p x) = 1 ∧
      ∀ φ : ℝ → ℝ, (∀ x, 0 ≤ φ x) → (∀ c ∈ g.succ r, ∀ x ∈ intervalOf g c, ∀ y ∈ intervalOf g c, φ x = φ y) →
        ∫⁻ x, ENNReal.ofReal (φ x) ≤ 1 →
        weightedLikelihood φ (data.dedup.insertionSort (· ≤ ·)) ws ≤ weightedLikelihood p (data.dedup.insertionSort (· ≤ ·)) ws ∧
        (weightedLikelihood φ (data.dedup.insertionSort (· ≤ ·)) ws = weightedLikelihood p (data.dedup.insertionSort (· ≤ ·)) ws →
          ∀ c ∈ g.succ r, ∀ x ∈ intervalOf g c, φ x = p x) := by
  classical
  obtain ⟨len, hlen, hpair, hms, hvol, hcov, hlik, hconst, hnn, hone⟩ := fit_pieces h hfit hr
  obtain ⟨hw0, _, _, hw, _⟩ := C40_weights_partial h hfit hr
  replace hw := hw ws rfl
  obtain ⟨hl, hwpos⟩ := h.weights ws rfl
  set U := data.dedup.insertionSort (· ≤ ·) with hU
  have hlenU : U.length = ws.length := by rw [hU, List.length_insertionSort, hl]
  have hsnd : (U.zip ws).map Prod.snd = ws := List.map_snd_zip hlenU.ge
  have hUm : ∀ a ∈ U.zip ws, a.1 ∈ data := fun a ha => by
    have := (List.of_mem_zip ha).1
    rw [hU, List.mem_insertionSort, List.mem_dedup] at this
    exact this
  have hne : U.zip ws ≠ [] := by
    obtain ⟨x, hx, _⟩ := h.two
    have h1 : 0 < data.dedup.length := List.length_pos_of_mem (List.mem_dedup.2 hx)
    intro h0
    have h2 := congrArg List.length h0
    rw [List.length_zip, hlenU, min_self, hl, List.length_nil] at h2
    omega
  have hmem : ∀ e ∈ g.outEdges r, e.dst ∈ g.succ r := fun e he => List.mem_map_of_mem he
  refine ⟨_, hlik, hconst, hnn, hone, ?_⟩
  intro φ h0 hc h1
  have hshare : ∀ e ∈ g.outEdges r, linWeight e = shareIn (U.zip ws) (intervalOf g e.dst) / ((U.zip ws).map Prod.snd).sum := by
    intro e he
    rw [hw e he, hsnd]
    rfl
  obtain ⟨h2, h3⟩ := pieces_likeliest_weighted hne (fun a ha => hwpos _ (List.of_mem_zip ha).2) hpair hms hvol hlen hshare hw0
    (fun a ha => hcov _ (hUm a ha)) h0 (fun e he => hc _ (hmem e he)) h1
  refine ⟨h2, fun he c hcs x hx => ?_⟩
  obtain ⟨e, hee, rfl⟩ : ∃ e ∈ g.outEdges r, e.dst = c := List.mem_map.1 hcs
  have hex : ∃ a ∈ U.zip ws, a.1 ∈ intervalOf g e.dst := by
    by_contra hz
    push Not at hz
    have := hw0 e hee
    rw [hshare e hee, shareIn, List.filter_eq_nil_iff.2 fun a ha => by simpa using hz a ha] at this
    simp at this
  obtain ⟨y, hy, hym⟩ := hex
  rw [hc _ hcs x hx y.1 hym, h3 he y hy]
  exact hconst _ hcs y.1 hym x hx

/-- C113 is false of the code for data with the value `-1`: the fitted distribution says that it is impossible. -/
theorem C113_full_false : ¬ C113_full := by
  intro H
  have h := H 0 [-1] (by simp) [(-1, 1)] (by simp [Leaf.Valid]) (by simp [Leaf.Normalized])
  have hp : pyHash (-1) = -2 := by decide
  have hf : Leaf.fitDiscrete [-1] = [(-2, 1)] := by
    rw [Leaf.fitDiscrete, npUnique_single, List.foldl_cons, List.foldl_nil, hp, Dict.set_new (by simp), List.nil_append]
    simp
  have e1 := discrete_likelihood (v := 0) (probs := [(-1, 1)]) (by simp [Leaf.Valid]) (-1)
  have e2 := discrete_likelihood (v := 0) (probs := [(-2, 1)]) (by simp [Leaf.Valid]) (-1)
  simp only [rowsLikelihood, List.map_cons, List.map_nil, List.prod_cons, List.prod_nil, mul_one, hf, e1, e2] at h
  simp [lookup_cons, lookup_nil] at h
  norm_num at h

/-- For the values `0, 0, 1`, the fair coin makes the data strictly less likely than the fitted distribution. -/
example : rowsLikelihood (.integer 0 [(0, 1 / 2), (1, 1 / 2)]) (([0, 0, 1] : List ℤ).map Int.cast)
    < rowsLikelihood (.integer 0 (Leaf.fitDiscrete [0, 0, 1])) (([0, 0, 1] : List ℤ).map Int.cast) := by
  have hv : (Leaf.integer 0 [(0, 1 / 2), (1, 1 / 2)]).Valid := by simp [Leaf.Valid]
  have h := C113_integer_partial 0 (data := [0, 0, 1]) (by simp) (by simp) (by simp) hv (by simp [Leaf.Normalized]; norm_num)
  refine lt_of_le_of_ne h.1 fun he => ?_
  have h0 := h.2 he 0
  obtain ⟨hf, hpos, _, hnd, _⟩ := C32_fit_partial (data := [0, 0, 1]) (by simp) (by simp) (by simp)
  rw [discrete_likelihood hv, discrete_likelihood ⟨fun kp hkp => (hpos kp hkp).le, hnd⟩, hf 0] at h0
  simp [lookup_cons] at h0
  norm_num at h0

example : ([1, 1, 2] : List ℕ) ≠ [] ∧ (([(0, 17), (1, -5), (2, 3)] : List (ℕ × ℤ)).map Prod.fst).Nodup ∧
    (([(0, 17), (1, -5), (2, 3)] : List (ℕ × ℤ)).map Prod.snd).Nodup ∧
    (∀ a ∈ [1, 1, 2], a ∈ ([(0, 17), (1, -5), (2, 3)] : List (ℕ × ℤ)).map Prod.fst) ∧
    ∀ e ∈ ([(0, 17), (1, -5), (2, 3)] : List (ℕ × ℤ)), (fun a : ℕ => if a = 0 then (17 : ℤ) else if a = 1 then -5 else 3) e.1 = e.2 := by decide

/-- Rows of the table `exTable`, and `exTable` itself, normalised, as a competitor. -/
example : ∃ M ls ls', exTable.fit [[0, 1], [1, 1], [0, 1]] = .ok M ∧ [[0, 1], [1, 1], [0, 1]].mapM M.likelihood = .ok ls ∧
    [[0, 1], [1, 1], [0, 1]].mapM exTable.normalize.likelihood = .ok ls' ∧ ls'.prod ≤ ls.prod := by
  have hd : ∀ row ∈ [[0, 1], [1, 1], [0, 1]], IsCell exTable.probs.shape row := by
    intro row hrow
    simp only [List.mem_cons, List.not_mem_nil, or_false] at hrow
    rcases hrow with rfl | rfl | rfl <;> simp [IsCell, exTable]
  obtain ⟨M, ls, ls', h1, h2, h3, h4, _⟩ := C113_table exTable_table hd (by simp) exTable_table.normalize.1 rfl exTable_table.normalize.2
  exact ⟨M, ls, ls', h1, h2, h3, h4⟩

/-- Data with four points; the uniform density on `[1, 4]` is a competitor of the fitted one. -/
example (cap : ℝ) : ∃ (g : Circuit) (p : ℝ → ℝ), fit ⟨0, 1, 1 / 10⟩ cap [1, 4, 2, 2] none = .ok g ∧ (∀ x m, g.likelihood m (fun _ => x) = .ok (p x)) ∧
    (1 / 3 : ℝ) * ((1 / 3) * ((1 / 3) * (1 / 3))) ≤ p 1 * (p 4 * (p 2 * p 2)) := by
  have hF : FitInput ⟨0, 1, 1 / 10⟩ [1, 4, 2, 2] none :=
    ⟨by norm_num, by norm_num, ⟨1, by simp, 4, by simp, by norm_num⟩, fun ws h => by simp at h⟩
  obtain ⟨g, r, hfit, hL, _, _, _, hcover, _⟩ := C39_fit hF cap
  obtain ⟨p, hp, _, _, _, hbest⟩ := C113_quantiles hF hfit hL.root
  refine ⟨g, p, hfit, hp, ?_⟩
  have hin : ∀ c ∈ g.succ r, ∀ x ∈ intervalOf g c, x ∈ Set.Icc (1 : ℝ) 4 := by
    intro c hc x hx
    obtain ⟨⟨a, ha, hax⟩, b, hb, hxb⟩ := (hcover x).1 ⟨c, hc, hx⟩
    simp only [List.mem_cons, List.not_mem_nil, or_false] at ha hb
    constructor
    · rcases ha with rfl | rfl | rfl | rfl <;> linarith
    · rcases hb with rfl | rfl | rfl | rfl <;> linarith
  have h := (hbest (Set.indicator (Set.Icc 1 4) fun _ => 1 / 3) (fun x => Set.indicator_nonneg (fun _ _ => by norm_num) x)
    (fun c hc x hx y hy => by rw [Set.indicator_of_mem (hin c hc x hx), Set.indicator_of_mem (hin c hc y hy)]) (by
      have : (fun x => ENNReal.ofReal (Set.indicator (Set.Icc (1 : ℝ) 4) (fun _ => (1 / 3 : ℝ)) x))
          = Set.indicator (Set.Icc 1 4) fun _ => ENNReal.ofReal (1 / 3) := by
        funext x
        by_cases hx : x ∈ Set.Icc (1 : ℝ) 4
        · rw [Set.indicator_of_mem hx, Set.indicator_of_mem hx]
        · rw [Set.indicator_of_notMem hx, Set.indicator_of_notMem hx, ENNReal.ofReal_zero]
      rw [this, lintegral_indicator_const measurableSet_Icc, Real.volume_Icc, ← ENNReal.ofReal_mul (by norm_num)]
      norm_num)).1
  simp only [List.map_cons, List.map_nil, List.prod_cons, List.prod_nil, mul_one] at h
  have hi : ∀ x ∈ ([1, 4, 2] : List ℝ), Set.indicator (Set.Icc (1 : ℝ) 4) (fun _ => (1 / 3 : ℝ)) x = 1 / 3 := by
    intro x hx
    apply Set.indicator_of_mem
    simp only [List.mem_cons, List.not_mem_nil, or_false] at hx
    rcases hx with rfl | rfl | rfl <;> norm_num
  rwa [hi 1 (by simp), hi 4 (by simp), hi 2 (by simp)] at h

/-- Weighted points. -/
example : ∃ g r, fit ⟨0, 1, 0⟩ 1 [2, 1] (some [3, 1]) = .ok g ∧ g.root = .ok r ∧ FitInput ⟨0, 1, 0⟩ [2, 1] (some [3, 1]) := by
  obtain ⟨g, r, hfit, hL, _⟩ := C39_fit fitInput_example 1
  exact ⟨g, r, hfit, hL.root, fitInput_example⟩

end PM.Props
