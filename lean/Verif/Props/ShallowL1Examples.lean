import Verif.Props.ShallowL1

/-! # C114: a deterministic example, and a circuit that is not deterministic -/

namespace PM.Props
open PM.Graph Spec MeasureTheory Classical MonteCarlo

/-- `½ U[a,b] + ½ U[c,d]` as a shallow circuit. -/
noncomputable def halves (a b c d : ℝ) : Circuit where
  nodes := [(0, .sum), (1, .prod), (2, .leaf (.uniform 0 a b .closed .closed)), (3, .prod), (4, .leaf (.uniform 0 c d .closed .closed))]
  edges := [⟨0, 1, Ex.lw (1 / 2)⟩, ⟨1, 2, none⟩, ⟨0, 3, Ex.lw (1 / 2)⟩, ⟨3, 4, none⟩]

section
variable {a b c d : ℝ}

theorem halves_layered : Layered (halves a b c d) 0 where
  wf := ⟨by simp [halves, ids], by simp [halves], by simp [halves, ids], by simp [halves, ids]⟩
  graded := ⟨fun n => if n = 0 then 0 else if n = 1 ∨ n = 3 then 1 else 2, by simp [halves]⟩
  leaves := Ex.leafTerminal_of (by simp [halves, succ, outEdges])
  weighted := Ex.weighted_of (by simp [halves, outEdges, Ex.lw])
  root := by simp [root, halves, ids, inDegree, inEdges]

theorem halves_scoped : Scoped (halves a b c d) (fun _ => {0}) :=
  Ex.scoped_of (by simp [halves, Leaf.var]) (by simp [halves, succ, outEdges]) (by simp [halves, succ, outEdges])

theorem halves_leaf {Q : Leaf → Prop} (h1 : Q (.uniform 0 a b .closed .closed)) (h2 : Q (.uniform 0 c d .closed .closed)) :
    ∀ n e, (halves a b c d).kind? n = some (.leaf e) → Q e := fun n e h =>
  Ex.forall_kind (P := fun _ k => ∀ d, k = .leaf d → Q d) (by simp [halves]; exact ⟨h1, h2⟩) n _ h e rfl

theorem halves_out : (halves a b c d).outEdges 0 = [⟨0, 1, Ex.lw (1 / 2)⟩, ⟨0, 3, Ex.lw (1 / 2)⟩] := rfl

theorem halves_sum {n : Node} (h : (halves a b c d).kind? n = some .sum) : n = 0 :=
  Ex.forall_kind (P := fun n k => k = .sum → n = 0) (by simp [halves]) n _ h rfl

theorem halves_circuit (h1 : a < b) (h2 : c < d) : DensityCircuit allContinuous (fun _ => realLine) {0} (halves a b c d) where
  shape := ⟨0, fun _ => {0}, halves_layered, halves_scoped, Ex.decomposable_of (by simp [halves, succ, outEdges]), rfl⟩
  valid := halves_leaf h1 h2
  leaves := halves_leaf trivial trivial
  sums := fun n hk => by
    rw [halves_sum hk, halves_out]
    simp (disch := norm_num) only [List.map_cons, List.map_nil, List.sum_cons, List.sum_nil, Ex.linWeight_lw]
    norm_num
  products := fun n hk => Ex.forall_kind (P := fun n k => k = .prod → (halves a b c d).succ n ≠ []) (by simp [halves, succ, outEdges]) n _ hk rfl
  base := halves_leaf rfl rfl
  typed := halves_leaf (Q := fun d => (allContinuous d.var == .symbolic) = true ↔ ∃ v probs, d = .symbolic v probs) (by simp [allContinuous])
    (by simp [allContinuous])
  domain := ⟨fun _ => realLine_disjoint, halves_leaf (by simp [Fits, realLine]) (by simp [Fits, realLine]), fun _ _ _ => by simp [realLine_toSet]⟩

theorem halves_shallow : ShallowForm (halves a b c d) 0 := by
  refine ⟨halves_layered.root, rfl, ?_, fun n hn => ?_⟩
  · rw [show (halves a b c d).succ 0 = [1, 3] from rfl]
    intro n hn
    have : n = 0 ∨ n = 1 ∨ n = 2 ∨ n = 3 ∨ n = 4 := by simpa [halves, ids] using hn
    rcases this with rfl | rfl | rfl | rfl | rfl
    · simp
    · simp
    · exact .inr (.inr ⟨1, by simp, by rw [show (halves a b c d).succ 1 = [2] from rfl]; simp⟩)
    · simp
    · exact .inr (.inr ⟨3, by simp, by rw [show (halves a b c d).succ 3 = [4] from rfl]; simp⟩)
  have : n = 1 ∨ n = 3 := by rw [show (halves a b c d).succ 0 = [1, 3] from rfl] at hn; simpa using hn
  rcases this with rfl | rfl
  · refine ⟨rfl, fun l hl => ?_⟩
    rw [show (halves a b c d).succ 1 = [2] from rfl, List.mem_singleton] at hl
    subst hl
    exact ⟨_, rfl⟩
  · refine ⟨rfl, fun l hl => ?_⟩
    rw [show (halves a b c d).succ 3 = [4] from rfl, List.mem_singleton] at hl
    subst hl
    exact ⟨_, rfl⟩

theorem halves_uniform : ∀ n e, (halves a b c d).kind? n = some (.leaf e) → ∃ v lo hi l r, e = .uniform v lo hi l r :=
  halves_leaf ⟨_, _, _, _, _, rfl⟩ ⟨_, _, _, _, _, rfl⟩

theorem halves_positive : PositiveWeights (halves a b c d) := Ex.positive_of (by simp [halves, outEdges, Ex.lw])

theorem uniform_ite (lo hi t : ℝ) : leafDensity (.uniform 0 lo hi .closed .closed) t = if t ∈ Set.Icc lo hi then 1 / (hi - lo) else 0 := by
  by_cases h : t ∈ Set.Icc lo hi
  · rw [if_pos h, Ex.uniform_inside h.1 h.2, one_div]
  · rw [if_neg h, Ex.uniform_outside]
    by_contra hc
    push Not at hc
    exact h ⟨hc.1, hc.2⟩

/-- The density of `½ U[a,b] + ½ U[c,d]`. -/
noncomputable def halvesDensity (a b c d t : ℝ) : ℝ :=
  (if t ∈ Set.Icc a b then 1 / (b - a) else 0) / 2 + (if t ∈ Set.Icc c d then 1 / (d - c) else 0) / 2

theorem halves_value (x : Var → ℝ) : ∃ f, CircuitValue (halves a b c d) (fun d => leafDensity d (x d.var)) f ∧ f 0 = halvesDensity a b c d (x 0) ∧
    f 1 = (if x 0 ∈ Set.Icc a b then 1 / (b - a) else 0) ∧ f 3 = (if x 0 ∈ Set.Icc c d then 1 / (d - c) else 0) := by
  obtain ⟨f, hf⟩ := exists_circuitValue (g := halves a b c d) halves_layered.graded.acyclic fun d : Leaf => leafDensity d (x d.var)
  have h2 := hf.leaf 2 _ rfl
  have h4 := hf.leaf 4 _ rfl
  have h1 := hf.prod 1 rfl
  have h3 := hf.prod 3 rfl
  have h0 := hf.sum 0 rfl
  rw [show (halves a b c d).outEdges 1 = [⟨1, 2, none⟩] from rfl] at h1
  rw [show (halves a b c d).outEdges 3 = [⟨3, 4, none⟩] from rfl] at h3
  rw [halves_out] at h0
  simp only [List.map_cons, List.map_nil, List.prod_cons, List.prod_nil, mul_one] at h1 h3
  simp (disch := norm_num) only [List.map_cons, List.map_nil, List.sum_cons, List.sum_nil, Ex.linWeight_lw, add_zero] at h0
  rw [h2] at h1
  rw [h4] at h3
  simp only [Leaf.var, uniform_ite] at h1 h3
  refine ⟨f, hf, ?_, h1, h3⟩
  rw [h0, h1, h3, halvesDensity]
  ring

theorem halves_likelihood (h1 : a < b) (h2 : c < d) (x : Var → ℝ) : (halves a b c d).likelihood freshMem x = .ok (halvesDensity a b c d (x 0)) := by
  obtain ⟨f, hf, h0, _⟩ := halves_value (a := a) (b := b) (c := c) (d := d) x
  obtain ⟨_, _, _, _, h3⟩ := C01_loglikelihood halves_layered halves_scoped (halves_circuit h1 h2).valid x hf freshMem
  rw [h3, h0]

theorem halves_densityOf (h1 : a < b) (h2 : c < d) (y : ({0} : Finset Var) → ℝ) :
    densityOf {0} (halves a b c d) y = halvesDensity a b c d (assign {0} y 0) := by
  rw [densityOf, halves_likelihood h1 h2]

theorem halves_fit (h1 : a < b) (h2 : c < d) (h3 : b < c) : FitForL1 (halves a b c d) where
  shallow := ⟨0, halves_shallow⟩
  flat := fun n e h => .inl (halves_uniform n e h)
  weights := halves_positive
  deterministic := by
    have hg := halves_circuit h1 h2
    obtain ⟨S, hS⟩ := exists_possiblePoints (g := halves a b c d) halves_layered.graded.acyclic
    obtain ⟨v, hv1, hv2⟩ := C14_is_deterministic halves_layered halves_scoped hg.products hg.typed hg.valid hS freshMem
    rw [hv1, hv2.2]
    intro n hk
    rw [halves_sum hk]
    have e2 : ∀ x, x ∈ S 1 ↔ 0 < leafDensity (.uniform 0 a b .closed .closed) (x 0) := fun x => by
      rw [hS.prod 1 rfl, show (halves a b c d).succ 1 = [2] from rfl]
      simp only [List.mem_singleton, forall_eq]
      exact hS.leaf 2 _ rfl x
    have e4 : ∀ x, x ∈ S 3 ↔ 0 < leafDensity (.uniform 0 c d .closed .closed) (x 0) := fun x => by
      rw [hS.prod 3 rfl, show (halves a b c d).succ 3 = [4] from rfl]
      simp only [List.mem_singleton, forall_eq]
      exact hS.leaf 4 _ rfl x
    rw [show (halves a b c d).succ 0 = [1, 3] from rfl, List.pairwise_pair]
    rintro x ⟨hx1, hx2⟩
    rw [e2, uniform_ite] at hx1
    rw [e4, uniform_ite] at hx2
    split at hx1
    case isFalse => exact lt_irrefl _ hx1
    case isTrue h5 =>
      split at hx2
      case isFalse => exact lt_irrefl _ hx2
      case isTrue h6 => linarith [h5.2, h6.1]

theorem halves_event {a' b' : ℝ} (h : a' ≤ b') : EventFor (halves a b c d) {0} [(0, .interval [cc a' b'])] :=
  ⟨by simp [SimpleEvent.keys], by simp [SimpleEvent.keys], by simpa using cc_disjoint h, by
    intro p hp n d hk _
    simp only [List.mem_singleton] at hp
    subst hp
    exact halves_leaf (Q := fun d => Fits d _) (by simp [Fits]) (by simp [Fits]) n d hk⟩

end

theorem cc_event_mem {a b : ℝ} (x : Var → ℝ) : (∃ F ∈ [[((0 : Var), VSet.interval [cc a b])]], SimpleEvent.Mem F x) ↔ x 0 ∈ Set.Icc a b := by
  rw [← cc_toSet]
  simp [SimpleEvent.Mem, VSet.toSet]

/-- `C114_l1_partial` on `½ U[0,1] + ½ U[2,3]` and `½ U[0,1] + ½ U[2,6]`: the first density is higher on `[2,3]`. -/
example : ∃ D, shallowL1 (fun _ => realLine) (fun _ => [[(0, .interval [cc 2 3])]]) (halves 0 1 2 3) (halves 0 1 2 6) defaultTolerance = .ok D ∧
    D = l1Distance (baseOn allContinuous {0}) (densityOf {0} (halves 0 1 2 3)) (densityOf {0} (halves 0 1 2 6)) := by
  have hp := halves_circuit (a := 0) (b := 1) (c := 2) (d := 3) (by norm_num) (by norm_num)
  have hq := halves_circuit (a := 0) (b := 1) (c := 2) (d := 6) (by norm_num) (by norm_num)
  have hp1 := halves_fit (a := 0) (b := 1) (c := 2) (d := 3) (by norm_num) (by norm_num) (by norm_num)
  have hq1 := halves_fit (a := 0) (b := 1) (c := 2) (d := 6) (by norm_num) (by norm_num) (by norm_num)
  have ht : (0 : ℝ) ≤ defaultTolerance := by unfold defaultTolerance; norm_num
  have hle : ∀ t, t ∉ Set.Icc (2 : ℝ) 3 → halvesDensity 0 1 2 3 t ≤ halvesDensity 0 1 2 6 t := by
    intro t h
    unfold halvesDensity
    rw [if_neg h]
    split_ifs <;> norm_num
  have hgt : ∀ t, t ∈ Set.Icc (2 : ℝ) 3 → defaultTolerance < halvesDensity 0 1 2 3 t - halvesDensity 0 1 2 6 t := by
    intro t h
    unfold halvesDensity defaultTolerance
    rw [if_pos h, if_pos (show t ∈ Set.Icc (2 : ℝ) 6 from ⟨h.1, by linarith [h.2]⟩),
      if_neg (show t ∉ Set.Icc (0 : ℝ) 1 from fun h' => by linarith [h.1, h'.2])]
    norm_num
  obtain ⟨E, hE1, hE2, hE3⟩ := higherSum_spec hp hq hp1 hq1 ht (halves_likelihood (by norm_num) (by norm_num))
    (halves_likelihood (by norm_num) (by norm_num))
  obtain ⟨D, hD, _, _, hD4⟩ := C114_l1_partial hp hq hp1 hq1 ht (represent := fun _ => [[(0, .interval [cc 2 3])]]) (by
    intro E' hE'
    rw [hE1] at hE'
    cases hE'
    refine ⟨fun F hF => ?_, by simp [DisjointFamily], fun x => ?_⟩
    · rw [List.mem_singleton.1 hF]
      exact ⟨halves_event (by norm_num), halves_event (by norm_num)⟩
    · rw [cc_event_mem]
      refine ⟨fun h => hE2 x (hgt _ h), fun h => ?_⟩
      by_contra hc
      exact absurd (hE3 x h) (not_lt.2 (hle _ hc)))
  refine ⟨D, hD, hD4 fun y => ?_⟩
  rw [halves_densityOf (by norm_num) (by norm_num), halves_densityOf (by norm_num) (by norm_num)]
  by_cases h : assign {0} y 0 ∈ Set.Icc (2 : ℝ) 3
  · exact .inr (hgt _ h)
  · exact .inl (hle _ h)

/-- C114 without determinism. -/
def C114_full : Prop :=
  ∀ (ty : Var → VarType) (dom : Var → VSet) (s : Finset Var) (p q : Circuit) (represent : Set (Var → ℝ) → Event),
    DensityCircuit ty dom s p → DensityCircuit ty dom s q → (∃ r, ShallowForm p r) → (∃ r, ShallowForm q r) →
    (∀ n d, p.kind? n = some (.leaf d) → ∃ v lo hi l r, d = .uniform v lo hi l r) →
    (∀ n d, q.kind? n = some (.leaf d) → ∃ v lo hi l r, d = .uniform v lo hi l r) → PositiveWeights p → PositiveWeights q →
    (∀ E, p.higherSum q defaultTolerance = .ok E → RepresentedFor p q s E (represent E)) →
    (∀ y, densityOf s p y ≤ densityOf s q y ∨ defaultTolerance < densityOf s p y - densityOf s q y) →
    shallowL1 dom represent p q defaultTolerance = .ok (l1Distance (baseOn ty s) (densityOf s p) (densityOf s q))

theorem cc_inter {a b c d : ℝ} (h1 : c ≤ a) (h2 : b ≤ d) (h : a ≤ b) :
    Event.inter [[((0 : Var), VSet.interval [cc a b])]] [[((0 : Var), VSet.interval [cc c d])]] = [[((0 : Var), VSet.interval [cc a b])]] := by
  have e : (cc a b).inter (cc c d) = cc a b := by
    simp only [SimpleInterval.inter, cc, SimpleInterval.mk.injEq]
    refine ⟨max_eq_left (EReal.coe_le_coe_iff.2 h1), min_eq_left (EReal.coe_le_coe_iff.2 h2), ?_, ?_⟩ <;>
      simp [SimpleInterval.meetBound]
  simp [Event.inter, SimpleEvent.inter, VSet.inter, e, SimpleEvent.keys, cc_not_empty h]

/-- C114 needs determinism: for `½ U[0,2] + ½ U[1,3]` and `U[0,3]` the centres of both products lie where the first density is higher, and
`l1` is zero. -/
theorem C114_full_false : ¬ C114_full := by
  intro h
  have hp := halves_circuit (a := 0) (b := 2) (c := 1) (d := 3) (by norm_num) (by norm_num)
  have hq := halves_circuit (a := 0) (b := 3) (c := 0) (d := 3) (by norm_num) (by norm_num)
  have sup : ∀ {a b c d : ℝ}, a < b → c < d → (((halves a b c d).subgraphOf 1).support freshMem).2 = .ok [[(0, .interval [cc a b])]] ∧
      (((halves a b c d).subgraphOf 3).support freshMem).2 = .ok [[(0, .interval [cc c d])]] := by
    intro a b c d h1 h2
    have hg := halves_circuit h1 h2
    have hdec : Decomposable (halves a b c d) (fun _ => {0}) := Ex.decomposable_of (by simp [halves, succ, outEdges])
    exact ⟨product_support_one halves_layered halves_scoped hdec hg.products hg.typed hg.valid (c := 1) (n := 2) (by simp [halves, ids])
      rfl rfl rfl freshMem, product_support_one halves_layered halves_scoped hdec hg.products hg.typed hg.valid (c := 3) (n := 4)
      (by simp [halves, ids]) rfl rfl rfl freshMem⟩
  have ht : (0 : ℝ) ≤ defaultTolerance := by unfold defaultTolerance; norm_num
  have hlp := halves_likelihood (a := 0) (b := 2) (c := 1) (d := 3) (by norm_num) (by norm_num)
  have hlq := halves_likelihood (a := 0) (b := 3) (c := 0) (d := 3) (by norm_num) (by norm_num)
  have hq3 : ∀ t, halvesDensity 0 3 0 3 t = if t ∈ Set.Icc (0 : ℝ) 3 then 1 / 3 else 0 := by
    intro t
    unfold halvesDensity
    split_ifs <;> norm_num
  have hp3 : ∀ t, t ∈ Set.Icc (1 : ℝ) 2 → halvesDensity 0 2 1 3 t = 1 / 2 := by
    intro t ht
    unfold halvesDensity
    rw [if_pos (show t ∈ Set.Icc (0 : ℝ) 2 from ⟨by linarith [ht.1], ht.2⟩), if_pos (show t ∈ Set.Icc (1 : ℝ) 3 from ⟨ht.1, by linarith [ht.2]⟩)]
    norm_num
  have hp0 : ∀ t, t ∉ Set.Icc (0 : ℝ) 3 → halvesDensity 0 2 1 3 t = 0 := by
    intro t ht
    unfold halvesDensity
    rw [if_neg fun h => ht ⟨h.1, by linarith [h.2]⟩, if_neg fun h => ht ⟨by linarith [h.1], h.2⟩]
    norm_num
  -- what one pair of products gives
  have hone : ∀ (i j : Node) (a b : ℝ), 0 ≤ a → b ≤ 3 → a < b → (a + b) / 2 ∈ Set.Icc (1 : ℝ) 2 →
      (((halves 0 2 1 3).subgraphOf i).support freshMem).2 = .ok [[(0, .interval [cc a b])]] →
      (((halves 0 3 0 3).subgraphOf j).support freshMem).2 = .ok [[(0, .interval [cc 0 3])]] →
      (halves 0 2 1 3).higherProduct (halves 0 3 0 3) defaultTolerance i j = .ok {x | x 0 ∈ Set.Icc a b} := by
    intro i j a b ha hb hab hmid hi hj
    have hne : ¬ Event.IsEmpty [[((0 : Var), VSet.interval [cc a b])]] := fun hE => by
      rcases hE _ (List.mem_singleton.2 rfl) with h1 | ⟨q, hq, h1⟩
      · cases h1
      · rw [List.mem_singleton.1 hq] at h1
        exact cc_not_empty hab.le (h1 _ (List.mem_singleton.2 rfl))
    have hc : ∃ x, Event.center [[((0 : Var), VSet.interval [cc a b])]] = .ok x ∧ x 0 = (a + b) / 2 := by
      refine ⟨fun v => match [((0 : Var), (a + b) / 2)].find? fun c => c.1 == v with
        | some c => c.2
        | none => 0, ?_, by simp⟩
      unfold Event.center
      have hB : ¬ SimpleEvent.IsEmpty [((0 : Var), VSet.interval [cc a b])] := fun h => hne fun E hE => by rwa [List.mem_singleton.1 hE]
      rw [List.filter_cons, if_pos (by simpa using hB)]
      simp only [bind, Except.bind]
      rw [mapM_ok_map (f := fun p => (p.1, (a + b) / 2)) (by simp [centerOfEntry, SimpleInterval.center, cc])]
      rfl
    obtain ⟨x, hx1, hx2⟩ := hc
    unfold higherProduct
    simp only [bind, Except.bind, pure, Except.pure, hi, hj, cc_inter ha hb hab.le, if_neg hne, hx1, hlp, hlq]
    rw [if_pos]
    · congr 1
      ext y
      exact cc_event_mem y
    · rw [hx2, hp3 _ hmid, hq3, if_pos ⟨by linarith [hmid.1], by linarith [hmid.2]⟩]
      unfold defaultTolerance
      norm_num
  have hS : ∀ {g : Circuit} {l : ℝ → ℝ}, DensityCircuit allContinuous (fun _ => realLine) {0} g → PositiveWeights g →
      (∀ x, g.likelihood freshMem x = .ok (l (x 0))) → ∃ A, (g.support freshMem).2 = .ok A ∧ ∀ x, A.Mem x ↔ 0 < l (x 0) := by
    intro g l hg hw hl
    obtain ⟨r, sc, hL, hs, hdec, hr⟩ := hg.shape
    obtain ⟨A, hA1, hA2, hA3⟩ := C13_support hL hs hg.products hg.typed hg.valid freshMem
    refine ⟨A, hA1, fun x => ?_⟩
    obtain ⟨f, hf⟩ := exists_circuitValue hL.graded.acyclic fun d : Leaf => leafDensity d (x d.var)
    obtain ⟨_, _, _, _, h1⟩ := C01_loglikelihood hL hs hg.valid x hf freshMem
    rw [Except.ok.inj ((hl x).symm.trans h1)]
    exact ⟨hA3 hw x f hf, hA2 x f hf⟩
  obtain ⟨A, hA1, hA2⟩ := hS hp halves_positive hlp
  obtain ⟨B, hB1, hB2⟩ := hS hq halves_positive hlq
  obtain ⟨E, hE1, hE2⟩ := higherLoop_spec (p := halves 0 2 1 3) (q := halves 0 3 0 3) (t := defaultTolerance)
    (F := fun c => if c.1 = 1 then {x | x 0 ∈ Set.Icc (0 : ℝ) 2} else {x | x 0 ∈ Set.Icc (1 : ℝ) 3}) (([1, 3] : List Node).product [1, 3])
    ({x | A.Mem x} \ {x | B.Mem x}) (by
      obtain ⟨s1, s3⟩ := sup (a := 0) (b := 2) (c := 1) (d := 3) (by norm_num) (by norm_num)
      obtain ⟨s1', s3'⟩ := sup (a := 0) (b := 3) (c := 0) (d := 3) (by norm_num) (by norm_num)
      rintro ⟨i, j⟩ hij
      obtain ⟨hi, hj⟩ := List.mem_product.1 hij
      have hj' : (((halves 0 3 0 3).subgraphOf j).support freshMem).2 = .ok [[(0, .interval [cc 0 3])]] := by
        simp only [List.mem_cons, List.not_mem_nil, or_false] at hj
        rcases hj with rfl | rfl
        · exact s1'
        · exact s3'
      simp only [List.mem_cons, List.not_mem_nil, or_false] at hi
      rcases hi with rfl | rfl
      · exact hone 1 j 0 2 (by norm_num) (by norm_num) (by norm_num) (by norm_num) s1 hj'
      · exact hone 3 j 1 3 (by norm_num) (by norm_num) (by norm_num) (by norm_num) s3 hj')
  have hE3 : ∀ x, x ∈ E ↔ x 0 ∈ Set.Icc (0 : ℝ) 3 := by
    intro x
    rw [hE2]
    constructor
    · rintro (⟨h1, _⟩ | ⟨⟨i, j⟩, _, h1⟩)
      · by_contra hc
        have := (hA2 x).1 h1
        rw [hp0 _ hc] at this
        exact lt_irrefl _ this
      · simp only at h1
        split_ifs at h1
        · have h1 : x 0 ∈ Set.Icc (0 : ℝ) 2 := h1
          exact ⟨h1.1, by linarith [h1.2]⟩
        · have h1 : x 0 ∈ Set.Icc (1 : ℝ) 3 := h1
          exact ⟨by linarith [h1.1], h1.2⟩
    · intro hx
      right
      by_cases h2 : x 0 ≤ 2
      · exact ⟨(1, 1), by decide, by rw [if_pos rfl]; exact ⟨hx.1, h2⟩⟩
      · exact ⟨(3, 1), by decide, by rw [if_neg (by decide)]; exact ⟨by linarith, hx.2⟩⟩
  have hsum : (halves 0 2 1 3).higherSum (halves 0 3 0 3) defaultTolerance = .ok E := by
    unfold higherSum
    simp only [bind, Except.bind, halves_layered.root, hA1, hB1]
    exact hE1
  have hfit : ∀ {a b c d : ℝ}, ∀ F ∈ [[((0 : Var), VSet.interval [cc 0 3])]], EventFor (halves a b c d) {0} F := by
    intro a b c d F hF
    rw [List.mem_singleton.1 hF]
    exact halves_event (by norm_num)
  have hdis : DisjointFamily [[((0 : Var), VSet.interval [cc 0 3])]] := by simp [DisjointFamily]
  have hres := h _ _ _ _ _ (fun _ => [[(0, .interval [cc 0 3])]]) hp hq ⟨0, halves_shallow⟩ ⟨0, halves_shallow⟩ halves_uniform halves_uniform
    halves_positive halves_positive (by
      intro E' hE'
      rw [hsum] at hE'
      cases hE'
      exact ⟨fun F hF => ⟨hfit F hF, hfit F hF⟩, hdis, fun x => by rw [cc_event_mem, hE3]⟩) (by
      intro y
      rw [halves_densityOf (by norm_num) (by norm_num), halves_densityOf (by norm_num) (by norm_num), hq3]
      unfold halvesDensity defaultTolerance
      generalize assign {0} y 0 = t
      by_cases h1 : t ∈ Set.Icc (0 : ℝ) 2
      · by_cases h2 : t ∈ Set.Icc (1 : ℝ) 3
        · right
          rw [if_pos h1, if_pos h2, if_pos ⟨h1.1, h2.2⟩]
          norm_num
        · left
          rw [if_pos h1, if_neg h2, if_pos ⟨h1.1, by linarith [h1.2]⟩]
          norm_num
      · left
        rw [if_neg h1]
        by_cases h2 : t ∈ Set.Icc (1 : ℝ) 3
        · rw [if_pos h2, if_pos ⟨by linarith [h2.1], h2.2⟩]
          norm_num
        · rw [if_neg h2]
          split_ifs <;> norm_num)
  -- the probability of the event is one for both
  have hprob : ∀ {g : Circuit}, DensityCircuit allContinuous (fun _ => realLine) {0} g →
      (∀ F ∈ [[((0 : Var), VSet.interval [cc 0 3])]], EventFor g {0} F) →
      (∀ y, densityOf {0} g y ≠ 0 → assign {0} y 0 ∈ Set.Icc (0 : ℝ) 3) →
      (g.probability freshMem (fun _ => realLine) [[(0, .interval [cc 0 3])]]).2 = .ok 1 := by
    intro g hg hF hz
    rw [probability_setIntegral hg hF hdis, setIntegral_eq_integral_of_forall_compl_eq_zero, density_integral (isDensity_circuit hg)]
    intro y hy
    by_contra hc
    exact hy ((cc_event_mem _).2 (hz y hc))
  have hval : shallowL1 (fun _ => realLine) (fun _ => [[(0, .interval [cc 0 3])]]) (halves 0 2 1 3) (halves 0 3 0 3) defaultTolerance
      = .ok (2 * (1 - 1)) := by
    unfold shallowL1
    simp only [bind, Except.bind, pure, Except.pure, hsum]
    rw [hprob hp hfit, hprob hq hfit]
    · intro y hy
      by_contra hc
      rw [halves_densityOf (by norm_num) (by norm_num), hq3, if_neg hc] at hy
      exact hy rfl
    · intro y hy
      by_contra hc
      rw [halves_densityOf (by norm_num) (by norm_num), hp0 _ hc] at hy
      exact hy rfl
  rw [hval] at hres
  have hzero : l1Distance (baseOn allContinuous {0}) (densityOf {0} (halves 0 2 1 3)) (densityOf {0} (halves 0 3 0 3)) = 0 := by
    rw [← Except.ok.inj hres]
    norm_num
  unfold l1Distance at hzero
  have hzero := (integral_eq_zero_iff_of_nonneg (f := fun y => |densityOf {0} (halves 0 2 1 3) y - densityOf {0} (halves 0 3 0 3) y|)
    (fun _ => abs_nonneg _)
    ((density_integrable (isDensity_circuit hp)).sub (density_integrable (isDensity_circuit hq))).abs).1 hzero
  have hnull : baseOn allContinuous {0} (slab 1 2) = 0 := by
    refine measure_mono_null (fun y hy => ?_) hzero
    have hy : assign {0} y 0 ∈ Set.Icc (1 : ℝ) 2 := hy
    intro h0
    have h0 : |densityOf {0} (halves 0 2 1 3) y - densityOf {0} (halves 0 3 0 3) y| = 0 := h0
    rw [halves_densityOf (by norm_num) (by norm_num), halves_densityOf (by norm_num) (by norm_num), hq3, hp3 _ hy,
      if_pos ⟨by linarith [hy.1], by linarith [hy.2]⟩] at h0
    norm_num at h0
  rw [slab_volume] at hnull
  norm_num at hnull

end PM.Props
