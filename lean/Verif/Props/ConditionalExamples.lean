import Verif.Props.Conditional

/-!
# C07 and C08: examples and counterexamples
-/

namespace PM.Props

open Spec Graph MeasureTheory

/-- The closed interval. -/
noncomputable def cc (a b : ℝ) : SimpleInterval := ⟨a, b, .closed, .closed⟩

theorem cc_toSet (a b : ℝ) : (VSet.interval [cc a b]).toSet = Set.Icc a b := by
  ext x
  simp [VSet.toSet, VSet.Mem, SimpleInterval.Mem, SimpleInterval.leftOK, SimpleInterval.rightOK, cc]

theorem cc_disjoint {a b : ℝ} (h : a ≤ b) : (VSet.interval [cc a b]).Disjoint := by
  simp [VSet.Disjoint, SimpleInterval.IsEmpty, cc, h]

/-- The law of a uniform leaf on closed intervals. -/
theorem uniform_real (v : Var) {lo hi : ℝ} (h : lo < hi) (a b : ℝ) :
    (leafLaw (.uniform v lo hi .closed .closed)).real (Set.Icc a b) = max (min b hi - max a lo) 0 / (hi - lo) := by
  have hpos : 0 < hi - lo := sub_pos.2 h
  have e : volume (Set.Icc a b ∩ Set.Ioc lo hi) = volume (Set.Icc a b ∩ Set.Icc lo hi) :=
    measure_congr (Filter.EventuallyEq.inter Filter.EventuallyEq.rfl Ioc_ae_eq_Icc)
  rw [uniform_law_eq v h, measureReal_def, Measure.smul_apply, smul_eq_mul, ENNReal.toReal_mul,
    ENNReal.toReal_ofReal (by positivity), Measure.restrict_apply measurableSet_Icc, e, Set.Icc_inter_Icc, Real.volume_Icc,
    ENNReal.toReal_ofReal', one_div, inv_mul_eq_div]

/-- Proper events on uniform leaves: no interval meets the support in a point. -/
theorem proper_uniform {v : Var} {lo hi a b : ℝ} (h : max lo a ≠ min hi b) :
    ProperOn (.uniform v lo hi .closed .closed) (.interval [cc a b]) := by
  intro s hs i hi'
  simp only [Leaf.support, VSet.interval.injEq, List.cons.injEq, and_true] at hs
  simp only [List.mem_singleton] at hi'
  subst hs hi'
  rintro ⟨h1, _⟩
  apply h
  have : ((max lo a : ℝ) : EReal) = ((min hi b : ℝ) : EReal) := by
    rw [EReal.coe_strictMono.monotone.map_max, EReal.coe_strictMono.monotone.map_min]
    exact h1
  exact EReal.coe_injective this

theorem proper_realLine {v : Var} {lo hi : ℝ} (h : lo ≠ hi) :
    ProperOn (.uniform v lo hi .closed .closed) realLine := by
  intro s hs i hi'
  simp only [Leaf.support, VSet.interval.injEq, List.cons.injEq, and_true] at hs
  simp only [List.mem_singleton] at hi'
  subst hs hi'
  rintro ⟨h1, _⟩
  simp only [SimpleInterval.inter] at h1
  apply h
  have : (lo : EReal) = (hi : EReal) := by simpa using h1
  exact EReal.coe_injective this

theorem oneInterval_single {v : Var} {lo hi : ℝ} (i : SimpleInterval) :
    OneIntervalOn (.uniform v lo hi .closed .closed) (.interval [i]) := by
  intro L hL
  simp only [Leaf.support, VSet.inter, List.flatMap_cons, List.flatMap_nil, List.map_cons, List.map_nil, List.append_nil,
    VSet.interval.injEq] at hL
  subst hL
  exact (List.length_filter_le _ _).trans (by simp)

/-- If every unit is possible, everything remains. -/
theorem rest_all {g : Circuit} {r : Node} {P : Node → ℝ} {keep : Node → Bool} (hL : Layered g r)
    (hS : Survivors g P r keep) (hP : ∀ n ∈ g.ids, P n ≠ 0) {E : SimpleEvent} :
    (g.mapLeavesOn (newLeaf E) fun _ => true).induced keep = g.mapLeavesOn (newLeaf E) fun _ => true := by
  refine induced_all (hL.wf.mapLeavesOn _ _) fun n hn => ?_
  rw [ids_mapLeavesOn] at hn
  have hreach := reachable_of_root hL.wf hL.graded.acyclic hL.root n hn
  clear hn
  induction hreach with
  | refl => exact hS.root
  | tail _ hc ih =>
    obtain ⟨e, he, hs, rfl⟩ := mem_succ.1 hc
    exact hS.closed e he (by rw [hs]; exact ih) (hP _ (hL.wf.dstMem e he))

/-! ### Sum weights are not updated -/

/-- `½ U[0,1] + ½ U[0,4]`. -/
noncomputable def mix : Circuit where
  nodes := [(0, .sum), (1, .leaf (.uniform 0 0 1 .closed .closed)), (2, .leaf (.uniform 0 0 4 .closed .closed))]
  edges := [⟨0, 1, Ex.lw (1 / 2)⟩, ⟨0, 2, Ex.lw (1 / 2)⟩]

theorem mix_layered : Layered mix 0 where
  wf := ⟨by decide, by simp [mix], by simp [mix, ids], by simp [mix, ids]⟩
  graded := ⟨fun n => if n = 0 then 0 else 1, by simp [mix]⟩
  leaves := Ex.leafTerminal_of (by simp [mix, succ, outEdges])
  weighted := Ex.weighted_of (by simp [mix, outEdges, Ex.lw])
  root := by simp [root, mix, ids, inDegree, inEdges]

theorem mix_scoped : Scoped mix (fun _ => {0}) :=
  Ex.scoped_of (by simp [mix, Leaf.var]) (by simp [mix, succ, outEdges]) (by simp [mix])

theorem mix_decomposable : Decomposable mix (fun _ => {0}) := Ex.decomposable_of (by simp [mix])

theorem mix_valid : ∀ n d, mix.kind? n = some (.leaf d) → d.Valid := Ex.valid_of (by simp [mix, Leaf.Valid])

theorem mix_leaf {Q : Leaf → Prop} (h1 : Q (.uniform 0 0 1 .closed .closed)) (h2 : Q (.uniform 0 0 4 .closed .closed)) :
    ∀ n d, mix.kind? n = some (.leaf d) → Q d := fun n d h =>
  Ex.forall_kind (P := fun _ k => ∀ d, k = .leaf d → Q d) (by simp [mix]; exact ⟨h1, h2⟩) n _ h d rfl

theorem mix_normalized : NormalizedSums mix := Ex.normalized_of (by
  simp only [mix]
  simp [-one_div]
  rw [show outEdges (⟨[(0, .sum), (1, .leaf (.uniform 0 0 1 .closed .closed)),
    (2, .leaf (.uniform 0 0 4 .closed .closed))], [⟨0, 1, Ex.lw (1 / 2)⟩, ⟨0, 2, Ex.lw (1 / 2)⟩]⟩ : Circuit) 0
    = [⟨0, 1, Ex.lw (1 / 2)⟩, ⟨0, 2, Ex.lw (1 / 2)⟩] from rfl]
  simp (disch := norm_num) [Ex.linWeight_lw, -one_div])

theorem mix_domain : DomainFor mix (fun _ => realLine) :=
  ⟨fun _ => realLine_disjoint, mix_leaf (by simp [Fits, realLine]) (by simp [Fits, realLine]), fun _ _ _ => by simp [realLine_toSet]⟩

theorem mix_event {a b : ℝ} (h : a ≤ b) : EventFor mix {0} [(0, .interval [cc a b])] :=
  ⟨by simp [SimpleEvent.keys], by simp [SimpleEvent.keys], by simpa using cc_disjoint h, by
    intro p hp n d hk _
    simp only [List.mem_singleton] at hp
    subst hp
    exact mix_leaf (Q := fun d => Fits d _) (by simp [Fits]) (by simp [Fits]) n d hk⟩

theorem allowed_single (v : Var) (a b : ℝ) : allowed [(v, .interval [cc a b])] v = Set.Icc a b := by
  rw [← cc_toSet]
  exact allowed_of_mem (E := [(v, .interval [cc a b])]) (p := (v, .interval [cc a b])) (by simp [SimpleEvent.keys]) (by simp)

/-- The value of `mix` for an interval. -/
theorem mix_value (a b : ℝ) : CircuitValue mix
    (fun d => (leafLaw d).real (allowed [(0, .interval [cc a b])] d.var))
    (fun n => if n = 0 then (max (min b 1 - max a 0) 0 + max (min b 4 - max a 0) 0 / 4) / 2
      else if n = 1 then max (min b 1 - max a 0) 0 else max (min b 4 - max a 0) 0 / 4) := by
  refine Ex.value_of ?_ ?_ ?_
  · have h1 := uniform_real 0 (show (0 : ℝ) < 1 by norm_num) a b
    have h4 := uniform_real 0 (show (0 : ℝ) < 4 by norm_num) a b
    simp only [mix]
    simp [Leaf.var, allowed_single, h1, h4]
  · intro p hp hk
    have h : mix.outEdges 0 = [⟨0, 1, Ex.lw (1 / 2)⟩, ⟨0, 2, Ex.lw (1 / 2)⟩] := rfl
    have : p.1 = 0 := by
      simp only [mix, List.mem_cons, List.not_mem_nil, or_false] at hp
      rcases hp with rfl | rfl | rfl <;> simp_all
    rw [this, h]
    simp (disch := norm_num) [Ex.linWeight_lw, -one_div]
    ring
  · simp [mix]

theorem mix_probability {a b : ℝ} (h : a ≤ b) : (mix.probability freshMem (fun _ => realLine) [[(0, .interval [cc a b])]]).2
    = .ok ((max (min b 1 - max a 0) 0 + max (min b 4 - max a 0) 0 / 4) / 2) := by
  rw [probability_eq mix_layered mix_scoped mix_valid mix_domain (by simpa using mix_event h)
    (p := fun _ n => if n = 0 then (max (min b 1 - max a 0) 0 + max (min b 4 - max a 0) 0 / 4) / 2
      else if n = 1 then max (min b 1 - max a 0) 0 else max (min b 4 - max a 0) 0 / 4) (by simpa using mix_value a b)]
  simp

/-- The event `[0, 2]`. -/
noncomputable abbrev upTo2 : SimpleEvent := [(0, .interval [cc 0 2])]

theorem mix_proper : ProperEvent mix (fun _ => realLine) upTo2 :=
  ⟨by
    intro p hp n d hk _
    simp only [upTo2, List.mem_singleton] at hp
    subst hp
    exact mix_leaf (Q := fun d => ProperOn d _) (proper_uniform (by norm_num)) (proper_uniform (by norm_num)) n d hk,
    mix_leaf (Q := fun d => ProperOn d realLine) (proper_realLine (by norm_num)) (proper_realLine (by norm_num))⟩

theorem mix_one : OneInterval mix (fun _ => realLine) upTo2 :=
  ⟨by
    intro p hp n d hk _
    simp only [upTo2, List.mem_singleton] at hp
    subst hp
    exact mix_leaf (Q := fun d => OneIntervalOn d _) (oneInterval_single _) (oneInterval_single _) n d hk,
    mix_leaf (Q := fun d => OneIntervalOn d realLine) (oneInterval_single _) (oneInterval_single _)⟩

theorem mix_copy : mix.copy = mix := by
  simp [mix, copy, copyAt, edgeView, ids, outEdges, Ex.lw]

/-- `mix` given `[0, 2]`, as the code computes it: both components keep the weight ½. -/
theorem mix_conditional : ∃ d₁ d₂ q₁ q₂ p, mix.conditional (fun _ => realLine) [upTo2] = .ok (some
    ⟨[(0, .sum), (1, .leaf d₁), (2, .leaf d₂)], [⟨0, 1, Ex.lw (1 / 2)⟩, ⟨0, 2, Ex.lw (1 / 2)⟩]⟩, p) ∧
    CondSpec (.uniform 0 0 1 .closed .closed) (Set.Icc 0 2) (.one d₁ q₁) ∧
    CondSpec (.uniform 0 0 4 .closed .closed) (Set.Icc 0 2) (.one d₂ q₂) := by
  have hval := mix_value 0 2
  have hU := unsplit_ready mix_layered mix_scoped mix_valid mix_domain (mix_event (a := 0) (b := 2) (by norm_num)) mix_proper
    mix_one
  obtain ⟨keep, m', p, hS, hp, hm', _, heq⟩ := conditionSimple_unsplit mix_layered mix_scoped.sumNe hval hU
    (by norm_num) freshMem
  have hall := rest_all mix_layered hS (by
    intro n hn
    simp only [mix, ids, List.map_cons, List.map_nil, List.mem_cons, List.not_mem_nil, or_false] at hn
    rcases hn with rfl | rfl | rfl <;> norm_num) (E := upTo2.fillMissing (fun _ => realLine) (({0} : Finset Var).sort (· ≤ ·)))
  have hk1 : mix.kind? 1 = some (.leaf (.uniform 0 0 1 .closed .closed)) := rfl
  have hk2 : mix.kind? 2 = some (.leaf (.uniform 0 0 4 .closed .closed)) := rfl
  obtain ⟨q₁, hq₁⟩ := hU.newLeaf hk1 (by
    simp only [Leaf.var, allowed_single]; rw [uniform_real 0 (by norm_num)]; norm_num)
  obtain ⟨q₂, hq₂⟩ := hU.newLeaf hk2 (by
    simp only [Leaf.var, allowed_single]; rw [uniform_real 0 (by norm_num)]; norm_num)
  simp only [Leaf.var, allowed_single] at hq₁ hq₂
  refine ⟨_, _, q₁, q₂, p.exp, ?_, hq₁, hq₂⟩
  unfold conditional
  rw [circuitVars_eq mix_layered.wf mix_layered.graded.acyclic mix_scoped mix_layered.root]
  simp only [List.map_cons, List.map_nil, logConditional, logConditionalInPlace, mix_copy]
  rw [heq, hall]
  generalize hg : mix.mapLeavesOn (newLeaf _) (fun _ => true) = g1
  have hg' : g1 = ⟨[(0, .sum), (1, .leaf (newLeaf (upTo2.fillMissing (fun _ => realLine) (({0} : Finset Var).sort (· ≤ ·)))
      (.uniform 0 0 1 .closed .closed))), (2, .leaf (newLeaf (upTo2.fillMissing (fun _ => realLine)
      (({0} : Finset Var).sort (· ≤ ·))) (.uniform 0 0 4 .closed .closed)))],
      [⟨0, 1, Ex.lw (1 / 2)⟩, ⟨0, 2, Ex.lw (1 / 2)⟩]⟩ := by rw [← hg]; rfl
  have hsimp : g1.simplify = .ok g1 := by
    have h0 : g1.root = .ok 0 := by subst hg'; rfl
    have h1 : g1.bottomUp 0 = [1, 2, 0] := by subst hg'; rfl
    simp only [simplify, h0, h1]
    subst hg'
    rfl
  have hnorm : g1.normalize = .ok g1 := by
    refine normalize_id ?_ ?_ ?_
    · rw [← hg]; exact mix_layered.wf.mapLeavesOn _ _
    · subst hg'; exact Ex.weighted_of (by simp [outEdges, Ex.lw])
    · subst hg'
      refine Ex.normalized_of ?_
      intro q hq hk
      have h0 : q.1 = 0 := by
        simp only [List.mem_cons, List.not_mem_nil, or_false] at hq
        rcases hq with rfl | rfl | rfl <;> simp_all
      rw [h0]
      have := mix_normalized 0 rfl
      exact this
  simp only [bind, Except.bind, hsimp, hnorm]
  rw [hg']
  rfl

/-- **C08 is false**: `½ U[0,1] + ½ U[0,4]` given `[0,2]` gives `[0,1]` the probability ¾; it should be ⅚. -/
theorem C08_full_false : ¬ C08_full := by
  intro h
  obtain ⟨g', p, h1, h2⟩ := h mix 0 _ (fun _ => realLine) upTo2 mix_layered mix_scoped mix_decomposable mix_valid
    (mix_leaf (Q := Leaf.Normalized) trivial trivial) mix_normalized mix_domain (mix_event (by norm_num)) mix_proper _
    (mix_probability (by norm_num)) (by norm_num)
  obtain ⟨d₁, d₂, q₁, q₂, p', h3, c1, c2⟩ := mix_conditional
  rw [h3] at h1
  simp only [Except.ok.injEq, Prod.mk.injEq, Option.some.injEq] at h1
  obtain ⟨h1, _⟩ := h1
  subst h1
  obtain ⟨q, h4, h5⟩ := h2 [(0, .interval [cc 0 1])] (mix_event (by norm_num))
  obtain ⟨_, _, v1, n1, w1, f1, l1⟩ := c1
  obtain ⟨_, _, v2, n2, w2, f2, l2⟩ := c2
  change d₁.var = 0 at w1
  change d₂.var = 0 at w2
  set g' : Circuit := ⟨[(0, .sum), (1, .leaf d₁), (2, .leaf d₂)], [⟨0, 1, Ex.lw (1 / 2)⟩, ⟨0, 2, Ex.lw (1 / 2)⟩]⟩ with hg'
  have hL' : Layered g' 0 :=
    { wf := ⟨by simp [hg', ids], by simp [hg'], by simp [hg', ids], by simp [hg', ids]⟩
      graded := ⟨fun n => if n = 0 then 0 else 1, by simp [hg']⟩
      leaves := Ex.leafTerminal_of (by simp [hg', succ, outEdges])
      weighted := Ex.weighted_of (by simp [hg', outEdges, Ex.lw])
      root := by simp [root, hg', ids, inDegree, inEdges] }
  have hlf : ∀ {Q : Leaf → Prop}, Q d₁ → Q d₂ → ∀ n d, g'.kind? n = some (.leaf d) → Q d := fun {Q} h1 h2 n d h =>
    Ex.forall_kind (P := fun _ k => ∀ d, k = .leaf d → Q d) (by simp [hg']; exact ⟨h1, h2⟩) n _ h d rfl
  have hs' : Scoped g' (fun _ => {0}) :=
    Ex.scoped_of (by simp [hg', w1, w2]) (by simp [hg', succ, outEdges]) (by simp [hg'])
  have hd' : DomainFor g' (fun _ => realLine) :=
    ⟨fun _ => realLine_disjoint, hlf (f1 _ (by simp [Fits, realLine])) (f2 _ (by simp [Fits, realLine])),
      fun _ _ _ => by simp [realLine_toSet]⟩
  have hE' : EventFor g' {0} [(0, .interval [cc 0 1])] :=
    ⟨by simp [SimpleEvent.keys], by simp [SimpleEvent.keys], by simpa using cc_disjoint (by norm_num), by
      intro p hp n d hk _
      simp only [List.mem_singleton] at hp
      subst hp
      exact hlf (Q := fun d => Fits d _) (f1 _ (by simp [Fits])) (f2 _ (by simp [Fits])) n d hk⟩
  have e1 : (leafLaw d₁).real (Set.Icc 0 1) = 1 := by
    rw [l1 _ measurableSet_Icc, Set.Icc_inter_Icc, uniform_real 0 (by norm_num), uniform_real 0 (by norm_num)]
    norm_num
  have e2 : (leafLaw d₂).real (Set.Icc 0 1) = 1 / 2 := by
    rw [l2 _ measurableSet_Icc, Set.Icc_inter_Icc, uniform_real 0 (by norm_num), uniform_real 0 (by norm_num)]
    norm_num
  have h6 := probability_eq hL' hs' (hlf v1 v2) hd' (Es := [[(0, .interval [cc 0 1])]]) (by simpa using hE')
    (p := fun _ n => if n = 0 then 3 / 4 else if n = 1 then 1 else 1 / 2)
    (by
      intro E hE
      simp only [List.mem_singleton] at hE
      subst hE
      refine Ex.value_of ?_ ?_ ?_
      · simp only [hg']
        simp [w1, w2, allowed_single, e1, e2]
      · intro p hp hk
        have h : g'.outEdges 0 = [⟨0, 1, Ex.lw (1 / 2)⟩, ⟨0, 2, Ex.lw (1 / 2)⟩] := rfl
        have : p.1 = 0 := by
          simp only [hg', List.mem_cons, List.not_mem_nil, or_false] at hp
          rcases hp with rfl | rfl | rfl <;> simp_all
        rw [this, h]
        simp (disch := norm_num) [Ex.linWeight_lw, -one_div]
        norm_num
      · simp [hg']) freshMem
  rw [h6] at h4
  simp only [List.map_cons, List.map_nil, List.sum_cons, List.sum_nil, add_zero, if_true, Except.ok.injEq] at h4
  have hcomp : SimpleEvent.Compatible upTo2 [(0, .interval [cc 0 1])] := by
    intro a ha b hb _
    simp only [List.mem_singleton] at ha hb
    subst ha hb
    trivial
  have h7 := probability_eq mix_layered mix_scoped mix_valid mix_domain
    (Es := [SimpleEvent.inter upTo2 [(0, .interval [cc 0 1])]])
    (by simpa using eventFor_inter mix_layered mix_scoped (mix_event (by norm_num)) (mix_event (by norm_num)))
    (p := fun _ n => if n = 0 then 5 / 8 else if n = 1 then 1 else 1 / 4)
    (by
      intro E hE
      simp only [List.mem_singleton] at hE
      subst hE
      have := mix_value 0 1
      have e : ∀ v, (0 : Var) = v → allowed (SimpleEvent.inter upTo2 [(0, .interval [cc 0 1])]) v
          = allowed [(0, .interval [cc 0 1])] v := by
        rintro v rfl
        rw [allowed_inter (by simp [SimpleEvent.keys]) hcomp, allowed_single, allowed_single, Set.Icc_inter_Icc]
        norm_num
      refine ⟨fun n d hk => ?_, fun n hk => ?_, fun n hk => ?_⟩
      · have hv : (0 : Var) = d.var := mix_leaf (Q := fun d => (0 : Var) = d.var) rfl rfl n d hk
        rw [e _ hv, ← this.leaf n d hk]
        norm_num
      · have := this.sum n hk
        norm_num at this ⊢
        exact this
      · have := this.prod n hk
        norm_num at this ⊢
        exact this) freshMem
  rw [h7] at h5
  simp only [List.map_cons, List.map_nil, List.sum_cons, List.sum_nil, add_zero, if_true, Except.ok.injEq] at h5
  rw [← h4] at h5
  norm_num at h5

/-! ### Unions of simple events -/

/-- `U[0,4] × U[0,4]`. -/
noncomputable def square : Circuit where
  nodes := [(0, .prod), (1, .leaf (.uniform 0 0 4 .closed .closed)), (2, .leaf (.uniform 1 0 4 .closed .closed))]
  edges := [⟨0, 1, none⟩, ⟨0, 2, none⟩]

def squareScope : Node → Finset Var := fun n => if n = 0 then {0, 1} else if n = 1 then {0} else {1}

theorem square_layered : Layered square 0 where
  wf := ⟨by decide, by simp [square], by simp [square, ids], by simp [square, ids]⟩
  graded := ⟨fun n => if n = 0 then 0 else 1, by simp [square]⟩
  leaves := Ex.leafTerminal_of (by simp [square, succ, outEdges])
  weighted := Ex.weighted_of (by simp [square])
  root := by simp [root, square, ids, inDegree, inEdges]

theorem square_scoped : Scoped square squareScope := by
  have h : square.succ 0 = [1, 2] := rfl
  refine Ex.scoped_of ?_ ?_ ?_
  · simp [square, Leaf.var, squareScope]
  · simp [square]
  · intro p hp hk
    have : p.1 = 0 := by
      simp only [square, List.mem_cons, List.not_mem_nil, or_false] at hp
      rcases hp with rfl | rfl | rfl <;> simp_all
    rw [this, h]
    simp [squareScope]

theorem square_decomposable : Decomposable square squareScope := by
  refine Ex.decomposable_of ?_
  intro p hp hk
  have : p.1 = 0 := by
    simp only [square, List.mem_cons, List.not_mem_nil, or_false] at hp
    rcases hp with rfl | rfl | rfl <;> simp_all
  rw [this, show square.succ 0 = [1, 2] from rfl]
  simp [squareScope]

theorem square_leaf {Q : Leaf → Prop} (h1 : Q (.uniform 0 0 4 .closed .closed)) (h2 : Q (.uniform 1 0 4 .closed .closed)) :
    ∀ n d, square.kind? n = some (.leaf d) → Q d := fun n d h =>
  Ex.forall_kind (P := fun _ k => ∀ d, k = .leaf d → Q d) (by simp [square]; exact ⟨h1, h2⟩) n _ h d rfl

theorem square_valid : ∀ n d, square.kind? n = some (.leaf d) → d.Valid :=
  square_leaf (Q := Leaf.Valid) (by simp [Leaf.Valid]) (by simp [Leaf.Valid])

theorem square_normalized : NormalizedSums square := Ex.normalized_of (by simp [square])

theorem square_domain : DomainFor square (fun _ => realLine) :=
  ⟨fun _ => realLine_disjoint, square_leaf (by simp [Fits, realLine]) (by simp [Fits, realLine]),
    fun _ _ _ => by simp [realLine_toSet]⟩

/-- Both variables in `[a, b]`. -/
noncomputable abbrev both (a b : ℝ) : SimpleEvent := [(0, .interval [cc a b]), (1, .interval [cc a b])]

theorem square_event {a b : ℝ} (h : a ≤ b) : EventFor square (squareScope 0) (both a b) := by
  refine ⟨by simp [SimpleEvent.keys], by simp [SimpleEvent.keys, squareScope], ?_, ?_⟩
  · simpa using cc_disjoint h
  · intro p hp n d hk _
    simp only [List.mem_cons, List.not_mem_nil, or_false] at hp
    rcases hp with rfl | rfl <;>
    exact square_leaf (Q := fun d => Fits d _) (by simp [Fits]) (by simp [Fits]) n d hk

theorem square_proper {a b : ℝ} (h : max 0 a ≠ min 4 b) : ProperEvent square (fun _ => realLine) (both a b) :=
  ⟨by
    intro p hp n d hk _
    simp only [List.mem_cons, List.not_mem_nil, or_false] at hp
    rcases hp with rfl | rfl <;>
    exact square_leaf (Q := fun d => ProperOn d _) (proper_uniform h) (proper_uniform h) n d hk,
    square_leaf (Q := fun d => ProperOn d realLine) (proper_realLine (by norm_num)) (proper_realLine (by norm_num))⟩

theorem square_one (a b : ℝ) : OneInterval square (fun _ => realLine) (both a b) :=
  ⟨by
    intro p hp n d hk _
    simp only [List.mem_cons, List.not_mem_nil, or_false] at hp
    rcases hp with rfl | rfl <;>
    exact square_leaf (Q := fun d => OneIntervalOn d _) (oneInterval_single _) (oneInterval_single _) n d hk,
    square_leaf (Q := fun d => OneIntervalOn d realLine) (oneInterval_single _) (oneInterval_single _)⟩

theorem allowed_both (a b : ℝ) : allowed (both a b) 0 = Set.Icc a b ∧ allowed (both a b) 1 = Set.Icc a b := by
  rw [← cc_toSet]
  exact ⟨allowed_of_mem (E := both a b) (p := (0, .interval [cc a b])) (by simp [SimpleEvent.keys]) (by simp),
    allowed_of_mem (E := both a b) (p := (1, .interval [cc a b])) (by simp [SimpleEvent.keys]) (by simp)⟩

theorem square_value {a b : ℝ} (h0 : 0 ≤ a) (h : b = a + 1) (h4 : b ≤ 4) : CircuitValue square
    (fun d => (leafLaw d).real (allowed (both a b) d.var)) (fun n => if n = 0 then 1 / 16 else 1 / 4) := by
  have hu : ∀ v, (leafLaw (.uniform v 0 4 .closed .closed)).real (Set.Icc a b) = 1 / 4 := by
    intro v
    rw [uniform_real v (by norm_num), min_eq_left h4, max_eq_left h0, h]
    norm_num
  refine Ex.value_of ?_ ?_ ?_
  · simp only [square]
    simp [Leaf.var, allowed_both, hu]
  · simp [square]
  · intro p hp hk
    have : p.1 = 0 := by
      simp only [square, List.mem_cons, List.not_mem_nil, or_false] at hp
      rcases hp with rfl | rfl | rfl <;> simp_all
    rw [this, show square.outEdges 0 = [⟨0, 1, none⟩, ⟨0, 2, none⟩] from rfl]
    norm_num

theorem square_copy : square.copy = square := by simp [square, copy, copyAt, edgeView, ids, outEdges]

/-- Conditioning the square on a box. -/
theorem square_conditionSimple {a b : ℝ} (h0 : 0 ≤ a) (h : b = a + 1) (h4 : b ≤ 4) : ∃ d₁ d₂ m p,
    square.conditionSimple freshMem ((both a b).fillMissing (fun _ => realLine) ((squareScope 0).sort (· ≤ ·))) = .ok (some
      (⟨[(0, .prod), (1, .leaf d₁), (2, .leaf d₂)], [⟨0, 1, none⟩, ⟨0, 2, none⟩]⟩, m), p) ∧ p.exp = 1 / 16 ∧ m 0 = some p := by
  have hval := square_value h0 h h4
  have hU := unsplit_ready square_layered square_scoped square_valid square_domain (square_event (a := a) (b := b) (by linarith))
    (square_proper (by rw [max_eq_right h0, min_eq_right h4, h]; linarith)) (square_one a b)
  obtain ⟨keep, m', p, hS, hp, hm', _, heq⟩ := conditionSimple_unsplit square_layered square_scoped.sumNe hval hU
    (by norm_num) freshMem
  have hall := rest_all square_layered hS (by
    intro n hn
    simp only [square, ids, List.map_cons, List.map_nil, List.mem_cons, List.not_mem_nil, or_false] at hn
    rcases hn with rfl | rfl | rfl <;> norm_num)
    (E := (both a b).fillMissing (fun _ => realLine) ((squareScope 0).sort (· ≤ ·)))
  refine ⟨newLeaf ((both a b).fillMissing (fun _ => realLine) ((squareScope 0).sort (· ≤ ·))) (.uniform 0 0 4 .closed .closed),
    newLeaf ((both a b).fillMissing (fun _ => realLine) ((squareScope 0).sort (· ≤ ·))) (.uniform 1 0 4 .closed .closed),
    m', p, ?_, by simpa using hp, hm'⟩
  rw [heq, hall]
  generalize hg : square.mapLeavesOn (newLeaf _) (fun _ => true) = g1
  have hg' : g1 = ⟨[(0, .prod), (1, .leaf (newLeaf ((both a b).fillMissing (fun _ => realLine)
      ((squareScope 0).sort (· ≤ ·))) (.uniform 0 0 4 .closed .closed))), (2, .leaf (newLeaf ((both a b).fillMissing
      (fun _ => realLine) ((squareScope 0).sort (· ≤ ·))) (.uniform 1 0 4 .closed .closed)))],
      [⟨0, 1, none⟩, ⟨0, 2, none⟩]⟩ := by rw [← hg]; rfl
  have hsimp : g1.simplify = .ok g1 := by
    have h0 : g1.root = .ok 0 := by subst hg'; rfl
    have h1 : g1.bottomUp 0 = [1, 2, 0] := by subst hg'; rfl
    simp only [simplify, h0, h1]
    subst hg'
    rfl
  have hnorm : g1.normalize = .ok g1 := by subst hg'; rfl
  simp only [bind, Except.bind, hsimp, hnorm]
  rw [hg']

/-- What `log_conditional_in_place` returns for two simple events with possible answers: every probability is counted
squared. -/
theorem logConditional_two {g g₁ g₂ : Circuit} {m₁ m₂ : Mem LogP} {p₁ p₂ q : LogP} {E₁ E₂ : SimpleEvent} {r₁ r₂ : Node}
    {res : Option Circuit} (hc : g.copy = g) (c1 : g.conditionSimple freshMem E₁ = .ok (some (g₁, m₁), p₁))
    (c2 : g.conditionSimple freshMem E₂ = .ok (some (g₂, m₂), p₂)) (hr1 : g₁.root = .ok r₁) (hr2 : g₂.root = .ok r₂)
    (r1 : m₁ r₁ = some p₁) (r2 : m₂ r₂ = some p₂) (n1 : p₁.isNegInf = false) (n2 : p₂.isNegInf = false)
    (h : g.logConditionalInPlace freshMem [E₁, E₂] = .ok (res, q)) : q = LogP.logsumexp [p₁ + p₁, p₂ + p₂] := by
  have hall : ([E₁, E₂].mapM fun E => g.copy.conditionSimple freshMem E) = .ok [(some (g₁, m₁), p₁), (some (g₂, m₂), p₂)] := by
    simp [hc, c1, c2, bind, Except.bind, pure, Except.pure]
  have hposs : possible [(some (g₁, m₁), p₁), (some (g₂, m₂), p₂)] = [(g₁, m₁, p₁), (g₂, m₂, p₂)] := by
    simp [possible, n1, n2]
  have hm : mountAll [(g₁, m₁, p₁), (g₂, m₂, p₂)] (⟨[(0, .sum)], []⟩, []) = .ok (mountBelow (mountBelow ⟨[(0, .sum)], []⟩ 0 g₁ r₁ p₁)
      0 g₂ r₂ p₂, [(p₁, some p₁), (p₂, some p₂)]) := by
    simp [mountAll, hr1, hr2, r1, r2, bind, Except.bind]
  have hf : mixtureForward [(p₁, some p₁), (p₂, some p₂)] = .ok (LogP.logsumexp [p₁ + p₁, p₂ + p₂]) := by
    simp [mixtureForward, bind, Except.bind, pure, Except.pure]
  unfold logConditionalInPlace at h
  simp only at h
  rw [hall] at h
  simp only [bind, Except.bind] at h
  rw [hposs] at h
  simp only at h
  rw [hm] at h
  simp only at h
  rw [hf] at h
  simp only at h
  split at h
  · cases h
  · simp only [Except.ok.injEq, Prod.mk.injEq] at h
    exact h.2.symm

/-- **C07 is false for unions**: on `U[0,4] × U[0,4]` and the union of the boxes `[0,1]²` and `[2,3]²`, `conditional` returns
`1/128`, while the probability is `1/8`. -/
theorem C07_full_false : ¬ C07_full := by
  intro hfull
  have hEs : ∀ E ∈ [both 0 1, both 2 3], EventFor square (squareScope 0) E ∧ ProperEvent square (fun _ => realLine) E := by
    intro E hE
    simp only [List.mem_cons, List.not_mem_nil, or_false] at hE
    rcases hE with rfl | rfl
    · exact ⟨square_event (by norm_num), square_proper (by norm_num)⟩
    · exact ⟨square_event (by norm_num), square_proper (by norm_num)⟩
  obtain ⟨res, p, h1, h2, _⟩ := hfull square 0 squareScope (fun _ => realLine) [both 0 1, both 2 3] square_layered square_scoped
    square_decomposable square_valid (square_leaf (Q := Leaf.Normalized) trivial trivial) square_normalized square_domain hEs
    (by
      simp only [DisjointFamily, List.pairwise_cons, List.mem_singleton, forall_eq, List.not_mem_nil, false_imp_iff,
        implies_true, List.Pairwise.nil, and_self, and_true]
      rintro x ⟨ha, hb⟩
      have ha := ha (0, .interval [cc 0 1]) (by simp)
      have hb := hb (0, .interval [cc 2 3]) (by simp)
      change x 0 ∈ (VSet.interval [cc 0 1]).toSet at ha
      change x 0 ∈ (VSet.interval [cc 2 3]).toSet at hb
      rw [cc_toSet] at ha hb
      have := ha.2
      have := hb.1
      linarith)
  have h3 := probability_eq square_layered square_scoped square_valid square_domain (Es := [both 0 1, both 2 3])
    (fun E hE => (hEs E hE).1) (p := fun _ n => if n = 0 then 1 / 16 else 1 / 4)
    (by
      intro E hE
      simp only [List.mem_cons, List.not_mem_nil, or_false] at hE
      rcases hE with rfl | rfl
      · exact square_value (by norm_num) (by norm_num) (by norm_num)
      · exact square_value (by norm_num) (by norm_num) (by norm_num)) freshMem
  rw [h3] at h2
  simp only [List.map_cons, List.map_nil, List.sum_cons, List.sum_nil, add_zero, if_true, Except.ok.injEq] at h2
  obtain ⟨d₁, d₂, m₁, p₁, c1, e1, r1⟩ := square_conditionSimple (a := 0) (b := 1) (by norm_num) (by norm_num) (by norm_num)
  obtain ⟨d₃, d₄, m₂, p₂, c2, e2, r2⟩ := square_conditionSimple (a := 2) (b := 3) (by norm_num) (by norm_num) (by norm_num)
  have n1 : p₁.isNegInf = false := by
    cases p₁ with
    | negInf => norm_num at e1
    | fin x => rfl
  have n2 : p₂.isNegInf = false := by
    cases p₂ with
    | negInf => norm_num at e2
    | fin x => rfl
  unfold conditional at h1
  rw [circuitVars_eq square_layered.wf square_layered.graded.acyclic square_scoped square_layered.root] at h1
  simp only [logConditional, square_copy, List.map_cons, List.map_nil] at h1
  generalize hres : square.logConditionalInPlace freshMem _ = x at h1
  cases x with
  | error e => cases h1
  | ok v =>
    obtain ⟨res', q⟩ := v
    have hq := logConditional_two square_copy c1 c2 rfl rfl r1 r2 n1 n2 hres
    simp only [bind, Except.bind, Except.ok.injEq, Prod.mk.injEq] at h1
    have := h1.2
    rw [← h2, hq, LogP.exp_logsumexp] at this
    simp only [List.map_cons, List.map_nil, List.sum_cons, List.sum_nil, add_zero, LogP.exp_add, e1, e2] at this
    norm_num at this

/-- `mix` and `[0, 2]` meet the hypotheses of C07, and `conditional` returns. -/
example : Layered mix 0 ∧ Scoped mix (fun _ => {0}) ∧ (∀ n d, mix.kind? n = some (.leaf d) → d.Valid) ∧
    DomainFor mix (fun _ => realLine) ∧ EventFor mix {0} upTo2 ∧ ProperEvent mix (fun _ => realLine) upTo2 ∧
    ∃ res p, mix.conditional (fun _ => realLine) [upTo2] = .ok (res, p) :=
  ⟨mix_layered, mix_scoped, mix_valid, mix_domain, mix_event (by norm_num), mix_proper, by
    obtain ⟨_, _, _, _, p, h, _⟩ := mix_conditional
    exact ⟨_, p, h⟩⟩

/-- A balanced example: the tree over two variables and the event `x₀ ∈ [0, ½]`, which excludes one component. -/
theorem tree2_leaf {Q : Leaf → Prop} (h1 : Q (.uniform 0 0 1 .closed .closed)) (h2 : Q (.uniform 1 0 2 .closed .closed))
    (h3 : Q (.uniform 0 2 3 .closed .closed)) (h4 : Q (.uniform 1 0 4 .closed .closed)) :
    ∀ n d, tree2.kind? n = some (.leaf d) → Q d := fun n d h =>
  Ex.forall_kind (P := fun _ k => ∀ d, k = .leaf d → Q d) (by simp [tree2]; exact ⟨h1, h2, h3, h4⟩) n _ h d rfl

noncomputable abbrev half : SimpleEvent := [(0, .interval [cc 0 (1 / 2)])]

theorem tree2_half_value : CircuitValue tree2 (fun d => (leafLaw d).real (allowed half d.var))
    (fun n => if n = 0 then 1 / 8 else if n = 1 ∨ n = 3 then 1 / 2 else if n = 2 ∨ n = 5 then 0 else 1) := by
  have h1 : allowed half 1 = Set.univ := allowed_of_not_mem (by simp [SimpleEvent.keys])
  have hone : ∀ b : ℝ, 0 < b → (leafLaw (.uniform 1 0 b .closed .closed)).real Set.univ = 1 := by
    intro b hb
    rw [measureReal_def, leafLaw_univ (show (Leaf.uniform 1 0 b .closed .closed).Valid from hb) trivial]
    simp
  refine Ex.value_of ?_ ?_ ?_
  · have a1 := uniform_real 0 (show (0 : ℝ) < 1 by norm_num) 0 (1 / 2)
    have a2 := uniform_real 0 (show (2 : ℝ) < 3 by norm_num) 0 (1 / 2)
    norm_num at a1 a2
    have b1 := hone 2 (by norm_num)
    have b2 := hone 4 (by norm_num)
    simp only [tree2]
    simp [Leaf.var, allowed_single, h1, a1, a2, b1, b2, -one_div]
  · have h : tree2.outEdges 0 = [⟨0, 1, Ex.lw (1 / 4)⟩, ⟨0, 2, Ex.lw (3 / 4)⟩] := rfl
    simp (disch := norm_num) [tree2_nodes, h, Ex.linWeight_lw, -one_div]
    norm_num
  · have ha : tree2.outEdges 1 = [⟨1, 3, none⟩, ⟨1, 4, none⟩] := rfl
    have hb : tree2.outEdges 2 = [⟨2, 5, none⟩, ⟨2, 6, none⟩] := rfl
    simp [tree2_nodes, ha, hb]

example : Layered tree2 0 ∧ Scoped tree2 tree2Scope ∧ Decomposable tree2 tree2Scope ∧
    (∀ n d, tree2.kind? n = some (.leaf d) → d.Valid) ∧ NormalizedSums tree2 ∧ PositiveWeights tree2 ∧ TreeShaped tree2 ∧
    DomainFor tree2 (fun _ => realLine) ∧ EventFor tree2 (tree2Scope 0) half ∧ ProperEvent tree2 (fun _ => realLine) half ∧
    OneInterval tree2 (fun _ => realLine) half ∧
    (∀ P, CircuitValue tree2 (fun d => (leafLaw d).real {t | ∀ q ∈ half, q.1 = d.var → q.2.Mem t}) P → Balanced tree2 P) ∧
    (tree2.probability freshMem (fun _ => realLine) [half]).2 = .ok (1 / 8) := by
  have hd : DomainFor tree2 (fun _ => realLine) := ⟨fun _ => realLine_disjoint, tree2_leaf (by simp [Fits, realLine])
    (by simp [Fits, realLine]) (by simp [Fits, realLine]) (by simp [Fits, realLine]), fun _ _ _ => by simp [realLine_toSet]⟩
  have hE : EventFor tree2 (tree2Scope 0) half := ⟨by simp [SimpleEvent.keys], by simp [SimpleEvent.keys, tree2Scope],
    by simpa using cc_disjoint (by norm_num), by
      intro p hp n d hk _
      simp only [List.mem_singleton] at hp
      subst hp
      exact tree2_leaf (Q := fun d => Fits d _) (by simp [Fits]) (by simp [Fits]) (by simp [Fits]) (by simp [Fits]) n d hk⟩
  refine ⟨tree2_layered, tree2_scoped, tree2_decomposable, tree2_valid, tree2_normalized,
    Ex.positive_of (by simp [tree2, outEdges, Ex.lw]), by simp [TreeShaped, tree2], hd, hE, ⟨?_, ?_⟩, ⟨?_, ?_⟩, ?_, ?_⟩
  · intro p hp n d hk _
    simp only [List.mem_singleton] at hp
    subst hp
    exact tree2_leaf (Q := fun d => ProperOn d _) (proper_uniform (by norm_num)) (proper_uniform (by norm_num))
      (proper_uniform (by norm_num)) (proper_uniform (by norm_num)) n d hk
  · exact tree2_leaf (Q := fun d => ProperOn d realLine) (proper_realLine (by norm_num)) (proper_realLine (by norm_num))
      (proper_realLine (by norm_num)) (proper_realLine (by norm_num))
  · intro p hp n d hk _
    simp only [List.mem_singleton] at hp
    subst hp
    exact tree2_leaf (Q := fun d => OneIntervalOn d _) (oneInterval_single _) (oneInterval_single _)
      (oneInterval_single _) (oneInterval_single _) n d hk
  · exact tree2_leaf (Q := fun d => OneIntervalOn d realLine) (oneInterval_single _) (oneInterval_single _)
      (oneInterval_single _) (oneInterval_single _)
  · intro P hP n hk hn
    have hu := circuitValue_unique tree2_layered.wf tree2_layered.graded.acyclic hP tree2_half_value
    have h0 : n = 0 := Ex.forall_kind (g := tree2) (P := fun n k => k = .sum → n = 0) (by simp [tree2]) n _ hk rfl
    subst h0
    left
    have h : tree2.outEdges 0 = [⟨0, 1, Ex.lw (1 / 4)⟩, ⟨0, 2, Ex.lw (3 / 4)⟩] := rfl
    rw [h]
    refine ⟨⟨0, 1, Ex.lw (1 / 4)⟩, by simp, ?_⟩
    intro e he hne
    simp only [List.mem_cons, List.not_mem_nil, or_false] at he
    rcases he with rfl | rfl
    · rfl
    · exact absurd (by rw [hu 2 (by simp [tree2, ids])]; simp) hne
  · rw [probability_eq tree2_layered tree2_scoped tree2_valid hd (by simpa using hE)
      (p := fun _ n => if n = 0 then 1 / 8 else if n = 1 ∨ n = 3 then 1 / 2 else if n = 2 ∨ n = 5 then 0 else 1)
      (by simpa using tree2_half_value)]
    simp

end PM.Props
