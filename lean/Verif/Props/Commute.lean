import Verif.Props.Histories

/-!
# C108: `marginal` and `conditional` in either order
-/

namespace PM.Props

open Spec Graph MeasureTheory

variable {g : Circuit} {r : Node} {sc : Node → Finset Var} {dom : Var → VSet} {E : SimpleEvent}

/-- The full property: evidence about variables that are kept may be entered before or after `marginal`. -/
def C108_full : Prop := ∀ (g : Circuit) (r : Node) (sc : Node → Finset Var) (dom : Var → VSet) (E : SimpleEvent) (W : Finset Var)
  (g₁ g₂ : Circuit), EvidenceModel g r sc dom → EvidenceFor g (sc r ∩ W) E →
  history dom g [.given E, .onto W] = .ok (some g₁) → history dom g [.onto W, .given E] = .ok (some g₂) →
  ∀ F, EventFor g (sc r ∩ W) F → ∀ m m', (g₁.probability m dom [F]).2 = (g₂.probability m' dom [F]).2

/-- **C108, proved part**: in either order both calls succeed; one order ends with `None` exactly if the other does; and otherwise the two
models are over the same variables and the same simple events are impossible in them.  Missing: equal probabilities (false:
`C108_full_false`). -/
theorem C108_order_partial (hM : EvidenceModel g r sc dom) {W : Finset Var} (hne : (sc r).Nonempty) (hE : EvidenceFor g (sc r ∩ W) E) :
    ∃ res res', history dom g [.given E, .onto W] = .ok res ∧ history dom g [.onto W, .given E] = .ok res' ∧ (res = none ↔ res' = none) ∧
      ∀ g₁ g₂, res = some g₁ → res' = some g₂ → g₁.circuitVars = g₂.circuitVars ∧
        ∀ F, EventFor g (sc r ∩ W) F → ∀ m m', ∃ q q', (g₁.probability m dom [F]).2 = .ok q ∧ (g₂.probability m' dom [F]).2 = .ok q' ∧
          (q = 0 ↔ q' = 0) := by
  obtain ⟨res, h1, h2, h3⟩ := C106_history hM hne (ops := [.given E, .onto W])
    ⟨EvidenceFor.widen Finset.inter_subset_left hE, trivial⟩
  obtain ⟨res', h1', h2', h3'⟩ := C106_history hM hne (ops := [.onto W, .given E]) ⟨hE, trivial⟩
  refine ⟨res, res', h1, h1', ?_, fun g₁ g₂ e₁ e₂ => ?_⟩
  · obtain ⟨P, hP⟩ := exists_probValue hM.layered (together [E] [])
    have hT := eventFor_together hM (eventFor_nil _) [E] (by simpa using EventFor.widen Finset.inter_subset_left hE.event)
    have hp := probability_eq hM.layered hM.smooth hM.valid hM.domain (Es := [together [E] []]) (by simpa using hT) (p := fun _ => P)
      (by simpa using hP) freshMem
    exact (h2 _ _ hp).trans (h2' _ _ hp).symm
  · obtain ⟨i1, _, i2⟩ := h3 g₁ e₁
    obtain ⟨j1, _, j2⟩ := h3' g₂ e₂
    refine ⟨i1.trans j1.symm, fun F hF m m' => ?_⟩
    obtain ⟨q, p, a1, a2, a3⟩ := i2 F hF m freshMem
    obtain ⟨q', p', b1, b2, b3⟩ := j2 F hF m' freshMem
    have : (.ok p : Except PyErr ℝ) = .ok p' := a2.symm.trans b2
    cases Except.ok.inj this
    exact ⟨q, q', a1, b1, a3.trans b3.symm⟩

/-- `marginal` twice is `marginal` once: the model that is left assigns every event about the variables that are left the same probability. -/
theorem C108_marginals (hM : EvidenceModel g r sc dom) {V W : Finset Var} (hne : (sc r).Nonempty) (h : (sc r ∩ V ∩ W).Nonempty) :
    ∃ g₁ g₂, history dom g [.onto V, .onto W] = .ok (some g₁) ∧ history dom g [.onto (V ∩ W)] = .ok (some g₂) ∧
      g₁.circuitVars = .ok (sc r ∩ V ∩ W) ∧ g₂.circuitVars = .ok (sc r ∩ V ∩ W) ∧
      ∀ Es : Event, (∀ E ∈ Es, EventFor g (sc r ∩ V ∩ W) E) → ∀ m m', (g₁.probability m dom Es).2 = (g₂.probability m' dom Es).2 := by
  have hone : ∀ m, (g.probability m dom [together [] []]).2 = .ok 1 := probability_one hM (eventFor_nil _) leavesIn_nil
  obtain ⟨res, h1, h2, h3⟩ := C106_history hM hne (ops := [.onto V, .onto W]) trivial
  obtain ⟨res', h1', h2', h3'⟩ := C106_history hM hne (ops := [.onto (V ∩ W)]) trivial
  have e : sc r ∩ (V ∩ W) = sc r ∩ V ∩ W := (Finset.inter_assoc _ _ _).symm
  cases res with
  | none =>
    rcases (h2 freshMem 1 (hone _)).1 rfl with h0 | h0
    · norm_num at h0
    · exact absurd h0 h.ne_empty
  | some g₁ =>
    cases res' with
    | none =>
      rcases (h2' freshMem 1 (hone _)).1 rfl with h0 | h0
      · norm_num at h0
      · exact absurd (e ▸ h0 : sc r ∩ V ∩ W = ∅) h.ne_empty
    | some g₂ =>
      refine ⟨g₁, g₂, h1, h1', (h3 g₁ rfl).1, ?_, fun Es hE m m' => ?_⟩
      · rw [(h3' g₂ rfl).1]
        exact congrArg _ e
      · exact (C106_exact hM hne rfl h1 Es hE m freshMem).trans
          (C106_exact hM hne rfl h1' Es (fun E hm => by
            show EventFor g (sc r ∩ (V ∩ W)) E
            rw [e]
            exact hE E hm) m' freshMem).symm

/-! ### A nested mixture in which the order matters -/

/-- `½ (½ U₀[0,1] + ½ U₀[2,3]) U₁[0,1] + ½ U₀[0,½] U₁[0,1]`. -/
noncomputable def nest2 : Circuit where
  nodes := [(0, .sum), (1, .prod), (2, .prod), (3, .sum), (4, .leaf (.uniform 1 0 1 .closed .closed)),
    (5, .leaf (.uniform 0 0 (1 / 2) .closed .closed)), (6, .leaf (.uniform 1 0 1 .closed .closed)),
    (7, .leaf (.uniform 0 0 1 .closed .closed)), (8, .leaf (.uniform 0 2 3 .closed .closed))]
  edges := [⟨0, 1, Ex.lw (1 / 2)⟩, ⟨0, 2, Ex.lw (1 / 2)⟩, ⟨1, 3, none⟩, ⟨1, 4, none⟩, ⟨2, 5, none⟩, ⟨2, 6, none⟩,
    ⟨3, 7, Ex.lw (1 / 2)⟩, ⟨3, 8, Ex.lw (1 / 2)⟩]

def nest2Scope : Node → Finset Var := fun n => if n ≤ 2 then {0, 1} else if n = 4 ∨ n = 6 then {1} else {0}

/-- Its marginal: the inner mixture is flattened. -/
noncomputable def nest2Flat : Circuit where
  nodes := [(0, .sum), (5, .leaf (.uniform 0 0 (1 / 2) .closed .closed)), (7, .leaf (.uniform 0 0 1 .closed .closed)),
    (8, .leaf (.uniform 0 2 3 .closed .closed))]
  edges := [⟨0, 5, Ex.lw (1 / 2)⟩, ⟨0, 7, quarter⟩, ⟨0, 8, quarter⟩]

theorem nest2_leaf {Q : Leaf → Prop} (h1 : Q (.uniform 1 0 1 .closed .closed)) (h2 : Q (.uniform 0 0 (1 / 2) .closed .closed))
    (h3 : Q (.uniform 0 0 1 .closed .closed)) (h4 : Q (.uniform 0 2 3 .closed .closed)) : ∀ n d, nest2.kind? n = some (.leaf d) → Q d :=
  fun n d h => Ex.forall_kind (P := fun _ k => ∀ d, k = .leaf d → Q d) (by
    simp only [nest2, List.mem_cons, List.not_mem_nil, or_false, forall_eq_or_imp, forall_eq, Kind.leaf.injEq, reduceCtorEq,
      false_implies, implies_true, true_and, forall_eq']
    exact ⟨h1, h2, h1, h3, h4⟩) n _ h d rfl

theorem nest2_nodes : nest2.nodes = [(0, .sum), (1, .prod), (2, .prod), (3, .sum), (4, .leaf (.uniform 1 0 1 .closed .closed)),
    (5, .leaf (.uniform 0 0 (1 / 2) .closed .closed)), (6, .leaf (.uniform 1 0 1 .closed .closed)),
    (7, .leaf (.uniform 0 0 1 .closed .closed)), (8, .leaf (.uniform 0 2 3 .closed .closed))] := rfl

theorem nest2_out : nest2.outEdges 0 = [⟨0, 1, Ex.lw (1 / 2)⟩, ⟨0, 2, Ex.lw (1 / 2)⟩] ∧ nest2.outEdges 1 = [⟨1, 3, none⟩, ⟨1, 4, none⟩] ∧
    nest2.outEdges 2 = [⟨2, 5, none⟩, ⟨2, 6, none⟩] ∧ nest2.outEdges 3 = [⟨3, 7, Ex.lw (1 / 2)⟩, ⟨3, 8, Ex.lw (1 / 2)⟩] :=
  ⟨rfl, rfl, rfl, rfl⟩

theorem nest2_succ : nest2.succ 0 = [1, 2] ∧ nest2.succ 1 = [3, 4] ∧ nest2.succ 2 = [5, 6] ∧ nest2.succ 3 = [7, 8] := ⟨rfl, rfl, rfl, rfl⟩

theorem nest2_model : EvidenceModel nest2 0 nest2Scope fun _ => realLine where
  layered := ⟨⟨by decide, by simp [nest2], by simp [nest2, ids], by simp [nest2, ids]⟩,
    ⟨fun n => if n = 0 then 0 else if n ≤ 2 then 1 else if n ≤ 6 then 2 else 3, by simp [nest2]⟩,
    Ex.leafTerminal_of (by simp [nest2, succ, outEdges]),
    Ex.weighted_of (by simp [nest2, outEdges, Ex.lw]), by simp [root, nest2, ids, inDegree, inEdges]⟩
  smooth := by
    obtain ⟨h0, h1, h2, h3⟩ := nest2_succ
    refine Ex.scoped_of ?_ ?_ ?_ <;> simp [nest2_nodes, h0, h1, h2, h3, nest2Scope, Leaf.var]
  decomposable := by
    obtain ⟨h0, h1, h2, h3⟩ := nest2_succ
    refine Ex.decomposable_of ?_
    simp [nest2_nodes, h1, h2, nest2Scope]
  valid := nest2_leaf (by norm_num [Leaf.Valid]) (by norm_num [Leaf.Valid]) (by norm_num [Leaf.Valid]) (by norm_num [Leaf.Valid])
  positive := Ex.positive_of (by simp [nest2, outEdges, Ex.lw])
  normalized := Ex.normalized_of (by
    obtain ⟨h0, h1, h2, h3⟩ := nest2_out
    simp (disch := norm_num) [nest2_nodes, h0, h3, Ex.linWeight_lw, -one_div])
  leaves := nest2_leaf trivial trivial trivial trivial
  tree := by simp [TreeShaped, nest2]
  domain := ⟨fun _ => realLine_disjoint, nest2_leaf (by simp [Fits, realLine]) (by simp [Fits, realLine]) (by simp [Fits, realLine])
    (by simp [Fits, realLine]), fun n d h => by simp [realLine_toSet]⟩
  noDirac := nest2_leaf (by simp) (by simp) (by simp) (by simp)
  line := fun _ _ _ _ => ⟨_, _, rfl⟩

theorem nest2_evidenceFor (v : Var) {V : Finset Var} (hv : v ∈ V) {a b : ℝ} (h : a < b) : EvidenceFor nest2 V (within v a b) where
  event := ⟨by simp [SimpleEvent.keys], by simpa [SimpleEvent.keys] using hv, by
    simp [VSet.Disjoint, SimpleInterval.IsEmpty, h.le, h.ne], by
    intro p hp n d hk _
    simp only [List.mem_singleton] at hp
    subst hp
    exact nest2_leaf (Q := fun d => Fits d _) (by simp [Fits]) (by simp [Fits]) (by simp [Fits]) (by simp [Fits]) n d hk⟩
  opens := by
    intro p hp _ _ _ _ _
    simp only [List.mem_singleton] at hp
    subst hp
    exact ⟨_, _, rfl⟩

theorem nest2_copy : nest2.copy = nest2 := by
  simp [nest2, copy, copyAt, edgeView, ids, outEdges, Ex.lw]

theorem nest2_marginal : nest2.copy.marginalInPlace {0} = .ok (some nest2Flat) := by
  rw [nest2_copy, marginal_eq nest2_model.layered nest2_model.smooth, if_pos (keeps_iff_not_disjoint.2 (by simp [nest2Scope]))]
  generalize hg' : nest2.induced (keeps nest2Scope {0}) = g'
  have hg : g' = ⟨[(0, .sum), (1, .prod), (2, .prod), (3, .sum), (5, .leaf (.uniform 0 0 (1 / 2) .closed .closed)),
      (7, .leaf (.uniform 0 0 1 .closed .closed)), (8, .leaf (.uniform 0 2 3 .closed .closed))],
      [⟨0, 1, Ex.lw (1 / 2)⟩, ⟨0, 2, Ex.lw (1 / 2)⟩, ⟨1, 3, none⟩, ⟨2, 5, none⟩,
        ⟨3, 7, Ex.lw (1 / 2)⟩, ⟨3, 8, Ex.lw (1 / 2)⟩]⟩ := by subst hg'; rfl
  have h0 : g'.root = .ok 0 := by subst hg; rfl
  have h1 : g'.bottomUp 0 = [7, 8, 3, 5, 1, 2, 0] := by subst hg; rfl
  simp only [simplify, h0, h1]
  subst hg
  rfl

theorem nest2_sums {Q : Node → Prop} (h0 : Q 0) (h3 : Q 3) : ∀ n, nest2.kind? n = some .sum → Q n := fun n h =>
  Ex.forall_kind (P := fun n k => k = Kind.sum → Q n) (by simp [nest2, h0, h3]) n _ h rfl

theorem nest2_prods {Q : Node → Prop} (h1 : Q 1) (h2 : Q 2) : ∀ n, nest2.kind? n = some .prod → Q n := fun n h =>
  Ex.forall_kind (P := fun n k => k = Kind.prod → Q n) (by simp [nest2, h1, h2]) n _ h rfl

theorem nest2_leaves {Q : Node → Leaf → Prop} (h4 : Q 4 (.uniform 1 0 1 .closed .closed)) (h5 : Q 5 (.uniform 0 0 (1 / 2) .closed .closed))
    (h6 : Q 6 (.uniform 1 0 1 .closed .closed)) (h7 : Q 7 (.uniform 0 0 1 .closed .closed)) (h8 : Q 8 (.uniform 0 2 3 .closed .closed)) :
    ∀ n d, nest2.kind? n = some (.leaf d) → Q n d := fun n d h =>
  Ex.forall_kind (P := fun n k => ∀ d, k = .leaf d → Q n d) (by
    simp only [nest2, List.mem_cons, List.not_mem_nil, or_false, forall_eq_or_imp, forall_eq, Kind.leaf.injEq, reduceCtorEq,
      false_implies, implies_true, true_and, forall_eq']
    exact ⟨h4, h5, h6, h7, h8⟩) n _ h d rfl

theorem uniform_real_univ {lo hi : ℝ} (h : lo < hi) (v : Var) : (leafLaw (.uniform v lo hi .closed .closed)).real Set.univ = 1 := by
  have : IsProbabilityMeasure (leafLaw (.uniform v lo hi .closed .closed)) := ⟨leafLaw_univ (by simpa [Leaf.Valid] using h) trivial⟩
  exact probReal_univ

/-- The probabilities of `x₀ ∈ (-1, 1)` below the units of `nest2`. -/
noncomputable def nest2P (n : Node) : ℝ := if n = 0 then 3 / 4 else if n = 1 then 1 / 2 else if n = 3 then 1 / 2 else if n = 8 then 0 else 1

theorem nest2_value : CircuitValue nest2 (fun d => (leafLaw d).real (allowed (within 0 (-1) 1) d.var)) nest2P := by
  obtain ⟨o0, o1, o2, o3⟩ := nest2_out
  refine ⟨nest2_leaves ?_ ?_ ?_ ?_ ?_, nest2_sums ?_ ?_, nest2_prods ?_ ?_⟩
  · simp [allowed_within, Leaf.var, nest2P, uniform_real_univ]
  · simp only [allowed_within, Leaf.var, if_true]; rw [uniform_open 0 (by norm_num)]; norm_num [nest2P]
  · simp [allowed_within, Leaf.var, nest2P, uniform_real_univ]
  · simp only [allowed_within, Leaf.var, if_true]; rw [uniform_open 0 (by norm_num)]; norm_num [nest2P]
  · simp only [allowed_within, Leaf.var, if_true]; rw [uniform_open 0 (by norm_num)]; norm_num [nest2P]
  · simp (disch := norm_num) only [o0, List.map_cons, List.map_nil, List.sum_cons, List.sum_nil, Ex.linWeight_lw]
    norm_num [nest2P]
  · simp (disch := norm_num) only [o3, List.map_cons, List.map_nil, List.sum_cons, List.sum_nil, Ex.linWeight_lw]
    norm_num [nest2P]
  · simp only [o1, List.map_cons, List.map_nil, List.prod_cons, List.prod_nil]
    norm_num [nest2P]
  · simp only [o2, List.map_cons, List.map_nil, List.prod_cons, List.prod_nil]
    norm_num [nest2P]

theorem nest2_possible : possibleEdges nest2 nest2P 0 = [⟨0, 1, Ex.lw (1 / 2)⟩, ⟨0, 2, Ex.lw (1 / 2)⟩] ∧
    possibleEdges nest2 nest2P 3 = [⟨3, 7, Ex.lw (1 / 2)⟩] := by
  obtain ⟨o0, o1, o2, o3⟩ := nest2_out
  simp [possibleEdges, o0, o3, nest2P]

/-- Evidence first: the weights of the outer mixture stay `½` and `½`. -/
theorem nest2_first : ∃ g₁, history (fun _ => realLine) nest2 [.given (within 0 (-1) 1), .onto {0}] = .ok (some g₁) ∧
    ∀ m, (g₁.probability m (fun _ => realLine) [within 0 0 (1 / 2)]).2 = .ok (3 / 4) := by
  have hM := nest2_model
  have hE : EvidenceFor nest2 (nest2Scope 0) (within 0 (-1) 1) := nest2_evidenceFor 0 (by simp [nest2Scope]) (by norm_num)
  have hF : EvidenceFor nest2 (nest2Scope 0) (within 0 0 (1 / 2)) := nest2_evidenceFor 0 (by simp [nest2Scope]) (by norm_num)
  have hF' : EvidenceFor nest2 {0} (within 0 0 (1 / 2)) := nest2_evidenceFor 0 (by simp) (by norm_num)
  obtain ⟨q0, q3⟩ := nest2_possible
  have hT : RemainingWeight nest2 nest2P fun _ => 1 := by
    refine ⟨fun _ _ _ => rfl, fun _ _ _ => rfl, nest2_sums (fun _ => ?_) (fun h => absurd (by rw [q3]; rfl) h), fun _ _ _ => rfl⟩
    rw [q0]
    simp (disch := norm_num) only [List.map_cons, List.map_nil, List.sum_cons, List.sum_nil, Ex.linWeight_lw]
    norm_num
  obtain ⟨g', r', k1, _, _, _, _, _, k2⟩ := C88_pruned hM.layered hM.smooth hM.decomposable hM.valid hM.positive hM.tree hM.domain hE.event
    (hM.proper hE) (hM.one hE) nest2_value hT (by norm_num [nest2P])
  have hp := probability_eq hM.layered hM.smooth hM.valid hM.domain (Es := [within 0 (-1) 1]) (by simpa using hE.event)
    (p := fun _ => nest2P) (by simpa using nest2_value) freshMem
  simp only [List.map_cons, List.map_nil, List.sum_cons, List.sum_nil, add_zero] at hp
  obtain ⟨g'', r'', s1, hM', s3, s4, s5, _, _⟩ := evidence_step hM hE hp (by norm_num [nest2P])
  rw [k1] at s1
  obtain rfl := Option.some.inj (congrArg Prod.fst (Except.ok.inj s1))
  have hC : PrunedValue nest2 nest2P (fun _ => 1) (fun d => (leafLaw d).real (allowed (within 0 (-1) 1) d.var ∩ allowed (within 0 0 (1 / 2)) d.var) /
      (leafLaw d).real (allowed (within 0 (-1) 1) d.var))
      (fun n => if n = 0 then 3 / 4 else if n = 1 then 1 / 2 else if n = 3 then 1 / 2 else if n = 7 then 1 / 2 else if n = 8 then 0 else 1) := by
    obtain ⟨o0, o1, o2, o3⟩ := nest2_out
    refine ⟨nest2_leaves ?_ ?_ ?_ ?_ ?_, nest2_sums ?_ ?_, nest2_prods ?_ ?_⟩
    · simp [allowed_within, Leaf.var, uniform_real_univ]
    · simp only [allowed_within, Leaf.var, if_true]
      rw [Set.Ioo_inter_Ioo, uniform_open 0 (by norm_num), uniform_open 0 (by norm_num)]; norm_num
    · simp [allowed_within, Leaf.var, uniform_real_univ]
    · simp only [allowed_within, Leaf.var, if_true]
      rw [Set.Ioo_inter_Ioo, uniform_open 0 (by norm_num), uniform_open 0 (by norm_num)]; norm_num
    · simp only [allowed_within, Leaf.var, if_true]
      rw [Set.Ioo_inter_Ioo, uniform_open 0 (by norm_num), uniform_open 0 (by norm_num)]; norm_num
    · rw [q0]
      simp (disch := norm_num) only [List.map_cons, List.map_nil, List.sum_cons, List.sum_nil, Ex.linWeight_lw]
      norm_num
    · rw [q3]
      simp (disch := norm_num) only [List.map_cons, List.map_nil, List.sum_cons, List.sum_nil, Ex.linWeight_lw]
      norm_num
    · simp only [o1, List.map_cons, List.map_nil, List.prod_cons, List.prod_nil]
      norm_num
    · simp only [o2, List.map_cons, List.map_nil, List.prod_cons, List.prod_nil]
      norm_num
  have hpr := k2 [within 0 0 (1 / 2)] (by simpa using hF.event) (fun _ => _) (by simpa using hC)
  have hr : nest2Scope r'' = nest2Scope 0 := s3
  have hne : (nest2Scope r'').Nonempty := by rw [hr]; exact ⟨0, by simp [nest2Scope]⟩
  obtain ⟨g₁, g₂, j1, j2, _, _, _⟩ := C108_marginals hM' (V := {0}) (W := {0}) hne (by rw [hr]; exact ⟨0, by simp [nest2Scope]⟩)
  rw [Finset.inter_self] at j2
  refine ⟨g₂, ?_, fun m => ?_⟩
  · rw [history, Op.apply, k1]
    exact j2
  · have := C106_exact hM' hne (ops := [.onto {0}]) rfl j2 [within 0 0 (1 / 2)] (by
      intro F hm
      simp only [List.mem_singleton] at hm
      subst hm
      refine EventFor.widen ?_ (s5 _ hF.event |> fun h => (⟨h.nodup, by simp [SimpleEvent.keys], h.disjoint, h.fits⟩ : EventFor g' {0} _))
      show _ ⊆ nest2Scope r'' ∩ {0}
      rw [hr]
      simp [nest2Scope]) m freshMem
    rw [this, hpr]
    norm_num

theorem nest2Flat_model : EvidenceModel nest2Flat 0 (fun n => nest2Scope n ∩ {0}) fun _ => realLine := by
  obtain ⟨g', r', h1, _, h3⟩ := sameLaw_marginal nest2_model (W := {0}) (by simp [nest2Scope])
  have h := nest2_marginal
  rw [nest2_copy, h1] at h
  obtain rfl := Option.some.inj (Except.ok.inj h)
  obtain rfl : r' = 0 := (Except.ok.inj (show (.ok 0 : Except PyErr Node) = .ok r' from h3.model.layered.root)).symm
  exact h3.model

theorem nest2Flat_evidenceFor {a b : ℝ} (h : a < b) : EvidenceFor nest2Flat (nest2Scope 0 ∩ {0}) (within 0 a b) where
  event := ⟨by simp [SimpleEvent.keys], by simp [SimpleEvent.keys, nest2Scope], by
    simp [VSet.Disjoint, SimpleInterval.IsEmpty, h.le, h.ne], by
    intro p hp n d hk _
    simp only [List.mem_singleton] at hp
    subst hp
    exact Ex.forall_kind (P := fun n k => ∀ d, k = .leaf d → Fits d _) (by simp [nest2Flat, Fits]) n _ hk d rfl⟩
  opens := by
    intro p hp _ _ _ _ _
    simp only [List.mem_singleton] at hp
    subst hp
    exact ⟨_, _, rfl⟩

/-- `marginal` first: the weights of the flattened mixture are `½`, `¼` and `¼`. -/
theorem nest2_second : ∃ g₂, history (fun _ => realLine) nest2 [.onto {0}, .given (within 0 (-1) 1)] = .ok (some g₂) ∧
    ∀ m, (g₂.probability m (fun _ => realLine) [within 0 0 (1 / 2)]).2 = .ok (5 / 6) := by
  have hM := nest2Flat_model
  have hE : EvidenceFor nest2Flat (nest2Scope 0 ∩ {0}) (within 0 (-1) 1) := nest2Flat_evidenceFor (by norm_num)
  have hF : EvidenceFor nest2Flat (nest2Scope 0 ∩ {0}) (within 0 0 (1 / 2)) := nest2Flat_evidenceFor (by norm_num)
  have hout : nest2Flat.outEdges 0 = [⟨0, 5, Ex.lw (1 / 2)⟩, ⟨0, 7, quarter⟩, ⟨0, 8, quarter⟩] := rfl
  have hsum : ∀ {Q : Node → Prop}, Q 0 → ∀ n, nest2Flat.kind? n = some .sum → Q n := fun {Q} h0 n h =>
    Ex.forall_kind (P := fun n k => k = Kind.sum → Q n) (by simp [nest2Flat, h0]) n _ h rfl
  have hnp : ∀ n, nest2Flat.kind? n ≠ some .prod := fun n h =>
    Ex.forall_kind (g := nest2Flat) (P := fun n k => k ≠ .prod) (by simp [nest2Flat]) n _ h rfl
  have hlf : ∀ {Q : Node → Leaf → Prop}, Q 5 (.uniform 0 0 (1 / 2) .closed .closed) → Q 7 (.uniform 0 0 1 .closed .closed) →
      Q 8 (.uniform 0 2 3 .closed .closed) → ∀ n d, nest2Flat.kind? n = some (.leaf d) → Q n d := fun {Q} h5 h7 h8 n d h =>
    Ex.forall_kind (P := fun n k => ∀ d, k = .leaf d → Q n d) (by
      simp only [nest2Flat, List.mem_cons, List.not_mem_nil, or_false, forall_eq_or_imp, forall_eq, Kind.leaf.injEq, reduceCtorEq,
        false_implies, implies_true, true_and, forall_eq']
      exact ⟨h5, h7, h8⟩) n _ h d rfl
  have hP : CircuitValue nest2Flat (fun d => (leafLaw d).real (allowed (within 0 (-1) 1) d.var))
      (fun n => if n = 0 then 3 / 4 else if n = 8 then 0 else 1) := by
    refine ⟨hlf ?_ ?_ ?_, hsum ?_, fun n hk => absurd hk (hnp n)⟩
    · simp only [allowed_within, Leaf.var, if_true]; rw [uniform_open 0 (by norm_num)]; norm_num
    · simp only [allowed_within, Leaf.var, if_true]; rw [uniform_open 0 (by norm_num)]; norm_num
    · simp only [allowed_within, Leaf.var, if_true]; rw [uniform_open 0 (by norm_num)]; norm_num
    · rw [hout]
      simp (disch := norm_num) only [List.map_cons, List.map_nil, linWeight_quarter, List.sum_cons, List.sum_nil, Ex.linWeight_lw]
      norm_num
  have hposs : possibleEdges nest2Flat (fun n => if n = 0 then 3 / 4 else if n = 8 then 0 else 1) 0 =
      [⟨0, 5, Ex.lw (1 / 2)⟩, ⟨0, 7, quarter⟩] := by
    rw [possibleEdges, hout]
    simp
  have hT : RemainingWeight nest2Flat (fun n => if n = 0 then 3 / 4 else if n = 8 then 0 else 1) fun n => if n = 0 then 3 / 4 else 1 := by
    refine ⟨hlf (by simp) (by simp) (by simp), fun n e he => ?_, hsum fun _ => ?_, fun n hk => absurd hk (hnp n)⟩
    · by_cases h0 : n = 0
      · subst h0
        rw [hposs] at he
        simp at he
      · exfalso
        have hmem : e ∈ nest2Flat.outEdges n := (List.mem_filter.1 (he ▸ List.mem_singleton_self e)).1
        obtain ⟨h1, h2⟩ := mem_outEdges.1 hmem
        simp only [nest2Flat, List.mem_cons, List.not_mem_nil, or_false] at h1
        rcases h1 with rfl | rfl | rfl <;> exact h0 h2.symm
    · rw [hposs]
      simp (disch := norm_num) only [List.map_cons, List.map_nil, linWeight_quarter, List.sum_cons, List.sum_nil, Ex.linWeight_lw]
      norm_num
  obtain ⟨g₂, r₂, k1, _, _, _, _, _, k2⟩ := C88_pruned hM.layered hM.smooth hM.decomposable hM.valid hM.positive hM.tree hM.domain hE.event
    (hM.proper hE) (hM.one hE) hP hT (by norm_num)
  refine ⟨g₂, ?_, fun m => ?_⟩
  · rw [history, Op.apply, nest2_marginal]
    simp only [history, Op.apply, k1, Except.map]
  · have hC : PrunedValue nest2Flat (fun n => if n = 0 then 3 / 4 else if n = 8 then 0 else 1) (fun n => if n = 0 then 3 / 4 else 1)
        (fun d => (leafLaw d).real (allowed (within 0 (-1) 1) d.var ∩ allowed (within 0 0 (1 / 2)) d.var) /
          (leafLaw d).real (allowed (within 0 (-1) 1) d.var))
        (fun n => if n = 0 then 5 / 6 else if n = 5 then 1 else if n = 7 then 1 / 2 else 0) := by
      refine ⟨hlf ?_ ?_ ?_, hsum ?_, fun n hk => absurd hk (hnp n)⟩
      · simp only [allowed_within, Leaf.var, if_true]
        rw [Set.Ioo_inter_Ioo, uniform_open 0 (by norm_num), uniform_open 0 (by norm_num)]; norm_num
      · simp only [allowed_within, Leaf.var, if_true]
        rw [Set.Ioo_inter_Ioo, uniform_open 0 (by norm_num), uniform_open 0 (by norm_num)]; norm_num
      · simp only [allowed_within, Leaf.var, if_true]
        rw [Set.Ioo_inter_Ioo, uniform_open 0 (by norm_num), uniform_open 0 (by norm_num)]; norm_num
      · rw [hposs]
        simp (disch := norm_num) only [List.map_cons, List.map_nil, linWeight_quarter, List.sum_cons, List.sum_nil, Ex.linWeight_lw]
        norm_num
    rw [k2 [within 0 0 (1 / 2)] (by simpa using hF.event) (fun _ => _) (by simpa using hC)]
    norm_num

/-- The full property is false: `¾` in one order, `5/6` in the other. -/
theorem C108_full_false : ¬ C108_full := by
  intro h
  obtain ⟨g₁, h1, p1⟩ := nest2_first
  obtain ⟨g₂, h2, p2⟩ := nest2_second
  have := h nest2 0 _ _ (within 0 (-1) 1) {0} g₁ g₂ nest2_model (nest2_evidenceFor 0 (by simp [nest2Scope]) (by norm_num)) h1 h2 (within 0 0 (1 / 2))
    (nest2_evidenceFor 0 (by simp [nest2Scope]) (by norm_num)).event freshMem freshMem
  rw [p1, p2] at this
  have := Except.ok.inj this
  norm_num at this

/-- On `nest2` neither order ends with `None`, and `marginal` can be called twice. -/
example : (∃ g₁ g₂, history (fun _ => realLine) nest2 [.given (within 0 (-1) 1), .onto {0}] = .ok (some g₁) ∧
      history (fun _ => realLine) nest2 [.onto {0}, .given (within 0 (-1) 1)] = .ok (some g₂) ∧ g₁.circuitVars = g₂.circuitVars) ∧
    ∃ g₁ g₂, history (fun _ => realLine) nest2 [.onto {0, 1}, .onto {0, 2}] = .ok (some g₁) ∧
      history (fun _ => realLine) nest2 [.onto ({0, 1} ∩ {0, 2})] = .ok (some g₂) ∧ g₁.circuitVars = g₂.circuitVars := by
  have hne : (nest2Scope 0).Nonempty := ⟨0, by simp [nest2Scope]⟩
  obtain ⟨g₁, h1, _⟩ := nest2_first
  obtain ⟨g₂, h2, _⟩ := nest2_second
  obtain ⟨res, res', k1, k2, _, k4⟩ := C108_order_partial nest2_model (W := {0}) (E := within 0 (-1) 1) hne
    (nest2_evidenceFor 0 (by simp [nest2Scope]) (by norm_num))
  rw [h1] at k1
  rw [h2] at k2
  refine ⟨⟨g₁, g₂, h1, h2, (k4 g₁ g₂ (Except.ok.inj k1).symm (Except.ok.inj k2).symm).1⟩, ?_⟩
  obtain ⟨g₃, g₄, m1, m2, m3, m4, _⟩ := C108_marginals nest2_model (V := {0, 1}) (W := {0, 2}) hne ⟨0, by simp [nest2Scope]⟩
  exact ⟨g₃, g₄, m1, m2, m3.trans m4.symm⟩

end PM.Props
