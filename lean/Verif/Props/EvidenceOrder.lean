import Verif.Props.Evidence

/-!
# C105: the order of the evidence, and evidence that is certain
-/

namespace PM.Props

open Spec Graph MeasureTheory

variable {g : Circuit} {r : Node} {sc : Node → Finset Var} {dom : Var → VSet} {E : SimpleEvent}

theorem sum_weights_le {l : List Edge} {P : Node → ℝ} (hP : ∀ e ∈ l, P e.dst ≤ 1) :
    (l.map fun e => linWeight e * P e.dst).sum ≤ (l.map linWeight).sum :=
  List.sum_le_sum fun e he => by
    have := mul_le_mul_of_nonneg_left (hP e he) (linWeight_nonneg e)
    rwa [mul_one] at this

theorem prod_le_one {l : List Edge} {P : Node → ℝ} (h0 : ∀ e ∈ l, 0 ≤ P e.dst) (h1 : ∀ e ∈ l, P e.dst ≤ 1) :
    (l.map fun e => P e.dst).prod ≤ 1 ∧ ((l.map fun e => P e.dst).prod = 1 → ∀ e ∈ l, P e.dst = 1) := by
  induction l with
  | nil => simp
  | cons a l ih =>
    obtain ⟨i1, i2⟩ := ih (fun e he => h0 e (by simp [he])) fun e he => h1 e (by simp [he])
    have a0 := h0 a (by simp)
    have a1 := h1 a (by simp)
    have hp : 0 ≤ (l.map fun e => P e.dst).prod := List.prod_nonneg (by
      intro x hx
      obtain ⟨e, he, rfl⟩ := List.mem_map.1 hx
      exact h0 e (by simp [he]))
    rw [List.map_cons, List.prod_cons]
    refine ⟨by nlinarith, fun h => ?_⟩
    have ha : P a.dst = 1 := by nlinarith
    rw [ha, one_mul] at h
    intro e he
    rcases List.mem_cons.1 he with rfl | he
    · exact ha
    · exact i2 h e he

theorem sum_weights_eq {l : List Edge} {P : Node → ℝ} (hw : ∀ e ∈ l, 0 < linWeight e) (hP : ∀ e ∈ l, P e.dst ≤ 1)
    (h : (l.map fun e => linWeight e * P e.dst).sum = (l.map linWeight).sum) : ∀ e ∈ l, P e.dst = 1 := by
  induction l with
  | nil => simp
  | cons a l ih =>
    have hl := sum_weights_le (l := l) (P := P) fun e he => hP e (by simp [he])
    have wa := hw a (by simp)
    have pa := hP a (by simp)
    simp only [List.map_cons, List.sum_cons] at h
    have ha : P a.dst = 1 := by nlinarith
    rw [ha, mul_one] at h
    intro e he
    rcases List.mem_cons.1 he with rfl | he
    · exact ha
    · exact ih (fun e he => hw e (by simp [he])) (fun e he => hP e (by simp [he])) (by linarith) e he

/-- If the root is certain, every unit is. -/
theorem certain_units (hM : EvidenceModel g r sc dom) {P : Node → ℝ}
    (hP : CircuitValue g (fun d => (leafLaw d).real (allowed E d.var)) P) (h1 : P r = 1) : ∀ n ∈ g.ids, P n = 1 := by
  have hnn := circuitValue_nonneg hM.layered.wf hM.layered.graded.acyclic hP fun _ _ _ => measureReal_nonneg
  have hch : ∀ n, ∀ e ∈ g.outEdges n, e.dst ∈ g.ids := fun n e he => succ_mem_ids hM.layered.wf (dst_mem_succ he)
  have hle : ∀ n, n ∈ g.ids → P n ≤ 1 := by
    refine hM.layered.graded.acyclic.induct ?_
    intro n ih hn
    obtain ⟨k, hk⟩ := exists_kind? hn
    have ih' : ∀ e ∈ g.outEdges n, P e.dst ≤ 1 := fun e he => ih _ (dst_mem_succ he) (hch n e he)
    cases k with
    | leaf d =>
      have : IsProbabilityMeasure (leafLaw d) := ⟨leafLaw_univ (hM.valid n d hk) (hM.leaves n d hk)⟩
      rw [hP.leaf n d hk]
      exact measureReal_le_one
    | sum =>
      rw [hP.sum n hk]
      exact (sum_weights_le ih').trans (hM.normalized n hk).le
    | prod =>
      rw [hP.prod n hk]
      exact (prod_le_one (fun e he => hnn _ (hch n e he)) ih').1
  intro n hn
  have hreach := reachable_of_root hM.layered.wf hM.layered.graded.acyclic hM.layered.root n hn
  clear hn
  induction hreach with
  | refl => exact h1
  | @tail b c hr hc ih =>
    obtain ⟨e, he, hs, rfl⟩ := mem_succ.1 hc
    have he' : e ∈ g.outEdges b := mem_outEdges.2 ⟨he, hs⟩
    have hb : b ∈ g.ids := by
      rw [← hs]
      exact hM.layered.wf.srcMem e he
    obtain ⟨k, hk⟩ := exists_kind? hb
    cases k with
    | leaf d => exact absurd (dst_mem_succ he') (by simp [hM.layered.leaves b d hk])
    | sum =>
      rw [hP.sum b hk, ← hM.normalized b hk] at ih
      exact sum_weights_eq (fun e h => by
        obtain ⟨x, hx⟩ := hM.positive b hk e h
        simp [linWeight, hx, LogP.exp, Real.exp_pos]) (fun e h => hle _ (hch b e h)) ih e he'
    | prod =>
      rw [hP.prod b hk] at ih
      exact (prod_le_one (fun e h => hnn _ (hch b e h)) fun e h => hle _ (hch b e h)).2 ih e he'

/-- **C105**, certain evidence: an observation that has probability one already changes no probability. -/
theorem C105_certain (hM : EvidenceModel g r sc dom) (hE : EvidenceFor g (sc r) E) {m₀ : Mem ℝ}
    (hpE : (g.probability m₀ dom [E]).2 = .ok 1) :
    ∃ g' r', g.conditional dom [E] = .ok (some g', 1) ∧ EvidenceModel g' r' sc dom ∧ sc r' = sc r ∧
      (∀ F, EvidenceFor g (sc r) F → EvidenceFor g' (sc r') F) ∧ (∀ F, EventFor g (sc r) F → EventFor g' (sc r') F) ∧
      (∀ F, LeavesIn g F → LeavesIn g' F) ∧
      ∀ Fs : Event, (∀ F ∈ Fs, EventFor g (sc r) F) → ∀ m m', (g'.probability m dom Fs).2 = (g.probability m' dom Fs).2 := by
  obtain ⟨g', r', s1, s2, s3, s4, s5, _, s6, _⟩ := evidence_step hM hE hpE one_pos
  refine ⟨g', r', s1, s2, s3, s4, s5, s6, fun Fs hFs m m' => ?_⟩
  obtain ⟨P, hP⟩ := exists_probValue hM.layered E
  rw [probability_eq hM.layered hM.smooth hM.valid hM.domain (Es := [E]) (by simpa using hE.event) (p := fun _ => P) (by simpa using hP)] at hpE
  simp only [List.map_cons, List.map_nil, List.sum_cons, List.sum_nil, add_zero, Except.ok.injEq] at hpE
  have hone := certain_units hM hP hpE
  have hall : ∀ n, possibleEdges g P n = g.outEdges n := fun n => by
    unfold possibleEdges
    refine List.filter_eq_self.2 fun e he => ?_
    simp [hone _ (succ_mem_ids hM.layered.wf (dst_mem_succ he))]
  have hT : RemainingWeight g P fun _ => 1 :=
    ⟨fun _ _ _ => rfl, fun _ _ _ => rfl, fun n hk _ => by simp [hall, hM.normalized n hk], fun _ _ _ => rfl⟩
  have hprop : Proportional g P fun _ => 1 := fun n _ _ => ⟨1, fun e he => by
    rw [hall] at he
    simp [hone _ (succ_mem_ids hM.layered.wf (dst_mem_succ he))]⟩
  have hleaf : ∀ n d, g.kind? n = some (.leaf d) → ∀ F : SimpleEvent,
      (leafLaw d).real (allowed E d.var ∩ allowed F d.var) = (leafLaw d).real (allowed F d.var) := by
    intro n d hk F
    have : IsProbabilityMeasure (leafLaw d) := ⟨leafLaw_univ (hM.valid n d hk) (hM.leaves n d hk)⟩
    have h1 : (leafLaw d).real (allowed E d.var) = 1 := by rw [← hP.leaf n d hk, hone n (mem_ids_of_kind? hk)]
    have h0 : leafLaw d (allowed E d.var)ᶜ = 0 := by
      rw [prob_compl_eq_zero_iff (measurableSet_allowed E d.var)]
      rw [measureReal_def] at h1
      exact (ENNReal.toReal_eq_one_iff _).1 h1
    rw [measureReal_def, measureReal_def, Set.inter_comm, measure_inter_conull h0]
  obtain ⟨g'', r'', c1, _, _, _, _, _, c2⟩ := C88_pruned hM.layered hM.smooth hM.decomposable hM.valid hM.positive hM.tree hM.domain hE.event
    (hM.proper hE) (hM.one hE) hP hT (by rw [hpE]; exact one_pos)
  obtain rfl : g' = g'' := by
    rw [s1] at c1
    simpa using congrArg Prod.fst (Except.ok.inj c1)
  choose C hC using fun F => exists_probValue hM.layered F
  rw [c2 Fs hFs C fun F _ => ?_, probability_eq hM.layered hM.smooth hM.valid hM.domain hFs (p := C) fun F _ => hC F]
  have hf : CircuitValue g (fun d => (leafLaw d).real (allowed E d.var ∩ allowed F d.var)) (C F) :=
    ⟨fun n d hk => by rw [(hC F).leaf n d hk, hleaf n d hk], (hC F).sum, (hC F).prod⟩
  have hpv := prunedValue_of_null hM.layered hM.positive hP hprop hf (fun _ _ _ => measureReal_nonneg) fun n d hk h0 => by
    have hfin := finite_leafLaw (hM.valid n d hk)
    exact le_antisymm (h0 ▸ measureReal_mono Set.inter_subset_left) measureReal_nonneg
  have hq : ∀ n ∈ g.ids, C F n / P n = C F n := fun n hn => by rw [hone n hn, div_one]
  refine ⟨fun n d hk => ?_, fun n hk => ?_, fun n hk => ?_⟩
  · rw [← hpv.leaf n d hk, hq n (mem_ids_of_kind? hk)]
  · have := hpv.sum n hk
    rw [hq n (mem_ids_of_kind? hk)] at this
    rw [this, hall]
    congr 2
    refine List.map_congr_left fun e he => ?_
    rw [hq _ (succ_mem_ids hM.layered.wf (dst_mem_succ he))]
  · have := hpv.prod n hk
    rw [hq n (mem_ids_of_kind? hk)] at this
    rw [this]
    congr 1
    refine List.map_congr_left fun e he => ?_
    rw [hq _ (succ_mem_ids hM.layered.wf (dst_mem_succ he))]

theorem observe_append (Es Es' : List SimpleEvent) : ∀ (g : Circuit), observe dom g (Es ++ Es') = match observe dom g Es with
    | .error e => .error e
    | .ok none => .ok none
    | .ok (some g') => observe dom g' Es' := by
  induction Es with
  | nil => intro g; rfl
  | cons E Es ih =>
    intro g
    simp only [List.cons_append, observe]
    rcases g.conditional dom [E] with e | ⟨_ | g', p⟩
    · rfl
    · rfl
    · exact ih g'

/-- **C105**, repeated evidence: after the observations `Es`, entering any of them again, in any order and as often as one likes, gives
a model with the same probabilities. -/
theorem C105_repeated (hM : EvidenceModel g r sc dom) {Es Es' : List SimpleEvent} (hE : ∀ E ∈ Es, EvidenceFor g (sc r) E) {g' : Circuit}
    (hobs : observe dom g Es = .ok (some g')) (hsub : ∀ E ∈ Es', E ∈ Es) :
    ∃ g'', observe dom g (Es ++ Es') = .ok (some g'') ∧
      ∀ Fs : Event, (∀ F ∈ Fs, EventFor g (sc r) F) → ∀ m m', (g''.probability m dom Fs).2 = (g'.probability m' dom Fs).2 := by
  obtain ⟨res, h1, _, h3⟩ := observe_spec Es hM hE
  rw [hobs] at h1
  obtain ⟨r', j1, j2, j0, j3, _, j5, _⟩ := h3 g' (Except.ok.inj h1).symm
  rw [observe_append, hobs]
  have hev : ∀ E ∈ Es', EvidenceFor g' (sc r') E := fun E h => j0 E (hE E (hsub E h))
  have hin : ∀ E ∈ Es', LeavesIn g' E := fun E h => j5 E (hsub E h)
  suffices H : ∀ (Es' : List SimpleEvent) {g₁ : Circuit} {r₁ : Node}, EvidenceModel g₁ r₁ sc dom → (∀ E ∈ Es', EvidenceFor g₁ (sc r₁) E) →
      (∀ E ∈ Es', LeavesIn g₁ E) → ∃ g'', observe dom g₁ Es' = .ok (some g'') ∧
      ∀ Fs : Event, (∀ F ∈ Fs, EventFor g₁ (sc r₁) F) → ∀ m m', (g''.probability m dom Fs).2 = (g₁.probability m' dom Fs).2 by
    obtain ⟨g'', k1, k2⟩ := H Es' j1 hev hin
    exact ⟨g'', k1, fun Fs hFs m m' => k2 Fs (fun F hF => j3 F (hFs F hF)) m m'⟩
  intro Es'
  induction Es' with
  | nil =>
    intro g₁ r₁ hM₁ _ _
    refine ⟨g₁, rfl, fun Fs hFs m m' => ?_⟩
    choose C hC using fun F => exists_probValue hM₁.layered F
    rw [probability_eq hM₁.layered hM₁.smooth hM₁.valid hM₁.domain hFs (p := C) fun F _ => hC F,
      probability_eq hM₁.layered hM₁.smooth hM₁.valid hM₁.domain hFs (p := C) fun F _ => hC F]
  | cons E Es' ih =>
    intro g₁ r₁ hM₁ hev hin
    obtain ⟨g₂, r₂, s1, s2, s3, s4, s5, s6, s7⟩ := C105_certain hM₁ (hev E (by simp))
      (probability_one hM₁ (hev E (by simp)).event (hin E (by simp)) freshMem)
    obtain ⟨g'', k1, k2⟩ := ih s2 (fun F h => s4 F (hev F (by simp [h]))) fun F h => s6 F (hin F (by simp [h]))
    refine ⟨g'', ?_, fun Fs hFs m m' => ?_⟩
    · rw [observe, s1]
      exact k1
    · rw [k2 Fs (fun F hF => s5 F (hFs F hF)) m m', s7 Fs hFs m' m']

/-- After the same observations in another order, the same simple events are impossible. -/
theorem C105_order_partial (hM : EvidenceModel g r sc dom) {Es Es' : List SimpleEvent} (hE : ∀ E ∈ Es, EvidenceFor g (sc r) E)
    (hperm : Es.Perm Es') {g₁ : Circuit} (h₁ : observe dom g Es = .ok (some g₁)) : ∃ g₂, observe dom g Es' = .ok (some g₂) ∧
      ∀ F, EventFor g (sc r) F → ∀ m m', (g₁.probability m dom [F]).2 = .ok 0 ↔ (g₂.probability m' dom [F]).2 = .ok 0 := by
  have hE' : ∀ E ∈ Es', EvidenceFor g (sc r) E := fun E h => hE E (hperm.mem_iff.2 h)
  obtain ⟨res, a1, _, a3⟩ := C102_step_by_step hM hE
  obtain ⟨res', b1, _, b3⟩ := C102_step_by_step hM hE'
  rw [h₁] at a1
  obtain rfl := (Except.ok.inj a1)
  cases res' with
  | none =>
    rw [← C102_any_order hM hE hperm, h₁] at b1
    cases b1
  | some g₂ =>
    refine ⟨g₂, b1, fun F hF m m' => ?_⟩
    obtain ⟨q, p, k1, k2, k3⟩ := (a3 g₁ rfl).2 F hF m freshMem
    obtain ⟨q', p', l1, l2, l3⟩ := (b3 g₂ rfl).2 F hF m' freshMem
    rw [k1, l1]
    simp only [Except.ok.injEq]
    rw [k3, l3]
    have hall : ∀ v, allowed (together Es F) v = allowed (together Es' F) v := by
      have key : ∀ Es, (∀ E ∈ Es, EvidenceFor g (sc r) E) → ∀ v, allowed (together Es F) v = {t | (∀ E ∈ Es, t ∈ allowed E v) ∧ t ∈ allowed F v} := by
        intro Es
        induction Es with
        | nil => intro _ v; simp [together]
        | cons E Es ih =>
          intro hEs v
          have hT := eventFor_together hM hF Es fun E h => (hEs E (by simp [h])).event
          show allowed (E.inter (together Es F)) v = _
          rw [allowed_inter hT.nodup (compatible_of hM.layered hM.smooth (hEs E (by simp)).event hT), ih fun E h => hEs E (by simp [h])]
          ext t
          simp [and_assoc]
          exact fun h _ _ => h
      intro v
      rw [key Es hE, key Es' hE']
      ext t
      exact and_congr_left fun _ => ⟨fun h E hm => h E (hperm.mem_iff.2 hm), fun h E hm => h E (hperm.mem_iff.1 hm)⟩
    obtain ⟨P, hP⟩ := exists_probValue hM.layered (together Es F)
    have e1 := probability_eq hM.layered hM.smooth hM.valid hM.domain (Es := [together Es F])
      (by simpa using eventFor_together hM hF Es fun E h => (hE E h).event) (p := fun _ => P) (by simpa using hP) freshMem
    have e2 := probability_eq hM.layered hM.smooth hM.valid hM.domain (Es := [together Es' F])
      (by simpa using eventFor_together hM hF Es' fun E h => (hE' E h).event) (p := fun _ => P) (by simpa [hall] using hP) freshMem
    rw [k2] at e1
    rw [l2] at e2
    rw [Except.ok.inj e1, Except.ok.inj e2]
    simp

/-! ### The order matters -/

/-- The full property: models that got the same observations in different orders have the same probabilities. -/
def C105_full : Prop := ∀ (g : Circuit) (r : Node) (sc : Node → Finset Var) (dom : Var → VSet) (Es Es' : List SimpleEvent) (g₁ g₂ : Circuit),
  EvidenceModel g r sc dom → (∀ E ∈ Es, EvidenceFor g (sc r) E) → Es.Perm Es' →
  observe dom g Es = .ok (some g₁) → observe dom g Es' = .ok (some g₂) →
  ∀ F, EventFor g (sc r) F → ∀ m m', (g₁.probability m dom [F]).2 = (g₂.probability m' dom [F]).2

/-- `½ (½ U[0,½] + ½ U[2,3]) + ½ U[½,1]`. -/
noncomputable def nest : Circuit where
  nodes := [(0, .sum), (1, .sum), (2, .leaf (.uniform 0 (1 / 2) 1 .closed .closed)), (3, .leaf (.uniform 0 0 (1 / 2) .closed .closed)),
    (4, .leaf (.uniform 0 2 3 .closed .closed))]
  edges := [⟨0, 1, Ex.lw (1 / 2)⟩, ⟨0, 2, Ex.lw (1 / 2)⟩, ⟨1, 3, Ex.lw (1 / 2)⟩, ⟨1, 4, Ex.lw (1 / 2)⟩]

theorem nest_layered : Layered nest 0 where
  wf := ⟨by decide, by simp [nest], by simp [nest, ids], by simp [nest, ids]⟩
  graded := ⟨fun n => if n = 0 then 0 else if n ≤ 2 then 1 else 2, by simp [nest]⟩
  leaves := Ex.leafTerminal_of (by simp [nest, succ, outEdges])
  weighted := Ex.weighted_of (by simp [nest, outEdges, Ex.lw])
  root := by simp [root, nest, ids, inDegree, inEdges]

theorem nest_leaf {Q : Leaf → Prop} (h1 : Q (.uniform 0 (1 / 2) 1 .closed .closed)) (h2 : Q (.uniform 0 0 (1 / 2) .closed .closed))
    (h3 : Q (.uniform 0 2 3 .closed .closed)) : ∀ n d, nest.kind? n = some (.leaf d) → Q d := fun n d h =>
  Ex.forall_kind (P := fun _ k => ∀ d, k = .leaf d → Q d) (by
    simp only [nest, List.mem_cons, List.not_mem_nil, or_false, forall_eq_or_imp, forall_eq, Kind.leaf.injEq, reduceCtorEq,
      false_implies, implies_true, true_and, forall_eq']
    exact ⟨h1, h2, h3⟩) n _ h d rfl

theorem nest_out (n : Node) (h : nest.kind? n = some .sum) : n = 0 ∧ nest.outEdges n = [⟨0, 1, Ex.lw (1 / 2)⟩, ⟨0, 2, Ex.lw (1 / 2)⟩] ∨
    n = 1 ∧ nest.outEdges n = [⟨1, 3, Ex.lw (1 / 2)⟩, ⟨1, 4, Ex.lw (1 / 2)⟩] :=
  Ex.forall_kind (P := fun n k => k = Kind.sum → n = 0 ∧ nest.outEdges n = [⟨0, 1, Ex.lw (1 / 2)⟩, ⟨0, 2, Ex.lw (1 / 2)⟩] ∨
    n = 1 ∧ nest.outEdges n = [⟨1, 3, Ex.lw (1 / 2)⟩, ⟨1, 4, Ex.lw (1 / 2)⟩]) (by
    simp only [nest, List.mem_cons, List.not_mem_nil, or_false, forall_eq_or_imp, forall_eq, reduceCtorEq, false_implies, and_true]
    exact ⟨fun _ => .inl ⟨trivial, rfl⟩, fun _ => .inr ⟨trivial, rfl⟩⟩) n _ h rfl

theorem nest_evidenceModel : EvidenceModel nest 0 (fun _ => {0}) fun _ => realLine where
  layered := nest_layered
  smooth := Ex.scoped_of (by simp [nest, Leaf.var]) (by simp [nest, succ, outEdges]) (by simp [nest])
  decomposable := Ex.decomposable_of (by simp [nest])
  valid := Ex.valid_of (by simp [nest, Leaf.Valid]; norm_num)
  positive := Ex.positive_of (by simp [nest, outEdges, Ex.lw])
  normalized := by
    intro n hk
    rcases nest_out n hk with ⟨_, h⟩ | ⟨_, h⟩ <;> rw [h] <;> simp (disch := norm_num) [Ex.linWeight_lw, -one_div]
  leaves := nest_leaf (by simp [Leaf.Normalized]) (by simp [Leaf.Normalized]) (by simp [Leaf.Normalized])
  tree := by simp [TreeShaped, nest]
  domain := ⟨fun _ => realLine_disjoint, nest_leaf (by simp [Fits, realLine]) (by simp [Fits, realLine]) (by simp [Fits, realLine]),
    fun _ _ _ => by simp [realLine_toSet]⟩
  noDirac := nest_leaf (by simp) (by simp) (by simp)
  line := fun _ _ _ _ => ⟨_, _, rfl⟩

theorem nest_evidenceFor {a b : ℝ} (h : a < b) : EvidenceFor nest {0} (between a b) where
  event := ⟨by simp [SimpleEvent.keys], by simp [SimpleEvent.keys], by
    simp [VSet.Disjoint, SimpleInterval.IsEmpty, h.le, h.ne], by
    intro p hp n d hk _
    simp only [List.mem_singleton] at hp
    subst hp
    exact nest_leaf (Q := fun d => Fits d _) (by simp [Fits]) (by simp [Fits]) (by simp [Fits]) n d hk⟩
  opens := by
    intro p hp _ _ _ _ _
    simp only [List.mem_singleton] at hp
    subst hp
    exact ⟨_, _, rfl⟩

theorem allowed_between (a b : ℝ) : allowed (between a b) 0 = Set.Ioo a b := by
  ext t
  simp [allowed, between, VSet.Mem, SimpleInterval.Mem, SimpleInterval.leftOK, SimpleInterval.rightOK]

theorem uniform_open (v : Var) {lo hi : ℝ} (h : lo < hi) (a b : ℝ) :
    (leafLaw (.uniform v lo hi .closed .closed)).real (Set.Ioo a b) = max (min b hi - max a lo) 0 / (hi - lo) := by
  rw [← uniform_real v h a b, uniform_law_eq v h, measureReal_def, measureReal_def, Measure.smul_apply, Measure.smul_apply]
  congr 2
  exact measure_congr (ae_restrict_of_ae Ioo_ae_eq_Icc)

/-- Values of the units of `nest` from those of its leaves. -/
noncomputable def nestValue (p₂ p₃ p₄ : ℝ) (n : Node) : ℝ :=
  if n = 0 then ((p₃ + p₄) / 2 + p₂) / 2 else if n = 1 then (p₃ + p₄) / 2 else if n = 2 then p₂ else if n = 3 then p₃ else p₄

theorem nest_value {ℓ : Leaf → ℝ} : CircuitValue nest ℓ (nestValue (ℓ (.uniform 0 (1 / 2) 1 .closed .closed))
    (ℓ (.uniform 0 0 (1 / 2) .closed .closed)) (ℓ (.uniform 0 2 3 .closed .closed))) := by
  refine Ex.value_of ?_ ?_ ?_
  · simp [nest, nestValue]
  · intro p hp hk
    have hk' : nest.kind? p.1 = some .sum := by
      simp only [nest, List.mem_cons, List.not_mem_nil, or_false] at hp
      rcases hp with rfl | rfl | rfl | rfl | rfl <;> simp_all <;> rfl
    rcases nest_out _ hk' with ⟨h0, h⟩ | ⟨h0, h⟩ <;> rw [h, h0] <;> simp (disch := norm_num) [Ex.linWeight_lw, -one_div, nestValue] <;> ring
  · simp [nest]

theorem nest_prob (a b : ℝ) : CircuitValue nest (fun d => (leafLaw d).real (allowed (between a b) d.var))
    (nestValue (max (min b 1 - max a (1 / 2)) 0 / (1 - 1 / 2)) (max (min b (1 / 2) - max a 0) 0 / (1 / 2 - 0))
      (max (min b 3 - max a 2) 0 / (3 - 2))) := by
  have := nest_value (ℓ := fun d => (leafLaw d).real (allowed (between a b) d.var))
  simpa only [Leaf.var, allowed_between, uniform_open 0 (show (1 / 2 : ℝ) < 1 by norm_num), uniform_open 0 (show (0 : ℝ) < 1 / 2 by norm_num),
    uniform_open 0 (show (2 : ℝ) < 3 by norm_num)] using this

/-- The observation `0 < x < 1`. -/
noncomputable abbrev obsA : SimpleEvent := between 0 1

/-- The observation `-1 < x < 9`, which is certain. -/
noncomputable abbrev obsB : SimpleEvent := between (-1) 9

theorem nest_obsA : CircuitValue nest (fun d => (leafLaw d).real (allowed obsA d.var)) (nestValue 1 1 0) := by
  have := nest_prob 0 1
  norm_num at this
  exact this

theorem nest_obsB : CircuitValue nest (fun d => (leafLaw d).real (allowed obsB d.var)) (nestValue 1 1 1) := by
  have := nest_prob (-1) 9
  norm_num at this
  exact this

/-- `0 < x < 1` first: the inner sum unit disappears, and `0 < x < ½` gets the probability ½. -/
theorem nest_first : ∃ g₁, observe (fun _ => realLine) nest [obsA, obsB] = .ok (some g₁) ∧
    ∀ m, (g₁.probability m (fun _ => realLine) [between 0 (1 / 2)]).2 = .ok (1 / 2) := by
  have hM := nest_evidenceModel
  have hA : EvidenceFor nest {0} obsA := nest_evidenceFor (by norm_num)
  have hB : EvidenceFor nest {0} obsB := nest_evidenceFor (by norm_num)
  have hF : EventFor nest {0} (between 0 (1 / 2)) := (nest_evidenceFor (by norm_num)).event
  have hr : nestValue 1 1 0 0 = 3 / 4 := by norm_num [nestValue]
  have hp := probability_eq hM.layered hM.smooth hM.valid hM.domain (Es := [obsA]) (by simpa using hA.event)
    (p := fun _ => nestValue 1 1 0) (by simpa using nest_obsA) freshMem
  simp only [List.map_cons, List.map_nil, List.sum_cons, List.sum_nil, add_zero, hr] at hp
  obtain ⟨g', r', s1, s2, s3, s4, s5, _, s6, _⟩ := evidence_step hM hA hp (by norm_num)
  have hposs : ∀ n, nest.kind? n = some .sum → possibleEdges nest (nestValue 1 1 0) n =
      if n = 0 then [⟨0, 1, Ex.lw (1 / 2)⟩, ⟨0, 2, Ex.lw (1 / 2)⟩] else [⟨1, 3, Ex.lw (1 / 2)⟩] := by
    intro n hk
    rcases nest_out n hk with ⟨rfl, h⟩ | ⟨rfl, h⟩ <;> rw [possibleEdges, h] <;> simp [nestValue]
  have hT : RemainingWeight nest (nestValue 1 1 0) fun _ => 1 := by
    refine ⟨fun _ _ _ => rfl, fun _ _ _ => rfl, fun n hk hl => ?_, fun _ _ _ => rfl⟩
    rw [hposs n hk] at hl ⊢
    split_ifs at hl ⊢
    · simp (disch := norm_num) [Ex.linWeight_lw, -one_div]
    · simp at hl
  obtain ⟨g'', r'', c1, _, _, _, _, _, c2⟩ := C88_pruned hM.layered hM.smooth hM.decomposable hM.valid hM.positive hM.tree hM.domain hA.event
    (hM.proper hA) (hM.one hA) nest_obsA hT (by rw [hr]; norm_num)
  obtain rfl : g' = g'' := by
    rw [s1] at c1
    simpa using congrArg Prod.fst (Except.ok.inj c1)
  have hprob : ∀ m, (g'.probability m (fun _ => realLine) [between 0 (1 / 2)]).2 = .ok (1 / 2) := by
    intro m
    rw [c2 [between 0 (1 / 2)] (by simpa using hF) (fun _ n => if n = 0 then 1 / 2 else if n = 2 ∨ n = 4 then 0 else 1) ?_ m]
    · norm_num
    · intro F hF'
      simp only [List.mem_singleton] at hF'
      subst hF'
      have e : ∀ lo hi : ℝ, lo < hi → (leafLaw (.uniform 0 lo hi .closed .closed)).real (allowed obsA 0 ∩ allowed (between 0 (1 / 2)) 0)
          / (leafLaw (.uniform 0 lo hi .closed .closed)).real (allowed obsA 0) =
          (max (min (1 / 2) hi - max 0 lo) 0 / (hi - lo)) / (max (min 1 hi - max 0 lo) 0 / (hi - lo)) := by
        intro lo hi h
        rw [allowed_between, allowed_between, Set.Ioo_inter_Ioo, uniform_open 0 h, uniform_open 0 h]
        norm_num
      refine ⟨fun n d hk => ?_, fun n hk => ?_, fun n hk => ?_⟩
      · refine Ex.forall_kind (P := fun n k => ∀ d, k = .leaf d → (if n = 0 then (1 / 2 : ℝ) else if n = 2 ∨ n = 4 then 0 else 1) =
          (leafLaw d).real (allowed obsA d.var ∩ allowed (between 0 (1 / 2)) d.var) / (leafLaw d).real (allowed obsA d.var)) ?_ n _ hk d rfl
        simp only [nest, List.mem_cons, List.not_mem_nil, or_false, forall_eq_or_imp, forall_eq, Kind.leaf.injEq, reduceCtorEq,
          false_implies, implies_true, true_and, forall_eq', Leaf.var]
        rw [e _ _ (by norm_num), e _ _ (by norm_num), e _ _ (by norm_num)]
        norm_num
      · rw [hposs n hk]
        rcases nest_out n hk with ⟨rfl, _⟩ | ⟨rfl, _⟩ <;> simp (disch := norm_num) [Ex.linWeight_lw, -one_div]
      · exfalso
        exact Ex.forall_kind (g := nest) (P := fun n k => k ≠ .prod) (by simp [nest]) n _ hk rfl
  have hin : LeavesIn nest obsB := by
    intro n d hk
    have : IsProbabilityMeasure (leafLaw d) := ⟨leafLaw_univ (hM.valid n d hk) (hM.leaves n d hk)⟩
    rw [prob_compl_eq_zero_iff (measurableSet_allowed _ _)]
    have hone : (leafLaw d).real (allowed obsB d.var) = 1 := by
      refine nest_leaf (Q := fun d => (leafLaw d).real (allowed obsB d.var) = 1) ?_ ?_ ?_ n d hk <;>
        simp only [Leaf.var, allowed_between] <;> rw [uniform_open 0 (by norm_num)] <;> norm_num
    rw [measureReal_def] at hone
    exact (ENNReal.toReal_eq_one_iff _).1 hone
  obtain ⟨g₁, r₁, k1, _, _, _, _, _, k2⟩ := C105_certain s2 (s4 obsB hB)
    (probability_one s2 (s4 obsB hB).event (s6 obsB hin) freshMem)
  refine ⟨g₁, ?_, fun m => ?_⟩
  · rw [observe, s1]
    simp only [observe, k1]
  · rw [k2 [between 0 (1 / 2)] (by simpa using s5 _ hF) m m, hprob m]

theorem nest_copy : nest.copy = nest := by
  simp [nest, copy, copyAt, edgeView, ids, outEdges, Ex.lw]

/-- The weight ¼ as the product of two weights ½. -/
noncomputable abbrev quarter : Option LogP := some (.fin (Real.log (1 / 2)) + .fin (Real.log (1 / 2)))

theorem linWeight_quarter (a b : Node) : linWeight ⟨a, b, quarter⟩ = 1 / 4 := by
  show (LogP.fin (Real.log (1 / 2)) + LogP.fin (Real.log (1 / 2))).exp = 1 / 4
  rw [LogP.exp_add]
  simp only [LogP.exp]
  rw [Real.exp_log (by norm_num)]
  norm_num

/-- `-1 < x < 9` first: the nested mixture is flattened. -/
theorem nest_flat : ∃ d₂ d₃ d₄ q₂ q₃ q₄ p, nest.conditional (fun _ => realLine) [obsB] = .ok (some
    ⟨[(0, .sum), (2, .leaf d₂), (3, .leaf d₃), (4, .leaf d₄)], [⟨0, 2, Ex.lw (1 / 2)⟩, ⟨0, 3, quarter⟩, ⟨0, 4, quarter⟩]⟩, p) ∧
    CondSpec (.uniform 0 (1 / 2) 1 .closed .closed) (Set.Ioo (-1) 9) (.one d₂ q₂) ∧
    CondSpec (.uniform 0 0 (1 / 2) .closed .closed) (Set.Ioo (-1) 9) (.one d₃ q₃) ∧
    CondSpec (.uniform 0 2 3 .closed .closed) (Set.Ioo (-1) 9) (.one d₄ q₄) := by
  have hM := nest_evidenceModel
  have hB : EvidenceFor nest {0} obsB := nest_evidenceFor (by norm_num)
  have hU := unsplit_ready hM.layered hM.smooth hM.valid hM.domain hB.event (hM.proper hB) (hM.one hB)
  obtain ⟨keep, m', p, hS, hp, hm', _, heq⟩ := conditionSimple_unsplit hM.layered hM.smooth.sumNe nest_obsB hU
    (by norm_num [nestValue]) freshMem
  have hall := rest_all hM.layered hS (by
    intro n _
    simp only [nestValue]
    split_ifs <;> norm_num) (E := obsB.fillMissing (fun _ => realLine) (({0} : Finset Var).sort (· ≤ ·)))
  have hk2 : nest.kind? 2 = some (.leaf (.uniform 0 (1 / 2) 1 .closed .closed)) := rfl
  have hk3 : nest.kind? 3 = some (.leaf (.uniform 0 0 (1 / 2) .closed .closed)) := rfl
  have hk4 : nest.kind? 4 = some (.leaf (.uniform 0 2 3 .closed .closed)) := rfl
  obtain ⟨q₂, hq₂⟩ := hU.newLeaf hk2 (by
    simp only [Leaf.var, allowed_between]; rw [uniform_open 0 (by norm_num)]; norm_num)
  obtain ⟨q₃, hq₃⟩ := hU.newLeaf hk3 (by
    simp only [Leaf.var, allowed_between]; rw [uniform_open 0 (by norm_num)]; norm_num)
  obtain ⟨q₄, hq₄⟩ := hU.newLeaf hk4 (by
    simp only [Leaf.var, allowed_between]; rw [uniform_open 0 (by norm_num)]; norm_num)
  simp only [Leaf.var, allowed_between] at hq₂ hq₃ hq₄
  refine ⟨_, _, _, q₂, q₃, q₄, p.exp, ?_, hq₂, hq₃, hq₄⟩
  unfold conditional
  rw [circuitVars_eq hM.layered.wf hM.layered.graded.acyclic hM.smooth hM.layered.root]
  simp only [List.map_cons, List.map_nil, logConditional, logConditionalInPlace, nest_copy]
  rw [heq, hall]
  generalize hd2 : newLeaf _ (.uniform 0 (1 / 2) 1 .closed .closed) = d₂
  generalize hd3 : newLeaf _ (.uniform 0 0 (1 / 2) .closed .closed) = d₃
  generalize hd4 : newLeaf _ (.uniform 0 2 3 .closed .closed) = d₄
  generalize hg : nest.mapLeavesOn (newLeaf _) (fun _ => true) = g1
  have hg' : g1 = ⟨[(0, .sum), (1, .sum), (2, .leaf d₂), (3, .leaf d₃), (4, .leaf d₄)],
      [⟨0, 1, Ex.lw (1 / 2)⟩, ⟨0, 2, Ex.lw (1 / 2)⟩, ⟨1, 3, Ex.lw (1 / 2)⟩, ⟨1, 4, Ex.lw (1 / 2)⟩]⟩ := by
    rw [← hg, ← hd2, ← hd3, ← hd4]; rfl
  have hsimp : g1.simplify = .ok ⟨[(0, .sum), (2, .leaf d₂), (3, .leaf d₃), (4, .leaf d₄)],
      [⟨0, 2, Ex.lw (1 / 2)⟩, ⟨0, 3, quarter⟩, ⟨0, 4, quarter⟩]⟩ := by
    have h0 : g1.root = .ok 0 := by subst hg'; rfl
    have h1 : g1.bottomUp 0 = [3, 4, 1, 2, 0] := by subst hg'; rfl
    simp only [simplify, h0, h1]
    subst hg'
    rfl
  have hnorm : normalize (⟨[(0, .sum), (2, .leaf d₂), (3, .leaf d₃), (4, .leaf d₄)],
      [⟨0, 2, Ex.lw (1 / 2)⟩, ⟨0, 3, quarter⟩, ⟨0, 4, quarter⟩]⟩ : Circuit) = .ok ⟨[(0, .sum), (2, .leaf d₂), (3, .leaf d₃), (4, .leaf d₄)],
      [⟨0, 2, Ex.lw (1 / 2)⟩, ⟨0, 3, quarter⟩, ⟨0, 4, quarter⟩]⟩ := by
    refine normalize_id ?_ ?_ ?_
    · exact ⟨by simp [ids], by simp, by simp [ids], by simp [ids]⟩
    · exact Ex.weighted_of (by simp [outEdges, Ex.lw])
    · refine Ex.normalized_of ?_
      intro q hq hk
      have h0 : q.1 = 0 := by
        simp only [List.mem_cons, List.not_mem_nil, or_false] at hq
        rcases hq with rfl | rfl | rfl | rfl <;> simp_all
      rw [h0]
      show (List.map linWeight [⟨0, 2, Ex.lw (1 / 2)⟩, ⟨0, 3, quarter⟩, ⟨0, 4, quarter⟩]).sum = 1
      simp only [List.map_cons, List.map_nil, linWeight_quarter, List.sum_cons, List.sum_nil]
      rw [Ex.linWeight_lw (by norm_num)]
      norm_num
  simp only [bind, Except.bind, hsimp, hnorm]
  rfl

/-- The certain observation first: `0 < x < ½` gets the probability ⅓. -/
theorem nest_second : ∃ g₂, observe (fun _ => realLine) nest [obsB, obsA] = .ok (some g₂) ∧
    ∀ m, (g₂.probability m (fun _ => realLine) [between 0 (1 / 2)]).2 = .ok (1 / 3) := by
  have hM₀ := nest_evidenceModel
  have hA₀ : EvidenceFor nest {0} obsA := nest_evidenceFor (by norm_num)
  have hB : EvidenceFor nest {0} obsB := nest_evidenceFor (by norm_num)
  have hF₀ : EventFor nest {0} (between 0 (1 / 2)) := (nest_evidenceFor (by norm_num)).event
  have hr : nestValue 1 1 1 0 = 1 := by norm_num [nestValue]
  have hp := probability_eq hM₀.layered hM₀.smooth hM₀.valid hM₀.domain (Es := [obsB]) (by simpa using hB.event)
    (p := fun _ => nestValue 1 1 1) (by simpa using nest_obsB) freshMem
  simp only [List.map_cons, List.map_nil, List.sum_cons, List.sum_nil, add_zero, hr] at hp
  obtain ⟨g', r', s1, hM, _, s4, s5, _, _⟩ := evidence_step hM₀ hB hp one_pos
  obtain ⟨d₂, d₃, d₄, q₂, q₃, q₄, p, hflat, c₂, c₃, c₄⟩ := nest_flat
  rw [hflat] at s1
  obtain rfl := Option.some.inj (congrArg Prod.fst (Except.ok.inj s1))
  obtain rfl : (0 : Node) = r' := Except.ok.inj (show (.ok 0 : Except PyErr Node) = .ok r' from hM.layered.root)
  have hA := s4 obsA hA₀
  have hF := s5 _ hF₀
  set g' : Circuit := ⟨[(0, .sum), (2, .leaf d₂), (3, .leaf d₃), (4, .leaf d₄)],
    [⟨0, 2, Ex.lw (1 / 2)⟩, ⟨0, 3, quarter⟩, ⟨0, 4, quarter⟩]⟩ with hg'
  obtain ⟨_, _, _, _, w₂, _, l₂⟩ := c₂
  obtain ⟨_, _, _, _, w₃, _, l₃⟩ := c₃
  obtain ⟨_, _, _, _, w₄, _, l₄⟩ := c₄
  change d₂.var = 0 at w₂
  change d₃.var = 0 at w₃
  change d₄.var = 0 at w₄
  have e₂ : ∀ a b, (leafLaw d₂).real (Set.Ioo a b) = max (min (min 9 b) 1 - max (max (-1) a) (1 / 2)) 0 / (1 / 2) := by
    intro a b
    rw [l₂ _ measurableSet_Ioo, Set.Ioo_inter_Ioo, uniform_open 0 (by norm_num), uniform_open 0 (by norm_num)]
    norm_num
  have e₃ : ∀ a b, (leafLaw d₃).real (Set.Ioo a b) = max (min (min 9 b) (1 / 2) - max (max (-1) a) 0) 0 / (1 / 2) := by
    intro a b
    rw [l₃ _ measurableSet_Ioo, Set.Ioo_inter_Ioo, uniform_open 0 (by norm_num), uniform_open 0 (by norm_num)]
    norm_num
  have e₄ : ∀ a b, (leafLaw d₄).real (Set.Ioo a b) = max (min (min 9 b) 3 - max (max (-1) a) 2) 0 := by
    intro a b
    rw [l₄ _ measurableSet_Ioo, Set.Ioo_inter_Ioo, uniform_open 0 (by norm_num), uniform_open 0 (by norm_num)]
    norm_num
  have hsum : ∀ n, g'.kind? n = some .sum → n = 0 := fun n h =>
    Ex.forall_kind (P := fun n k => k = Kind.sum → n = 0) (by simp [hg']) n _ h rfl
  have hout : g'.outEdges 0 = [⟨0, 2, Ex.lw (1 / 2)⟩, ⟨0, 3, quarter⟩, ⟨0, 4, quarter⟩] := rfl
  have hlf : ∀ {Q : Node → Leaf → Prop}, Q 2 d₂ → Q 3 d₃ → Q 4 d₄ → ∀ n d, g'.kind? n = some (.leaf d) → Q n d := fun {Q} h2 h3 h4 n d h =>
    Ex.forall_kind (P := fun n k => ∀ d, k = .leaf d → Q n d) (by simp [hg']; exact ⟨h2, h3, h4⟩) n _ h d rfl
  have hnp : ∀ n, g'.kind? n ≠ some .prod := fun n h => Ex.forall_kind (g := g') (P := fun n k => k ≠ .prod) (by simp [hg']) n _ h rfl
  have hP : CircuitValue g' (fun d => (leafLaw d).real (allowed obsA d.var))
      (fun n => if n = 0 then 3 / 4 else if n = 4 then 0 else 1) := by
    refine ⟨hlf ?_ ?_ ?_, fun n hk => ?_, fun n hk => absurd hk (hnp n)⟩
    · simp only [w₂, allowed_between, e₂]; norm_num
    · simp only [w₃, allowed_between, e₃]; norm_num
    · simp only [w₄, allowed_between, e₄]; norm_num
    · rw [hsum n hk, hout]
      simp only [List.map_cons, List.map_nil, linWeight_quarter, List.sum_cons, List.sum_nil]
      rw [Ex.linWeight_lw (by norm_num)]
      norm_num
  have hposs : possibleEdges g' (fun n => if n = 0 then 3 / 4 else if n = 4 then 0 else 1) 0 = [⟨0, 2, Ex.lw (1 / 2)⟩, ⟨0, 3, quarter⟩] := by
    rw [possibleEdges, hout]
    simp
  have hT : RemainingWeight g' (fun n => if n = 0 then 3 / 4 else if n = 4 then 0 else 1) fun n => if n = 0 then 3 / 4 else 1 := by
    refine ⟨hlf (by simp) (by simp) (by simp), fun n e he => ?_, fun n hk _ => ?_, fun n hk => absurd hk (hnp n)⟩
    · by_cases h0 : n = 0
      · subst h0
        rw [hposs] at he
        simp at he
      · exfalso
        have hmem : e ∈ g'.outEdges n := (List.mem_filter.1 (he ▸ List.mem_singleton_self e)).1
        obtain ⟨h1, h2⟩ := mem_outEdges.1 hmem
        simp only [hg', List.mem_cons, List.not_mem_nil, or_false] at h1
        rcases h1 with rfl | rfl | rfl <;> exact h0 h2.symm
    · rw [hsum n hk, hposs]
      simp only [List.map_cons, List.map_nil, linWeight_quarter, List.sum_cons, List.sum_nil]
      rw [Ex.linWeight_lw (by norm_num)]
      norm_num
  obtain ⟨g₂, r₂, k1, _, _, _, _, _, k2⟩ := C88_pruned hM.layered hM.smooth hM.decomposable hM.valid hM.positive hM.tree hM.domain hA.event
    (hM.proper hA) (hM.one hA) hP hT (by norm_num)
  refine ⟨g₂, ?_, fun m => ?_⟩
  · rw [observe, hflat]
    simp only [observe, k1]
  · rw [k2 [between 0 (1 / 2)] (by simpa using hF) (fun _ n => if n = 0 then 1 / 3 else if n = 3 then 1 else 0) ?_ m]
    · norm_num
    · intro F hF'
      simp only [List.mem_singleton] at hF'
      subst hF'
      refine ⟨hlf ?_ ?_ ?_, fun n hk => ?_, fun n hk => absurd hk (hnp n)⟩
      · simp only [w₂, allowed_between, Set.Ioo_inter_Ioo, e₂]; norm_num
      · simp only [w₃, allowed_between, Set.Ioo_inter_Ioo, e₃]; norm_num
      · simp only [w₄, allowed_between, Set.Ioo_inter_Ioo, e₄]; norm_num
      · rw [hsum n hk, hposs]
        simp only [List.map_cons, List.map_nil, linWeight_quarter, List.sum_cons, List.sum_nil]
        rw [Ex.linWeight_lw (by norm_num)]
        norm_num

/-- **C105 is false**: `½ (½ U[0,½] + ½ U[2,3]) + ½ U[½,1]`, told that `0 < x < 1` and that `-1 < x < 9`, gives `0 < x < ½` the
probability ½ or ⅓, depending on which it was told first.  The second observation is certain. -/
theorem C105_full_false : ¬ C105_full := by
  intro h
  obtain ⟨g₁, h1, p1⟩ := nest_first
  obtain ⟨g₂, h2, p2⟩ := nest_second
  have := h nest 0 _ _ [obsA, obsB] [obsB, obsA] g₁ g₂ nest_evidenceModel (by
    intro E hE
    simp only [List.mem_cons, List.not_mem_nil, or_false] at hE
    rcases hE with rfl | rfl
    · exact nest_evidenceFor (by norm_num)
    · exact nest_evidenceFor (by norm_num)) (List.Perm.swap _ _ _) h1 h2 (between 0 (1 / 2)) (nest_evidenceFor (by norm_num)).event freshMem freshMem
  rw [p1, p2] at this
  have := Except.ok.inj this
  norm_num at this

/-- The certain observation alone changes nothing, and neither does repeating the first one. -/
example : (∃ g' r', nest.conditional (fun _ => realLine) [obsB] = .ok (some g', 1) ∧ EvidenceModel g' r' (fun _ => {0}) (fun _ => realLine)) ∧
    ∃ g₁ g₂, observe (fun _ => realLine) nest [obsA, obsB] = .ok (some g₁) ∧
      observe (fun _ => realLine) nest ([obsA, obsB] ++ [obsB, obsA, obsA]) = .ok (some g₂) ∧
      ∀ m m', (g₂.probability m (fun _ => realLine) [between 0 (1 / 2)]).2 = (g₁.probability m' (fun _ => realLine) [between 0 (1 / 2)]).2 := by
  have hM := nest_evidenceModel
  have hB : EvidenceFor nest {0} obsB := nest_evidenceFor (by norm_num)
  have hr : nestValue 1 1 1 0 = 1 := by norm_num [nestValue]
  have hp := probability_eq hM.layered hM.smooth hM.valid hM.domain (Es := [obsB]) (by simpa using hB.event)
    (p := fun _ => nestValue 1 1 1) (by simpa using nest_obsB) freshMem
  simp only [List.map_cons, List.map_nil, List.sum_cons, List.sum_nil, add_zero, hr] at hp
  obtain ⟨g', r', h1, h2, _⟩ := C105_certain hM hB hp
  obtain ⟨g₁, k1, _⟩ := nest_first
  obtain ⟨g₂, k2, k3⟩ := C105_repeated hM (Es := [obsA, obsB]) (Es' := [obsB, obsA, obsA]) (by
    intro E hE
    simp only [List.mem_cons, List.not_mem_nil, or_false] at hE
    rcases hE with rfl | rfl
    · exact nest_evidenceFor (by norm_num)
    · exact nest_evidenceFor (by norm_num)) k1 (by simp)
  exact ⟨⟨g', r', h1, h2⟩, g₁, g₂, k1, k2, fun m m' => k3 _ (by simpa using (nest_evidenceFor (by norm_num)).event) m m'⟩

end PM.Props
