import Verif.Props.Histories
import Verif.Circuit.MarginalLemmas
import Verif.Props.Probability

/-!
# C107: the factors of a product are independent, before and after evidence
-/

namespace PM.Props

open Spec Graph MeasureTheory

variable {g : Circuit} {r : Node} {sc : Node → Finset Var} {dom : Var → VSet} {E F : SimpleEvent} {P T : Node → ℝ}

theorem leaf_one {n : Node} {d : Leaf} (hv : ∀ n d, g.kind? n = some (.leaf d) → d.Valid)
    (hln : ∀ n d, g.kind? n = some (.leaf d) → d.Normalized) (hk : g.kind? n = some (.leaf d)) (h : d.var ∉ E.keys) :
    (leafLaw d).real (allowed E d.var) = 1 := by
  rw [allowed_of_not_mem h, measureReal_def, leafLaw_univ (hv n d hk) (hln n d hk)]
  simp

theorem scope_child (hL : Layered g r) (hs : Scoped g sc) {n : Node} {e : Edge} (he : e ∈ g.outEdges n) {v : Var} (hv : v ∈ sc e.dst) : v ∈ sc n := by
  obtain ⟨h1, h2⟩ := mem_outEdges.1 he
  exact h2 ▸ scope_edge hs hL.wf hL.leaves h1 hv

/-- Units without variables of the event have value one. -/
theorem unit_one (hL : Layered g r) (hs : Scoped g sc) (hn : NormalizedSums g) (hv : ∀ n d, g.kind? n = some (.leaf d) → d.Valid)
    (hln : ∀ n d, g.kind? n = some (.leaf d) → d.Normalized) (hP : CircuitValue g (fun d => (leafLaw d).real (allowed E d.var)) P) :
    ∀ n, n ∈ g.ids → (∀ v ∈ sc n, v ∉ E.keys) → P n = 1 := by
  intro n hn' hd
  refine value_one (vs := E.keys.toFinset) hL hs hn hP (fun n d hk h => leaf_one hv hln hk (by simpa using h)) n hn' ?_
  rw [Bool.eq_false_iff]
  intro h
  obtain ⟨v, h1, h2⟩ := keeps_iff.1 h
  exact hd v h1 (by simpa using h2)

/-- Values at a unit only depend on the leaves over its variables. -/
theorem value_congr (hL : Layered g r) (hs : Scoped g sc) {ℓ ℓ' : Leaf → ℝ} {f f' : Node → ℝ} (hf : CircuitValue g ℓ f)
    (hf' : CircuitValue g ℓ' f') {A : Var → Prop} (h : ∀ n d, g.kind? n = some (.leaf d) → A d.var → ℓ d = ℓ' d) :
    ∀ n, n ∈ g.ids → (∀ v ∈ sc n, A v) → f n = f' n := by
  refine hL.graded.acyclic.induct ?_
  intro n ih hn hA
  have ih' : ∀ e ∈ g.outEdges n, f e.dst = f' e.dst := fun e he =>
    ih _ (dst_mem_succ he) (hL.wf.dstMem e (mem_outEdges.1 he).1) fun v hv => hA v (scope_child hL hs he hv)
  obtain ⟨K, hk⟩ := exists_kind? hn
  cases K with
  | leaf d => rw [hf.leaf n d hk, hf'.leaf n d hk, h n d hk (hA _ (by simp [hs.leaf n d hk]))]
  | sum =>
    rw [hf.sum n hk, hf'.sum n hk]
    congr 1
    exact List.map_congr_left fun e he => by rw [ih' e he]
  | prod =>
    rw [hf.prod n hk, hf'.prod n hk]
    congr 1
    exact List.map_congr_left ih'

/-- **C107**, probabilities: events about different factors of a product are independent. -/
theorem C107_independent (hL : Layered g r) (hs : Scoped g sc) (hn : NormalizedSums g)
    (hv : ∀ n d, g.kind? n = some (.leaf d) → d.Valid) (hln : ∀ n d, g.kind? n = some (.leaf d) → d.Normalized) (hdom : DomainFor g dom)
    (hr : g.kind? r = some .prod) (hE : EventFor g (sc r) E) (hF : EventFor g (sc r) F) (hd : DifferentFactors g r sc E F) (m₁ m₂ m₃ : Mem ℝ) :
    ∃ p q, (g.probability m₁ dom [E]).2 = .ok p ∧ (g.probability m₂ dom [F]).2 = .ok q ∧ (g.probability m₃ dom [E.inter F]).2 = .ok (p * q) := by
  obtain ⟨P, hP⟩ := exists_probValue hL E
  obtain ⟨Q, hQ⟩ := exists_probValue hL F
  obtain ⟨R, hR⟩ := exists_probValue hL (E.inter F)
  have e1 := fun {G : SimpleEvent} {f : Node → ℝ} (hG : EventFor g (sc r) G) hf m => probability_eq hL hs hv hdom (Es := [G])
    (by simpa using hG) (p := fun _ => f) (by simpa using hf) m
  simp only [List.map_cons, List.map_nil, List.sum_cons, List.sum_nil, add_zero] at e1
  refine ⟨_, _, e1 hE hP m₁, e1 hF hQ m₂, (e1 (eventFor_inter hL hs hE hF) hR m₃).trans ?_⟩
  congr 1
  rw [hR.prod r hr, hP.prod r hr, hQ.prod r hr, ← List.prod_map_mul]
  congr 1
  refine List.map_congr_left fun e he => ?_
  have hid := hL.wf.dstMem e (mem_outEdges.1 he).1
  have hall : ∀ v, allowed (E.inter F) v = allowed E v ∩ allowed F v := fun v => allowed_inter hF.nodup (compatible_of hL hs hE hF) v
  rcases hd e.dst (dst_mem_succ he) with h | h
  · rw [unit_one hL hs hn hv hln hP _ hid h, one_mul]
    refine value_congr hL hs hR hQ (A := fun v => v ∉ E.keys) (fun n d _ hA => ?_) _ hid h
    rw [hall, allowed_of_not_mem hA, Set.univ_inter]
  · rw [unit_one hL hs hn hv hln hQ _ hid h, mul_one]
    refine value_congr hL hs hR hP (A := fun v => v ∉ F.keys) (fun n d _ hA => ?_) _ hid h
    rw [hall, allowed_of_not_mem hA, Set.inter_univ]

/-! ### After conditioning -/

theorem possible_of_sum {ℓ : Leaf → ℝ} (hP : CircuitValue g ℓ P) {n : Node} (hk : g.kind? n = some .sum) (h : P n ≠ 0) :
    possibleEdges g P n ≠ [] := by
  intro h0
  apply h
  rw [hP.sum n hk]
  refine List.sum_eq_zero fun x hx => ?_
  obtain ⟨e, he, rfl⟩ := List.mem_map.1 hx
  by_contra hne
  have : e ∈ possibleEdges g P n := mem_possibleEdges.2 ⟨he, fun h => hne (by rw [h, mul_zero])⟩
  rw [h0] at this
  cases this

theorem possible_of_prod {ℓ : Leaf → ℝ} (hP : CircuitValue g ℓ P) {n : Node} (hk : g.kind? n = some .prod) (h : P n ≠ 0) :
    ∀ e ∈ g.outEdges n, P e.dst ≠ 0 := by
  intro e he h0
  apply h
  rw [hP.prod n hk]
  exact List.prod_eq_zero (List.mem_map.2 ⟨e, he, h0⟩)

theorem weight_pos (hp : PositiveWeights g) {n : Node} (hk : g.kind? n = some .sum) {e : Edge} (he : e ∈ g.outEdges n) : 0 < linWeight e := by
  obtain ⟨x, hx⟩ := hp n hk e he
  simp [linWeight, hx, LogP.exp, Real.exp_pos]

theorem remaining_positive (hL : Layered g r) {ℓ : Leaf → ℝ} (hP : CircuitValue g ℓ P) (hp : PositiveWeights g) (hT : RemainingWeight g P T) :
    ∀ n, n ∈ g.ids → P n ≠ 0 → 0 < T n := by
  refine hL.graded.acyclic.induct ?_
  intro n ih hn h0
  have ih' : ∀ e ∈ possibleEdges g P n, 0 < T e.dst := by
    intro e he
    obtain ⟨h1, h2⟩ := mem_possibleEdges.1 he
    exact ih _ (dst_mem_succ h1) (hL.wf.dstMem e (mem_outEdges.1 h1).1) h2
  by_cases h1 : (possibleEdges g P n).length = 1
  · obtain ⟨e, he⟩ := List.length_eq_one_iff.1 h1
    rw [hT.single n e he]
    exact ih' e (by rw [he]; simp)
  · obtain ⟨K, hk⟩ := exists_kind? hn
    cases K with
    | leaf d => rw [hT.leaf n d hk]; exact one_pos
    | prod => rw [hT.prod n hk h1]; exact one_pos
    | sum =>
      rw [hT.sum n hk h1]
      refine List.sum_pos _ (fun x hx => ?_) fun h => possible_of_sum hP hk h0 (List.map_eq_nil_iff.1 h)
      obtain ⟨e, he, rfl⟩ := List.mem_map.1 hx
      exact mul_pos (weight_pos hp hk (mem_possibleEdges.1 he).1) (ih' e he)

/-- Below a unit without variables of the evidence nothing is pruned. -/
theorem pruned_untouched (hM : EvidenceModel g r sc dom) (hP : CircuitValue g (fun d => (leafLaw d).real (allowed E d.var)) P)
    (hT : RemainingWeight g P T) {C Q : Node → ℝ}
    (hC : PrunedValue g P T (fun d => (leafLaw d).real (allowed E d.var ∩ allowed F d.var) / (leafLaw d).real (allowed E d.var)) C)
    (hQ : CircuitValue g (fun d => (leafLaw d).real (allowed F d.var)) Q) :
    ∀ n, n ∈ g.ids → (∀ v ∈ sc n, v ∉ E.keys) → T n = 1 ∧ C n = Q n := by
  have hL := hM.layered
  refine hL.graded.acyclic.induct ?_
  intro n ih hn hd
  have hch : ∀ e ∈ g.outEdges n, e.dst ∈ g.ids ∧ ∀ v ∈ sc e.dst, v ∉ E.keys := fun e he =>
    ⟨hL.wf.dstMem e (mem_outEdges.1 he).1, fun v hv => hd v (scope_child hL hM.smooth he hv)⟩
  have ih' : ∀ e ∈ g.outEdges n, T e.dst = 1 ∧ C e.dst = Q e.dst := fun e he => ih _ (dst_mem_succ he) (hch e he).1 (hch e he).2
  have hall : possibleEdges g P n = g.outEdges n := by
    unfold possibleEdges
    refine List.filter_eq_self.2 fun e he => ?_
    simp [unit_one hL hM.smooth hM.normalized hM.valid hM.leaves hP _ (hch e he).1 (hch e he).2]
  have hwT : ∀ e ∈ g.outEdges n, linWeight e * T e.dst = linWeight e := fun e he => by rw [(ih' e he).1, mul_one]
  obtain ⟨K, hk⟩ := exists_kind? hn
  refine ⟨?_, ?_⟩
  · by_cases h1 : (possibleEdges g P n).length = 1
    · obtain ⟨e, he⟩ := List.length_eq_one_iff.1 h1
      rw [hT.single n e he]
      exact (ih' e (by rw [← hall, he]; simp)).1
    · cases K with
      | leaf d => exact hT.leaf n d hk
      | prod => exact hT.prod n hk h1
      | sum =>
        rw [hT.sum n hk h1, hall, List.map_congr_left hwT]
        exact hM.normalized n hk
  · cases K with
    | leaf d =>
      have hnot : d.var ∉ E.keys := hd _ (by simp [hM.smooth.leaf n d hk])
      rw [hC.leaf n d hk, hQ.leaf n d hk, leaf_one hM.valid hM.leaves hk hnot, allowed_of_not_mem hnot, Set.univ_inter, div_one]
    | sum =>
      rw [hC.sum n hk, hall, List.map_congr_left hwT, hQ.sum n hk, show ((g.outEdges n).map linWeight).sum = 1 from hM.normalized n hk, div_one]
      congr 1
      exact List.map_congr_left fun e he => by rw [(ih' e he).1, (ih' e he).2, mul_one]
    | prod =>
      rw [hC.prod n hk, hQ.prod n hk]
      congr 1
      exact List.map_congr_left fun e he => (ih' e he).2

/-- At a possible unit without variables of `F`, `F` is certain after pruning. -/
theorem pruned_certain (hM : EvidenceModel g r sc dom) (hP : CircuitValue g (fun d => (leafLaw d).real (allowed E d.var)) P)
    (hT : RemainingWeight g P T) {C : Node → ℝ}
    (hC : PrunedValue g P T (fun d => (leafLaw d).real (allowed E d.var ∩ allowed F d.var) / (leafLaw d).real (allowed E d.var)) C) :
    ∀ n, n ∈ g.ids → P n ≠ 0 → (∀ v ∈ sc n, v ∉ F.keys) → C n = 1 := by
  have hL := hM.layered
  have hTp := remaining_positive hL hP hM.positive hT
  refine hL.graded.acyclic.induct ?_
  intro n ih hn h0 hd
  have ih' : ∀ e ∈ g.outEdges n, P e.dst ≠ 0 → C e.dst = 1 := fun e he hne =>
    ih _ (dst_mem_succ he) (hL.wf.dstMem e (mem_outEdges.1 he).1) hne fun v hv => hd v (scope_child hL hM.smooth he hv)
  obtain ⟨K, hk⟩ := exists_kind? hn
  cases K with
  | leaf d =>
    have hnot : d.var ∉ F.keys := hd _ (by simp [hM.smooth.leaf n d hk])
    rw [hP.leaf n d hk] at h0
    rw [hC.leaf n d hk, allowed_of_not_mem hnot, Set.inter_univ, div_self h0]
  | sum =>
    rw [hC.sum n hk, List.map_congr_left (g := fun e => linWeight e * T e.dst) fun e he => by
      rw [ih' e (mem_possibleEdges.1 he).1 (mem_possibleEdges.1 he).2, mul_one]]
    refine div_self (ne_of_gt (List.sum_pos _ (fun x hx => ?_) fun h => possible_of_sum hP hk h0 (List.map_eq_nil_iff.1 h)))
    obtain ⟨e, he, rfl⟩ := List.mem_map.1 hx
    obtain ⟨h1, h2⟩ := mem_possibleEdges.1 he
    exact mul_pos (weight_pos hM.positive hk h1) (hTp _ (hL.wf.dstMem e (mem_outEdges.1 h1).1) h2)
  | prod =>
    rw [hC.prod n hk]
    refine List.prod_eq_one fun x hx => ?_
    obtain ⟨e, he, rfl⟩ := List.mem_map.1 hx
    exact ih' e he (possible_of_prod hP hk h0 e he)

/-- **C107**, conditioning: evidence about some factors of a product does not change what the model says about the other factors. -/
theorem C107_irrelevant (hM : EvidenceModel g r sc dom) (hr : g.kind? r = some .prod) (hE : EvidenceFor g (sc r) E) {pE : ℝ} {m₀ : Mem ℝ}
    (hpE : (g.probability m₀ dom [E]).2 = .ok pE) (hpos : 0 < pE) :
    ∃ g', g.conditional dom [E] = .ok (some g', pE) ∧
      ∀ Fs : Event, (∀ F ∈ Fs, EventFor g (sc r) F ∧ DifferentFactors g r sc E F) →
        ∀ m m', (g'.probability m dom Fs).2 = (g.probability m' dom Fs).2 := by
  obtain ⟨P, T, hP, hT, hC⟩ := C88_defined hM.layered E
  rw [probability_eq hM.layered hM.smooth hM.valid hM.domain (by simpa using hE.event) (p := fun _ => P) (by simpa using hP)] at hpE
  simp only [List.map_cons, List.map_nil, List.sum_cons, List.sum_nil, add_zero, Except.ok.injEq] at hpE
  subst hpE
  obtain ⟨g', r', h1, _, _, _, _, _, h7⟩ := C88_pruned hM.layered hM.smooth hM.decomposable hM.valid hM.positive hM.tree
    hM.domain hE.event (hM.proper hE) (hM.one hE) hP hT hpos
  refine ⟨g', h1, fun Fs hF m m' => ?_⟩
  choose C hC using hC
  choose Q hQ using fun F => exists_probValue hM.layered F
  rw [h7 Fs (fun F h => (hF F h).1) C (fun F _ => hC F) m,
    probability_eq hM.layered hM.smooth hM.valid hM.domain (fun F h => (hF F h).1) (fun F _ => hQ F) m']
  congr 2
  refine List.map_congr_left fun F hm => ?_
  rw [(hC F).prod r hr, (hQ F).prod r hr]
  congr 1
  refine List.map_congr_left fun e he => ?_
  have hid := hM.layered.wf.dstMem e (mem_outEdges.1 he).1
  rcases (hF F hm).2 e.dst (dst_mem_succ he) with h | h
  · exact (pruned_untouched hM hP hT (hC F) (hQ F) _ hid h).2
  · rw [unit_one hM.layered hM.smooth hM.normalized hM.valid hM.leaves (hQ F) _ hid h]
    exact pruned_certain hM hP hT (hC F) _ hid (possible_of_prod hP hr hpos.ne' e he) h

/-! ### A mixture and an independent uniform variable -/

/-- `0: ⊗ → 1: ⊕, 2: U₁[0,4]`, `1 → 3: U₀[0,1] (½), 4: U₀[2,3] (½)`. -/
noncomputable def factors : Circuit where
  nodes := [(0, .prod), (1, .sum), (2, .leaf (.uniform 1 0 4 .closed .closed)), (3, .leaf (.uniform 0 0 1 .closed .closed)),
    (4, .leaf (.uniform 0 2 3 .closed .closed))]
  edges := [⟨0, 1, none⟩, ⟨0, 2, none⟩, ⟨1, 3, Ex.lw (1 / 2)⟩, ⟨1, 4, Ex.lw (1 / 2)⟩]

def factorsScope : Node → Finset Var := fun n => if n = 0 then {0, 1} else if n = 2 then {1} else {0}

theorem factors_leaf {Q : Leaf → Prop} (h1 : Q (.uniform 1 0 4 .closed .closed)) (h2 : Q (.uniform 0 0 1 .closed .closed))
    (h3 : Q (.uniform 0 2 3 .closed .closed)) : ∀ n d, factors.kind? n = some (.leaf d) → Q d :=
  fun n d h => Ex.forall_kind (P := fun _ k => ∀ d, k = .leaf d → Q d) (by simp [factors, h1, h2, h3]) n _ h d rfl

theorem factors_model : EvidenceModel factors 0 factorsScope fun _ => realLine where
  layered := ⟨⟨by decide, by simp [factors], by simp [factors, ids], by simp [factors, ids]⟩,
    ⟨fun n => if n = 0 then 0 else if n ≤ 2 then 1 else 2, by simp [factors]⟩, Ex.leafTerminal_of (by simp [factors, succ, outEdges]),
    Ex.weighted_of (by simp [factors, outEdges, Ex.lw]), by simp [root, factors, ids, inDegree, inEdges]⟩
  smooth := by
    have h0 : factors.succ 0 = [1, 2] := rfl
    have h1 : factors.succ 1 = [3, 4] := rfl
    have hn : factors.nodes = [(0, .prod), (1, .sum), (2, .leaf (.uniform 1 0 4 .closed .closed)),
      (3, .leaf (.uniform 0 0 1 .closed .closed)), (4, .leaf (.uniform 0 2 3 .closed .closed))] := rfl
    refine Ex.scoped_of ?_ ?_ ?_ <;> simp [hn, h0, h1, factorsScope, Leaf.var]
  decomposable := by
    have h0 : factors.succ 0 = [1, 2] := rfl
    refine Ex.decomposable_of ?_
    simp only [factors, List.mem_cons, List.not_mem_nil, or_false, forall_eq_or_imp, forall_eq, reduceCtorEq, false_implies,
      and_true, true_implies]
    rw [← factors, h0]
    simp [factorsScope]
  valid := factors_leaf (by norm_num [Leaf.Valid]) (by norm_num [Leaf.Valid]) (by norm_num [Leaf.Valid])
  positive := Ex.positive_of (by simp [factors, outEdges, Ex.lw])
  normalized := Ex.normalized_of (by
    have h : factors.outEdges 1 = [⟨1, 3, Ex.lw (1 / 2)⟩, ⟨1, 4, Ex.lw (1 / 2)⟩] := rfl
    simp only [factors, List.mem_cons, List.not_mem_nil, or_false, forall_eq_or_imp, forall_eq, reduceCtorEq, false_implies,
      and_true, true_implies, true_and]
    rw [← factors, h]
    simp (disch := norm_num) [Ex.linWeight_lw, -one_div])
  leaves := factors_leaf trivial trivial trivial
  tree := by simp [TreeShaped, factors]
  domain := ⟨fun _ => realLine_disjoint, factors_leaf (by simp [Fits, realLine]) (by simp [Fits, realLine]) (by simp [Fits, realLine]),
    fun n d h => by simp [realLine_toSet]⟩
  noDirac := factors_leaf (by simp) (by simp) (by simp)
  line := fun _ _ _ _ => ⟨_, _, rfl⟩

theorem factors_evidenceFor (v : Var) {V : Finset Var} (hv : v ∈ V) {a b : ℝ} (h : a < b) : EvidenceFor factors V (within v a b) where
  event := ⟨by simp [SimpleEvent.keys], by simpa [SimpleEvent.keys] using hv, by
    simp [VSet.Disjoint, SimpleInterval.IsEmpty, h.le, h.ne], by
    intro p hp n d hk _
    simp only [List.mem_singleton] at hp
    subst hp
    exact factors_leaf (Q := fun d => Fits d _) (by simp [Fits]) (by simp [Fits]) (by simp [Fits]) n d hk⟩
  opens := by
    intro p hp _ _ _ _ _
    simp only [List.mem_singleton] at hp
    subst hp
    exact ⟨_, _, rfl⟩

theorem factors_different (a b c d : ℝ) : DifferentFactors factors 0 factorsScope (within 0 a b) (within 1 c d) := by
  intro k hk
  rw [show factors.succ 0 = [1, 2] from rfl] at hk
  simp only [List.mem_cons, List.not_mem_nil, or_false] at hk
  rcases hk with rfl | rfl
  · right; simp [factorsScope, SimpleEvent.keys]
  · left; simp [factorsScope, SimpleEvent.keys]

/-- Told that `x₀ < 1`, the model says of `x₁` what it said before. -/
example : ∃ g', factors.conditional (fun _ => realLine) [within 0 (-1) 1] = .ok (some g', 1 / 2) ∧ ∀ a b : ℝ, a < b → ∀ m m',
    (g'.probability m (fun _ => realLine) [within 1 a b]).2 = (factors.probability m' (fun _ => realLine) [within 1 a b]).2 := by
  have hM := factors_model
  have hE := factors_evidenceFor 0 (V := factorsScope 0) (by simp [factorsScope]) (show (-1 : ℝ) < 1 by norm_num)
  have hval : CircuitValue factors (fun d => (leafLaw d).real (allowed (within 0 (-1) 1) d.var)) (fun n =>
      if n = 0 then 1 / 2 else if n = 1 then 1 / 2 else if n = 4 then 0 else 1) := by
    have o0 : factors.outEdges 0 = [⟨0, 1, none⟩, ⟨0, 2, none⟩] := rfl
    have o1 : factors.outEdges 1 = [⟨1, 3, Ex.lw (1 / 2)⟩, ⟨1, 4, Ex.lw (1 / 2)⟩] := rfl
    have hn : factors.nodes = [(0, .prod), (1, .sum), (2, .leaf (.uniform 1 0 4 .closed .closed)),
      (3, .leaf (.uniform 0 0 1 .closed .closed)), (4, .leaf (.uniform 0 2 3 .closed .closed))] := rfl
    refine Ex.value_of ?_ ?_ ?_
    · simp only [hn, List.mem_cons, List.not_mem_nil, or_false, forall_eq_or_imp, forall_eq, Kind.leaf.injEq, reduceCtorEq,
        false_implies, implies_true, true_and, forall_eq', Leaf.var, allowed_within]
      refine ⟨?_, ?_, ?_⟩
      · have h1 : (leafLaw (.uniform 1 0 4 .closed .closed)).real Set.univ = 1 := by
          rw [measureReal_def, leafLaw_univ (d := .uniform 1 0 4 .closed .closed) (by norm_num [Leaf.Valid]) trivial]
          simp
        simp [h1]
      · have h2 := uniform_open 0 (show (0 : ℝ) < 1 by norm_num) (-1) 1
        norm_num at h2
        simp [h2]
      · have h3 := uniform_open 0 (show (2 : ℝ) < 3 by norm_num) (-1) 1
        norm_num at h3
        simp [h3]
    · simp (disch := norm_num) [hn, o1, Ex.linWeight_lw, -one_div]
    · simp [hn, o0]
  have hp := probability_eq hM.layered hM.smooth hM.valid hM.domain (Es := [within 0 (-1) 1]) (by simpa using hE.event) (p := fun _ => _)
    (by simpa using hval) freshMem
  obtain ⟨g', h1, h2⟩ := C107_irrelevant hM rfl hE (pE := 1 / 2) (by rw [hp]; simp) (by norm_num)
  refine ⟨g', h1, fun a b hab m m' => h2 _ (fun F hF => ?_) m m'⟩
  simp only [List.mem_singleton] at hF
  subst hF
  exact ⟨(factors_evidenceFor 1 (by simp [factorsScope]) hab).event, factors_different _ _ _ _⟩

end PM.Props
