import Verif.Circuit.SampleRandomLemmas
import Verif.Props.Sample

/-!
# C63: the law of the samples
-/

namespace PM.Props
open Graph Spec Rand

/-- All rows satisfy the event exactly if all written values are allowed. -/
theorem rowIn_iff {vs : Finset Var} {E : SimpleEvent} (hE : ∀ v ∈ E.keys, v ∈ vs) {amount : ℕ} {log : List Write}
    (h : ∀ ρ v, writesTo log ρ v = if ρ < amount ∧ v ∈ vs then 1 else 0) :
    (∀ ρ < amount, RowIn vs E log ρ) ↔ ∀ w ∈ log, w.value ∈ allowed E w.var := by
  have hcell : ∀ w ∈ log, w.row < amount ∧ w.var ∈ vs ∧ cell log w.row w.var = some w.value := by
    intro w hw
    have h1 := h w.row w.var
    have h0 : 0 < writesTo log w.row w.var := List.countP_pos_iff.2 ⟨w, hw, by simp⟩
    split at h1
    · rename_i hc
      refine ⟨hc.1, hc.2, ?_⟩
      rw [writesTo, List.countP_eq_length_filter] at h1
      obtain ⟨w', hw'⟩ := List.length_eq_one_iff.1 h1
      have hww : w ∈ log.filter fun w' => w'.row == w.row && w'.var == w.var := List.mem_filter.2 ⟨hw, by simp⟩
      rw [hw', List.mem_singleton] at hww
      rw [cell, hw', ← hww]; rfl
    · omega
  have hfull : ∀ ρ < amount, ∀ v ∈ vs, ∃ w ∈ log, w.row = ρ ∧ w.var = v := by
    intro ρ hρ v hv
    have h1 := h ρ v
    rw [if_pos ⟨hρ, hv⟩] at h1
    obtain ⟨w, hw, hc⟩ := List.countP_pos_iff.1 (by rw [← writesTo, h1]; exact Nat.one_pos)
    simp only [Bool.and_eq_true, beq_iff_eq] at hc
    exact ⟨w, hw, hc⟩
  constructor
  · intro hall w hw
    obtain ⟨h1, h2, h3⟩ := hcell w hw
    obtain ⟨x, hx, hm⟩ := hall w.row h1
    have := hx w.var h2
    rw [h3] at this; injection this with this
    rw [this]
    intro p hp hpv
    have := hm p hp
    rwa [hpv] at this
  · intro hall ρ hρ
    have : Nonempty Write := ⟨⟨0, 0, 0, 0⟩⟩
    choose! W hW1 hW2 hW3 using hfull ρ hρ
    refine ⟨fun v => (W v).value, ?_, ?_⟩
    · intro v hv
      have := (hcell _ (hW1 v hv)).2.2
      rwa [hW2 v hv, hW3 v hv] at this
    · intro p hp
      have hv := hE p.1 (List.mem_map.2 ⟨p, hp, rfl⟩)
      exact hall _ (hW1 p.1 hv) p hp (hW3 p.1 hv).symm

/-- **C63, proved part.** On layered, smooth, decomposable circuits with normalised sum units and leaves: `sample(amount)` succeeds and all
of its rows satisfy the simple event `E` with probability `P(E) ^ amount`, as for independent samples.  In particular (`amount = 1`) a
single sample has the law of the circuit. -/
theorem C63_all_rows_partial {g : Circuit} {r : Node} (hL : Layered g r) {sc : Node → Finset Var} (hs : Scoped g sc)
    (hde : Decomposable g sc) (hn : NormalizedSums g) (hv : ∀ n d, g.kind? n = some (.leaf d) → d.Valid)
    (hln : ∀ n d, g.kind? n = some (.leaf d) → d.Normalized) {dom : Var → VSet} (hdom : DomainFor g dom) {vs : Finset Var}
    (hvs : g.circuitVars = .ok vs) {E : SimpleEvent} (hE : EventFor g vs E) (amount : ℕ) (m : Mem ℝ) :
    ∃ p, (g.probability m dom [E]).2 = .ok p ∧
      chance (g.sampleR amount) (fun log => ∀ ρ < amount, RowIn vs E log ρ) = p ^ amount := by
  rw [circuitVars_eq hL.wf hL.graded.acyclic hs hL.root] at hvs; injection hvs with hvs; subst hvs
  obtain ⟨f, hf⟩ := exists_probValue hL E
  refine ⟨f r, ?_, ?_⟩
  · have := probability_eq hL hs hv hdom (Es := [E]) (by simpa using hE) (p := fun _ => f) (by simpa using hf) m
    simpa using this
  have hri := (root_mem hL.root).1
  have hO := ordered_topDown hL
  have hmem : ∀ n, n ∈ g.topDown r ↔ g.Reachable r n := fun n => mem_layersFrom_iff hL.wf hL.graded hri
  have hids : ∀ n ∈ g.topDown r, n ∈ g.ids := fun n hn => reachable_mem_ids hL.wf hri ((hmem n).1 hn)
  have hr0 : ∀ m, m ≠ r → pushAll (fun _ => []) [(r, 0, amount)] m = [] := by
    intro m hm
    simp [pushAll, Ne.symm hm]
  have hrr : pushAll (fun _ => []) [(r, 0, amount)] r = [(0, amount)] := by simp [pushAll]
  have hrange : ∀ m, ∀ q ∈ pushAll (fun _ => []) [(r, 0, amount)] m, q.1 + q.2 ≤ amount := by
    intro m q hq
    by_cases hm : m = r
    · subst hm; simp only [hrr] at hq; simp at hq; subst hq; simp
    · simp [hr0 m hm] at hq
  have hrT : r ∈ g.topDown r := (hmem r).2 Relation.ReflTransGen.refl
  have hon := on_samplePassR (rows := amount) hs hde hL.weighted hn hln (g.topDown r) hO hids
    (pushAll (fun _ => []) [(r, 0, amount)], []) hrange
  have hval := samplePassR_worth (rows := amount) hs hde hL.weighted hn hln (measurableSet_allowed E) hf (g.topDown r) hO hids
    (pushAll (fun _ => []) [(r, 0, amount)], []) hrange
  have hworth : worthOf f (pushAll (fun _ => []) [(r, 0, amount)]) (g.topDown r) = f r ^ amount := by
    rw [worthOf_pushAll f hO.nodup (by
      intro p hp'
      rw [List.mem_singleton] at hp'; subst hp'
      exact hrT)]
    simp [worthOf, worth]
  have hcount : ∀ ρ v, pending sc v ρ (pushAll (fun _ => []) [(r, 0, amount)]) (g.topDown r) = if ρ < amount ∧ v ∈ sc r then 1 else 0 := by
    intro ρ v
    have hnil : pending sc v ρ (fun _ => []) (g.topDown r) = 0 := by
      unfold pending
      apply List.sum_eq_zero
      intro x hx
      obtain ⟨n, _, rfl⟩ := List.mem_map.1 hx
      simp
    rw [pending_pushAll sc v ρ hO.nodup (by
      intro p hp'
      rw [List.mem_singleton] at hp'; subst hp'
      exact hrT), hnil]
    simp [wanted, covers, and_comm]
  simp only at hval
  rw [hworth] at hval
  simp only [chance, sampleR, circuitVars_eq hL.wf hL.graded.acyclic hs hL.root, hL.root, bindE_pure_ok]
  rw [← mul_one (f r ^ amount)]
  have h1 : inside (allowed E) ([] : List Write) = 1 := by simp [inside]
  rw [h1] at hval
  rw [← hval]
  refine hon _ _ ?_
  rintro _ ⟨s', rfl, hw⟩
  simp only [Rand.pure, okOr, inside_eq]
  have hw' : ∀ ρ v, writesTo s'.2 ρ v = if ρ < amount ∧ v ∈ sc r then 1 else 0 := by
    intro ρ v
    rw [hw, hcount]; simp [writesTo]
  have := rowIn_iff hE.keys hw'
  by_cases h : ∀ w ∈ s'.2, w.value ∈ allowed E w.var
  · rw [if_pos ⟨_, rfl, this.2 h⟩, if_pos h]
  · rw [if_neg, if_neg h]
    rintro ⟨log, hlog, hall⟩
    injection hlog with hlog; subst hlog
    exact h (this.1 hall)

/-- A single sample has the law of the circuit. -/
theorem C63_single_sample {g : Circuit} {r : Node} (hL : Layered g r) {sc : Node → Finset Var} (hs : Scoped g sc)
    (hde : Decomposable g sc) (hn : NormalizedSums g) (hv : ∀ n d, g.kind? n = some (.leaf d) → d.Valid)
    (hln : ∀ n d, g.kind? n = some (.leaf d) → d.Normalized) {dom : Var → VSet} (hdom : DomainFor g dom) {vs : Finset Var}
    (hvs : g.circuitVars = .ok vs) {E : SimpleEvent} (hE : EventFor g vs E) (m : Mem ℝ) :
    ∃ p, (g.probability m dom [E]).2 = .ok p ∧ chance (g.sampleR 1) (fun log => RowIn vs E log 0) = p := by
  obtain ⟨p, h1, h2⟩ := C63_all_rows_partial hL hs hde hn hv hln hdom hvs hE 1 m
  refine ⟨p, h1, ?_⟩
  rw [pow_one] at h2
  rw [← h2]
  congr 1
  funext log
  simp

/-- **C63, the full statement**: every row of the array has the law of the circuit. -/
def C63_full : Prop := ∀ (g : Circuit) (r : Node) (sc : Node → Finset Var) (dom : Var → VSet) (vs : Finset Var) (E : SimpleEvent)
  (amount ρ : ℕ) (p : ℝ), Layered g r → Scoped g sc → Decomposable g sc → NormalizedSums g →
  (∀ n d, g.kind? n = some (.leaf d) → d.Valid) → (∀ n d, g.kind? n = some (.leaf d) → d.Normalized) → DomainFor g dom →
  g.circuitVars = .ok vs → EventFor g vs E → ρ < amount → (g.probability freshMem dom [E]).2 = .ok p →
  chance (g.sampleR amount) (fun log => RowIn vs E log ρ) = p

/-! ### Three samples of a mixture of two values -/

/-- What a leaf writes that always samples `x`. -/
noncomputable def block (v : Var) (n : Node) (x : ℝ) (q : ℕ × ℕ) : List Write :=
  (List.replicate q.2 x).zipIdx.map fun y => ⟨q.1 + y.2, v, n, y.1⟩

theorem leafValues_dirac (v : Var) (x c : ℝ) : ∀ k f, leafValues (.dirac v x c) k f = f (List.replicate k x)
  | 0, f => rfl
  | k + 1, f => by
    unfold leafValues
    simp only [leafLaw, leafValues_dirac v x c k]
    rw [MeasureTheory.integral_dirac]
    rfl

theorem leafWritesR_dirac {rows : ℕ} (n : Node) (v : Var) (x c : ℝ) {q : ℕ × ℕ} (h : q.1 + q.2 ≤ rows) (f : Except PyErr (List Write) → ℝ) :
    leafWritesR rows n (.dirac v x c) [q] f = f (.ok (block v n x q)) := by
  unfold leafWritesR
  rw [if_pos ⟨trivial, h⟩, leafValues_dirac]
  simp [leafWritesR, bindE, Rand.pure, block, Leaf.var]

theorem multinomial_three (p q : ℝ) (F : List ℕ → ℝ) : multinomial [p, q] 3 F =
    p ^ 3 * F [3, 0] + 3 * p ^ 2 * q * F [2, 1] + 3 * p * q ^ 2 * F [1, 2] + q ^ 3 * F [0, 3] := by
  simp [multinomial, categorical, Rand.pure, List.modify]
  ring

theorem shuffle_two (F : List ℕ → ℝ) : shuffle [0, 1] F = (F [0, 1] + F [1, 0]) / 2 := by
  unfold shuffle
  rw [((List.permutations_perm_permutations' [0, 1]).map F).sum_eq, List.length_permutations]
  simp [List.permutations']

/-- Three rows requested from a sum unit with two subcircuits. -/
theorem sumRequestsR_three {g : Circuit} {n a b : Node} {ws : List LogP} {p q : ℝ} (hs : g.succ n = [a, b]) (hw : ws.map LogP.exp = [p, q])
    (hp : pvalsOK ws) (F : Except PyErr (List (Node × ℕ × ℕ)) → ℝ) :
    g.sumRequestsR n ws [(0, 3)] F =
      (p ^ 3 * (F (.ok [(a, 0, 3), (b, 3, 0)]) + F (.ok [(b, 0, 0), (a, 0, 3)])) +
       3 * p ^ 2 * q * (F (.ok [(a, 0, 2), (b, 2, 1)]) + F (.ok [(b, 0, 1), (a, 1, 2)])) +
       3 * p * q ^ 2 * (F (.ok [(a, 0, 1), (b, 1, 2)]) + F (.ok [(b, 0, 2), (a, 2, 1)])) +
       q ^ 3 * (F (.ok [(a, 0, 0), (b, 0, 3)]) + F (.ok [(b, 0, 3), (a, 3, 0)]))) / 2 := by
  unfold sumRequestsR
  rw [if_pos hp, hw, multinomial_three, hs]
  have : List.range [a, b].length = [0, 1] := rfl
  simp only [this, shuffle_two]
  simp [distribute, bind, Except.bind, bindE, Rand.pure, sumRequestsR]
  ring

theorem cell_append (A B : List Write) (ρ : ℕ) (v : Var) : cell (A ++ B) ρ v = (cell B ρ v).or (cell A ρ v) := by
  unfold cell
  rw [List.filter_append, List.getLast?_append]
  cases (B.filter fun w => w.row == ρ && w.var == v).getLast? <;> simp

theorem cell_block (v u : Var) (n : Node) (x : ℝ) (q : ℕ × ℕ) (ρ : ℕ) :
    cell (block v n x q) ρ u = if u = v ∧ covers ρ q = true then some x else none := by
  have h := writesTo_zipIdx q.1 n v u ρ (List.replicate q.2 x)
  have hall : ∀ w ∈ block v n x q, w.value = x := by
    intro w hw
    obtain ⟨y, hy, rfl⟩ := List.mem_map.1 hw
    exact List.eq_of_mem_replicate (zipIdx_fst_mem hy)
  unfold cell
  rw [writesTo, List.countP_eq_length_filter, List.length_replicate] at h
  by_cases hu : u = v
  · rw [if_pos hu] at h
    by_cases hc : covers ρ q = true
    · rw [if_pos hc] at h
      obtain ⟨w, hw⟩ := List.length_eq_one_iff.1 h
      have hm : w ∈ block v n x q := (List.mem_filter.1 (by rw [block, hw]; simp)).1
      rw [block, hw, if_pos ⟨hu, hc⟩]
      simp [hall w hm]
    · rw [if_neg hc] at h
      rw [block, List.length_eq_zero_iff.1 h, if_neg fun h => hc h.2]; rfl
  · rw [if_neg hu] at h
    rw [block, List.length_eq_zero_iff.1 h, if_neg fun h => hu h.1]; rfl

/-- A product of two mixtures: the variables `0` and `1` are independent, each is `0` with probability `1/3` and `1` otherwise. -/
noncomputable def twoMix : Circuit where
  nodes := [(0, .prod), (1, .sum), (2, .sum), (3, .leaf (.dirac 0 0 1)), (4, .leaf (.dirac 0 1 1)),
    (5, .leaf (.dirac 1 0 1)), (6, .leaf (.dirac 1 1 1))]
  edges := [⟨0, 1, none⟩, ⟨0, 2, none⟩, ⟨1, 3, Ex.lw (1 / 3)⟩, ⟨1, 4, Ex.lw (2 / 3)⟩, ⟨2, 5, Ex.lw (1 / 3)⟩, ⟨2, 6, Ex.lw (2 / 3)⟩]

def twoMixScope : Node → Finset Var := fun n =>
  if n = 0 then {0, 1} else if n = 1 ∨ n = 3 ∨ n = 4 then {0} else {1}

theorem twoMix_layered : Layered twoMix 0 where
  wf := ⟨by decide, by decide, by simp [twoMix, ids], by simp [twoMix, ids]⟩
  graded := ⟨fun n => if n = 0 then 0 else if n ≤ 2 then 1 else 2, by simp [twoMix]⟩
  leaves := Ex.leafTerminal_of (by simp [twoMix, succ, outEdges])
  weighted := Ex.weighted_of (by simp [twoMix, outEdges, Ex.lw])
  root := rfl

theorem twoMix_scoped : Scoped twoMix twoMixScope := Ex.scoped_of
  (by simp [twoMix, twoMixScope, Leaf.var])
  (by
    have h1 : twoMix.succ 1 = [3, 4] := rfl
    have h2 : twoMix.succ 2 = [5, 6] := rfl
    simp [twoMix] at h1 h2 ⊢
    simp [h1, h2, twoMixScope])
  (by
    have h1 : twoMix.succ 0 = [1, 2] := rfl
    simp [twoMix] at h1 ⊢
    simp [h1, twoMixScope])

theorem twoMix_decomposable : Decomposable twoMix twoMixScope := Ex.decomposable_of
  (by simp [twoMix, twoMixScope, succ, outEdges])

theorem twoMix_normalized : NormalizedSums twoMix := Ex.normalized_of (by
  have h1 : ∀ a b, linWeight ⟨a, b, Ex.lw (1 / 3)⟩ = 1 / 3 := Ex.linWeight_lw (by norm_num)
  have h2 : ∀ a b, linWeight ⟨a, b, Ex.lw (2 / 3)⟩ = 2 / 3 := Ex.linWeight_lw (by norm_num)
  simp [twoMix, outEdges] at h1 h2 ⊢
  simp [h1, h2]; norm_num)

theorem twoMix_valid : ∀ n d, twoMix.kind? n = some (.leaf d) → d.Valid := Ex.valid_of (by simp [twoMix, Leaf.Valid])

theorem twoMix_leavesNormalized : ∀ n d, twoMix.kind? n = some (.leaf d) → d.Normalized := fun n d h =>
  Ex.forall_kind (P := fun _ k => ∀ d, k = .leaf d → d.Normalized) (by simp [twoMix, Leaf.Normalized]) n _ h d rfl

/-- The possible divisions of three rows among two subcircuits with weights `1/3` and `2/3`, with their probabilities. -/
noncomputable def divisions : List (ℝ × (ℕ × ℕ) × (ℕ × ℕ)) :=
  [(1 / 54, (0, 3), (3, 0)), (1 / 54, (0, 3), (0, 0)), (6 / 54, (0, 2), (2, 1)), (6 / 54, (1, 2), (0, 1)),
   (12 / 54, (0, 1), (1, 2)), (12 / 54, (2, 1), (0, 2)), (8 / 54, (0, 0), (0, 3)), (8 / 54, (3, 0), (0, 3))]

theorem twoMix_sum {n a b : Node} (hk : twoMix.kind? n = some .sum) (hne : a ≠ b)
    (ho : twoMix.outEdges n = [⟨n, a, Ex.lw (1 / 3)⟩, ⟨n, b, Ex.lw (2 / 3)⟩]) {s : Requests × List Write} (hq : s.1 n = [(0, 3)])
    (ha : s.1 a = []) (hb : s.1 b = []) {F : Except PyErr (Requests × List Write) → ℝ} {G : (ℕ × ℕ) × (ℕ × ℕ) → ℝ}
    (hF : ∀ D ∈ divisions, ∀ Q : Requests, Q a = [D.2.1] → Q b = [D.2.2] → (∀ m, m ≠ a → m ≠ b → Q m = s.1 m) → F (.ok (Q, s.2)) = G D.2) :
    twoMix.sampleUnitR 3 s n F = (divisions.map fun D => D.1 * G D.2).sum := by
  obtain ⟨ws, hws, hexp⟩ := logWeights_eq (twoMix_layered.weighted n hk)
  have hpv := pvalsOK_of hexp (twoMix_normalized n hk)
  have hexp' : ws.map LogP.exp = [1 / 3, 2 / 3] := by
    rw [hexp, ho]
    simp only [List.map_cons, List.map_nil, Ex.linWeight_lw (show (0 : ℝ) < 1 / 3 by norm_num),
      Ex.linWeight_lw (show (0 : ℝ) < 2 / 3 by norm_num)]
  have hsucc : twoMix.succ n = [a, b] := by simp [succ, ho]
  simp only [sampleUnitR, hk, hws, bindE_pure_ok, hq]
  have key : ∀ (P : List (Node × ℕ × ℕ)) (D), D ∈ divisions → (P = [(a, D.2.1), (b, D.2.2)] ∨ P = [(b, D.2.2), (a, D.2.1)]) →
      F (.ok (pushAll s.1 P, s.2)) = G D.2 := by
    intro P D hD hP
    refine hF D hD _ ?_ ?_ ?_
    · rcases hP with rfl | rfl <;> simp [pushAll, ha, hne.symm]
    · rcases hP with rfl | rfl <;> simp [pushAll, hb, hne]
    · intro m hma hmb
      rcases hP with rfl | rfl <;> simp [pushAll, Ne.symm hma, Ne.symm hmb]
  simp only [bindE]
  rw [sumRequestsR_three hsucc hexp' hpv]
  simp only [Rand.pure]
  rw [key _ (1 / 54, (0, 3), (3, 0)) (by simp [divisions]) (.inl rfl), key _ (1 / 54, (0, 3), (0, 0)) (by simp [divisions]) (.inr rfl),
    key _ (6 / 54, (0, 2), (2, 1)) (by simp [divisions]) (.inl rfl), key _ (6 / 54, (1, 2), (0, 1)) (by simp [divisions]) (.inr rfl),
    key _ (12 / 54, (0, 1), (1, 2)) (by simp [divisions]) (.inl rfl), key _ (12 / 54, (2, 1), (0, 2)) (by simp [divisions]) (.inr rfl),
    key _ (8 / 54, (0, 0), (0, 3)) (by simp [divisions]) (.inl rfl), key _ (8 / 54, (3, 0), (0, 3)) (by simp [divisions]) (.inr rfl)]
  simp only [divisions, List.map_cons, List.map_nil, List.sum_cons, List.sum_nil]
  ring

/-- The written values for given divisions. -/
noncomputable def twoMixLog (D D' : (ℕ × ℕ) × (ℕ × ℕ)) : List Write :=
  block 0 3 0 D.1 ++ block 0 4 1 D.2 ++ block 1 5 0 D'.1 ++ block 1 6 1 D'.2

theorem divisions_fit : ∀ D ∈ divisions, D.2.1.1 + D.2.1.2 ≤ 3 ∧ D.2.2.1 + D.2.2.2 ≤ 3 := by
  simp [divisions]

theorem bindE_apply {α β : Type} (d : Rand (Except PyErr α)) (k : α → Rand (Except PyErr β)) (F : Except PyErr β → ℝ) :
    bindE d k F = d fun res => match res with
      | .ok a => k a F
      | .error e => F (.error e) := rfl

theorem twoMix_kinds : twoMix.kind? 0 = some .prod ∧ twoMix.kind? 1 = some .sum ∧ twoMix.kind? 2 = some .sum ∧
    twoMix.kind? 3 = some (.leaf (.dirac 0 0 1)) ∧ twoMix.kind? 4 = some (.leaf (.dirac 0 1 1)) ∧
    twoMix.kind? 5 = some (.leaf (.dirac 1 0 1)) ∧ twoMix.kind? 6 = some (.leaf (.dirac 1 1 1)) := by
  refine ⟨?_, ?_, ?_, ?_, ?_, ?_, ?_⟩ <;> rfl

/-- A leaf of the example is visited. -/
theorem twoMix_leaf {n : Node} {v : Var} {x c : ℝ} (hk : twoMix.kind? n = some (.leaf (.dirac v x c))) {s : Requests × List Write}
    {q : ℕ × ℕ} (hq : s.1 n = [q]) (hfit : q.1 + q.2 ≤ 3) : twoMix.sampleUnitR 3 s n = Rand.pure (.ok (s.1, s.2 ++ block v n x q)) := by
  funext F
  simp only [sampleUnitR, hk, hq, bindE_apply]
  rw [leafWritesR_dirac n v x c hfit]

theorem twoMix_leaves {Q : Requests} {D D' : (ℕ × ℕ) × (ℕ × ℕ)} (q3 : Q 3 = [D.1]) (q4 : Q 4 = [D.2]) (q5 : Q 5 = [D'.1]) (q6 : Q 6 = [D'.2])
    (f1 : D.1.1 + D.1.2 ≤ 3 ∧ D.2.1 + D.2.2 ≤ 3) (f2 : D'.1.1 + D'.1.2 ≤ 3 ∧ D'.2.1 + D'.2.2 ≤ 3) :
    twoMix.samplePassR 3 [3, 4, 5, 6] (Q, []) = Rand.pure (.ok (Q, twoMixLog D D')) := by
  obtain ⟨-, -, -, k3, k4, k5, k6⟩ := twoMix_kinds
  rw [samplePassR, twoMix_leaf k3 q3 f1.1, bindE_pure_ok, samplePassR, twoMix_leaf k4 q4 f1.2, bindE_pure_ok,
    samplePassR, twoMix_leaf k5 q5 f2.1, bindE_pure_ok, samplePassR, twoMix_leaf k6 q6 f2.2, bindE_pure_ok, samplePassR]
  simp [twoMixLog]

theorem twoMix_pass {Q : Requests} (h1 : Q 1 = [(0, 3)]) (h2 : Q 2 = [(0, 3)]) (h3 : Q 3 = []) (h4 : Q 4 = []) (h5 : Q 5 = [])
    (h6 : Q 6 = []) {F : Except PyErr (Requests × List Write) → ℝ} {G : Except PyErr (List Write) → ℝ}
    (hFG : ∀ Q log, F (.ok (Q, log)) = G (.ok log)) :
    twoMix.samplePassR 3 [1, 2, 3, 4, 5, 6] (Q, []) F =
      (divisions.map fun D => D.1 * (divisions.map fun D' => D'.1 * G (.ok (twoMixLog D.2 D'.2))).sum).sum := by
  obtain ⟨-, k1, k2, -⟩ := twoMix_kinds
  rw [samplePassR, bindE_apply]
  refine twoMix_sum (a := 3) (b := 4) k1 (by decide) (by simp [twoMix, outEdges]) (s := (Q, [])) h1 h3 h4
    (G := fun D => (divisions.map fun D' => D'.1 * G (.ok (twoMixLog D D'.2))).sum) ?_
  intro D hD Q' q3 q4 qo
  simp only
  rw [samplePassR, bindE_apply]
  refine twoMix_sum (a := 5) (b := 6) k2 (by decide) (by simp [twoMix, outEdges]) (s := (Q', [])) ((qo 2 (by decide) (by decide)).trans h2)
    ((qo 5 (by decide) (by decide)).trans h5) ((qo 6 (by decide) (by decide)).trans h6) (G := fun D' => G (.ok (twoMixLog D.2 D'))) ?_
  intro D' hD' Q'' q5 q6 qo'
  simp only
  rw [twoMix_leaves ((qo' 3 (by decide) (by decide)).trans q3) ((qo' 4 (by decide) (by decide)).trans q4) q5 q6 (divisions_fit D hD)
    (divisions_fit D' hD')]
  exact hFG _ _

theorem twoMix_topDown : twoMix.topDown 0 = [0, 1, 2, 3, 4, 5, 6] := by decide

/-- The expected value of a function of the array for three samples. -/
theorem twoMix_three (F : Except PyErr (List Write) → ℝ) : twoMix.sampleR 3 F =
    (divisions.map fun D => D.1 * (divisions.map fun D' => D'.1 * F (.ok (twoMixLog D.2 D'.2))).sum).sum := by
  rw [sampleR, circuitVars_eq twoMix_layered.wf twoMix_layered.graded.acyclic twoMix_scoped twoMix_layered.root, bindE_pure_ok,
    twoMix_layered.root, bindE_pure_ok, twoMix_topDown]
  have h0 : ∀ s, twoMix.sampleUnitR 3 s 0 = Rand.pure (.ok (pushAll s.1 ((s.1 0).flatMap fun q => [(1, q), (2, q)]), s.2)) := by
    intro s
    have : twoMix.succ 0 = [1, 2] := rfl
    rw [sampleUnitR, twoMix_kinds.1]
    simp only [prodRequests, this, List.map_cons, List.map_nil]
  rw [samplePassR, h0, bindE_pure_ok, bindE_apply]
  exact twoMix_pass (by simp [pushAll]) (by simp [pushAll]) (by simp [pushAll]) (by simp [pushAll]) (by simp [pushAll])
    (by simp [pushAll]) (fun _ _ => rfl)

/-- Both variables are `0`. -/
noncomputable def bothZero : SimpleEvent := [(0, .interval [⟨0, 0, .closed, .closed⟩]), (1, .interval [⟨0, 0, .closed, .closed⟩])]

theorem interval_zero (t : ℝ) : (VSet.interval [⟨0, 0, .closed, .closed⟩]).Mem t ↔ t = 0 := by
  simp only [VSet.Mem, List.mem_singleton, exists_eq_left, SimpleInterval.Mem, SimpleInterval.leftOK, SimpleInterval.rightOK]
  constructor
  · rintro ⟨h1, h2⟩
    exact le_antisymm (EReal.coe_le_coe_iff.1 h2) (EReal.coe_le_coe_iff.1 h1)
  · rintro rfl
    exact ⟨le_refl _, le_refl _⟩

theorem bothZero_mem (x : Var → ℝ) : bothZero.Mem x ↔ x 0 = 0 ∧ x 1 = 0 := by
  simp [bothZero, SimpleEvent.Mem, interval_zero]

theorem rowIn_twoMix (D D' : (ℕ × ℕ) × (ℕ × ℕ)) (ρ : ℕ) : RowIn {0, 1} bothZero (twoMixLog D D') ρ ↔
    (covers ρ D.1 = true ∧ covers ρ D.2 = false) ∧ (covers ρ D'.1 = true ∧ covers ρ D'.2 = false) := by
  have h0 : cell (twoMixLog D D') ρ 0 = if covers ρ D.2 = true then some 1 else if covers ρ D.1 = true then some 0 else none := by
    simp only [twoMixLog, cell_append, cell_block]
    by_cases h1 : covers ρ D.2 = true <;> by_cases h2 : covers ρ D.1 = true <;> simp [h1, h2]
  have h1 : cell (twoMixLog D D') ρ 1 = if covers ρ D'.2 = true then some 1 else if covers ρ D'.1 = true then some 0 else none := by
    simp only [twoMixLog, cell_append, cell_block]
    by_cases h1 : covers ρ D'.2 = true <;> by_cases h2 : covers ρ D'.1 = true <;> simp [h1, h2]
  unfold RowIn
  simp only [bothZero_mem, Finset.mem_insert, Finset.mem_singleton, forall_eq_or_imp, forall_eq, h0, h1]
  constructor
  · rintro ⟨x, ⟨a, b⟩, c, d⟩
    rw [c] at a; rw [d] at b
    constructor
    · by_cases h1 : covers ρ D.2 = true
      · simp [h1] at a
      · by_cases h2 : covers ρ D.1 = true
        · exact ⟨h2, by simpa using h1⟩
        · simp [h1, h2] at a
    · by_cases h1 : covers ρ D'.2 = true
      · simp [h1] at b
      · by_cases h2 : covers ρ D'.1 = true
        · exact ⟨h2, by simpa using h1⟩
        · simp [h1, h2] at b
  · rintro ⟨⟨a, b⟩, c, d⟩
    exact ⟨fun _ => 0, by simp [a, b, c, d]⟩

theorem twoMix_rows : chance (twoMix.sampleR 3) (fun log => RowIn {0, 1} bothZero log 0) = 100 / 729 ∧
    chance (twoMix.sampleR 3) (fun log => RowIn {0, 1} bothZero log 1) = 49 / 729 ∧
    chance (twoMix.sampleR 3) (fun log => RowIn {0, 1} bothZero log 2) = 100 / 729 := by
  have key : ∀ ρ, chance (twoMix.sampleR 3) (fun log => RowIn {0, 1} bothZero log ρ) =
      (divisions.map fun D => D.1 * (divisions.map fun D' => D'.1 *
        if (covers ρ D.2.1 = true ∧ covers ρ D.2.2 = false) ∧ (covers ρ D'.2.1 = true ∧ covers ρ D'.2.2 = false) then 1 else 0).sum).sum := by
    intro ρ
    rw [chance, twoMix_three]
    simp only [Except.ok.injEq, exists_eq_left', rowIn_twoMix]
  refine ⟨?_, ?_, ?_⟩ <;> rw [key] <;> norm_num [divisions, covers]

theorem twoMix_vars : twoMix.circuitVars = .ok {0, 1} :=
  circuitVars_eq twoMix_layered.wf twoMix_layered.graded.acyclic twoMix_scoped twoMix_layered.root

theorem twoMix_domain : DomainFor twoMix (fun _ => realLine) := by
  refine ⟨fun _ => realLine_disjoint, fun n d h => ?_, fun n d h => by simp [realLine_toSet]⟩
  exact Ex.forall_kind (g := twoMix) (P := fun n k => ∀ d, k = .leaf d → Fits d realLine) (by simp [twoMix, Fits, realLine]) n _ h d rfl

theorem bothZero_for : EventFor twoMix {0, 1} bothZero := by
  refine ⟨by simp [bothZero, SimpleEvent.keys], by simp [bothZero, SimpleEvent.keys], ?_, ?_⟩
  · have : (VSet.interval [⟨0, 0, .closed, .closed⟩]).Disjoint := by
      refine ⟨by simp, ?_⟩
      intro i hi
      simp only [List.mem_singleton] at hi
      subst hi
      rintro (h | ⟨-, h | h⟩)
      · exact absurd h (lt_irrefl _)
      · exact absurd h (by simp)
      · exact absurd h (by simp)
    intro p hp
    simp only [bothZero, List.mem_cons, List.not_mem_nil, or_false] at hp
    rcases hp with rfl | rfl <;> exact this
  · intro p hp n d h hd
    have hf : Fits d (.interval [⟨0, 0, .closed, .closed⟩]) :=
      Ex.forall_kind (g := twoMix) (P := fun n k => ∀ d, k = .leaf d → Fits d (.interval [⟨0, 0, .closed, .closed⟩]))
        (by simp [twoMix, Fits]) n _ h d rfl
    simp only [bothZero, List.mem_cons, List.not_mem_nil, or_false] at hp
    rcases hp with rfl | rfl <;> exact hf

theorem twoMix_probability : (twoMix.probability freshMem (fun _ => realLine) [bothZero]).2 = .ok (1 / 9) := by
  have hz : ∀ v, v = 0 ∨ v = 1 → ∀ t : ℝ, t ∈ allowed bothZero v ↔ t = 0 := by
    intro v hv t
    have h : (VSet.interval [⟨0, 0, .closed, .closed⟩]).Mem t ↔ t = 0 := interval_zero t
    rcases hv with rfl | rfl <;> simp [allowed, bothZero, h]
  have hmeas : ∀ v, MeasurableSet (allowed bothZero v) := measurableSet_allowed bothZero
  have hval : ∀ v, v = 0 ∨ v = 1 → ∀ x c, (leafLaw (.dirac v x c)).real (allowed bothZero v) = if x = 0 then 1 else 0 := by
    intro v hv x c
    rw [leafLaw, MeasureTheory.measureReal_def, MeasureTheory.Measure.dirac_apply' _ (hmeas v)]
    by_cases hx : x = 0
    · have : x ∈ allowed bothZero v := (hz v hv x).2 hx
      simp [hx]
      rw [← hx]; simp [this]
    · have : x ∉ allowed bothZero v := fun h => hx ((hz v hv x).1 h)
      simp [this, hx]
  have hf : CircuitValue twoMix (fun d => (leafLaw d).real (allowed bothZero d.var))
      (fun n => if n = 0 then 1 / 9 else if n = 1 ∨ n = 2 then 1 / 3 else if n = 3 ∨ n = 5 then 1 else 0) := by
    refine Ex.value_of ?_ ?_ ?_
    · simp [twoMix, Leaf.var, hval]
    · have h1 : ∀ a b, linWeight ⟨a, b, Ex.lw (1 / 3)⟩ = 1 / 3 := Ex.linWeight_lw (by norm_num)
      have h2 : ∀ a b, linWeight ⟨a, b, Ex.lw (2 / 3)⟩ = 2 / 3 := Ex.linWeight_lw (by norm_num)
      simp [twoMix, outEdges] at h1 h2 ⊢
      simp [h1]
    · simp [twoMix, outEdges]
      norm_num
  have := probability_eq twoMix_layered twoMix_scoped twoMix_valid twoMix_domain (Es := [bothZero])
    (by simpa [twoMixScope] using bothZero_for) (p := fun _ n => if n = 0 then 1 / 9 else if n = 1 ∨ n = 2 then 1 / 3 else if n = 3 ∨ n = 5 then 1 else 0)
    (by simpa using hf) freshMem
  simpa using this

/-- The full statement is false: of three samples of a product of two mixtures the first one is distributed differently (`100/729` instead
of `1/9`). -/
theorem C63_full_false : ¬ C63_full := by
  intro h
  have := h twoMix 0 twoMixScope (fun _ => realLine) {0, 1} bothZero 3 0 (1 / 9) twoMix_layered twoMix_scoped twoMix_decomposable
    twoMix_normalized twoMix_valid twoMix_leavesNormalized twoMix_domain twoMix_vars bothZero_for (by norm_num) twoMix_probability
  rw [twoMix_rows.1] at this
  norm_num at this

/-- It does not help to forget the order of the rows: the expected number of rows in an event is not `amount` times its probability
(`249/729` instead of `243/729` here). -/
theorem C63_average_false : ¬ ∀ (g : Circuit) (r : Node) (sc : Node → Finset Var) (dom : Var → VSet) (vs : Finset Var) (E : SimpleEvent)
    (amount : ℕ) (p : ℝ), Layered g r → Scoped g sc → Decomposable g sc → NormalizedSums g →
    (∀ n d, g.kind? n = some (.leaf d) → d.Valid) → (∀ n d, g.kind? n = some (.leaf d) → d.Normalized) → DomainFor g dom →
    g.circuitVars = .ok vs → EventFor g vs E → (g.probability freshMem dom [E]).2 = .ok p →
    ((List.range amount).map fun ρ => chance (g.sampleR amount) (fun log => RowIn vs E log ρ)).sum = amount * p := by
  intro h
  have := h twoMix 0 twoMixScope (fun _ => realLine) {0, 1} bothZero 3 (1 / 9) twoMix_layered twoMix_scoped twoMix_decomposable
    twoMix_normalized twoMix_valid twoMix_leavesNormalized twoMix_domain twoMix_vars bothZero_for twoMix_probability
  have hr : List.range 3 = [0, 1, 2] := rfl
  rw [hr] at this
  simp only [List.map_cons, List.map_nil, List.sum_cons, List.sum_nil, twoMix_rows.1, twoMix_rows.2.1, twoMix_rows.2.2] at this
  norm_num at this

/-- The hypotheses of `C63_all_rows_partial` are met by `twoMix`: all of five samples are `(0, 0)` with probability `9⁻⁵`. -/
example : chance (twoMix.sampleR 5) (fun log => ∀ ρ < 5, RowIn {0, 1} bothZero log ρ) = (1 / 9) ^ 5 := by
  obtain ⟨p, h1, h2⟩ := C63_all_rows_partial twoMix_layered twoMix_scoped twoMix_decomposable twoMix_normalized twoMix_valid
    twoMix_leavesNormalized twoMix_domain twoMix_vars bothZero_for 5 freshMem
  rw [twoMix_probability] at h1; injection h1 with h1
  rw [h2, h1]

end PM.Props
