import Verif.BN.Assembly
import Verif.Props.Queries

/-!
# C44: the circuit of a Bayesian network

`jointProb net x` is the product of the root's probability and all conditional probabilities at the assignment `x`.
-/

namespace PM.Props
open PM PM.BN PM.BN.Spec Graph PM.Spec
open PM.Leaf (lookup)

/-- C44: `as_probabilistic_circuit` gives every assignment the product of the root probability and all conditional probabilities. -/
def C44_full : Prop :=
  ∀ (net : Network) (sizes : ℕ → ℕ), Valid net → Stochastic net → Domains net sizes →
    ∃ G, asProbabilisticCircuit net sizes = .ok G ∧
      ∀ (x : ℕ → ℤ) (m : Mem LogP), G.likelihood m (fun v => ((x v : ℤ) : ℝ)) = .ok (jointProb net x)

/-- What the code computes for a network with at least one table in which every state of every node has a positive probability: the
circuit is a well-formed smooth decomposable circuit over the variables of all nodes, and its likelihood at `x` is the product of the
probabilities not at the states `x n` but at the positions of the states in the messages of the forward pass, whose
keys `K n` are a permutation of the states. -/
theorem C44_positions {net : Network} {sizes : ℕ → ℕ} (hv : Valid net) (hs : Stochastic net) (hd : Domains net sizes)
    (ha : AllPossible net sizes) (hne : net.nodes ≠ []) :
    ∃ (K : ℕ → List ℤ) (G : Circuit) (u : Node) (sc : Node → Finset Var),
      (∀ results, forwardPass net (fun n => states (sizes n)) = .ok results → ∀ n < net.nodes.length + 1,
        ∃ m p, results[n]? = some (some m, p) ∧ m.map Prod.fst = K n ∧ (K n).Perm (states (sizes n))) ∧
      asProbabilisticCircuit net sizes = .ok G ∧ Layered G u ∧ Scoped G sc ∧ Decomposable G sc ∧
      (∀ v, v ∈ sc u ↔ v ≤ net.nodes.length) ∧
      ∀ (x : ℕ → ℤ) (m : Mem LogP), G.likelihood m (fun v => ((x v : ℤ) : ℝ)) =
        .ok (jointProb net fun n => ((K n).idxOf (x n) : ℕ)) := by
  obtain ⟨K, G, u, V, F, h1, h2, h3, h4, h5, -, -⟩ := asProbabilisticCircuit_spec hv hs hd ha hne
  obtain ⟨sc, s1, s2, s3⟩ := h2.scope
  refine ⟨K, G, u, sc, ?_, h1, h2.layered, s1, s2, fun v => by rw [s3]; exact (h3 v).symm, ?_⟩
  · intro results hr n hn
    obtain ⟨results', ⟨a, p⟩, e1, e2, m, rfl, e4, e5⟩ := h5 n hn
    rw [hr] at e1
    injection e1 with e1
    subst e1
    exact ⟨m, p, e2, e4, e5⟩
  · intro x m
    obtain ⟨f, hf⟩ := exists_circuitValue h2.layered.graded.acyclic (fun d : Leaf => leafDensity d ((x d.var : ℤ) : ℝ))
    obtain ⟨L, _, _, _, hl⟩ := C01_loglikelihood h2.layered s1 h2.valid (fun v => ((x v : ℤ) : ℝ)) hf m
    rw [hl, h4 x f hf]
    rfl

theorem idxOf_states {k : ℕ} (x : ℤ) :
    (0 ≤ x ∧ x < k → (((states k).idxOf x : ℕ) : ℤ) = x) ∧ (¬ (0 ≤ x ∧ x < k) → (states k).idxOf x = k) := by
  constructor
  · intro h
    obtain ⟨i, hi, rfl⟩ := mem_states.1 (mem_states'.2 h)
    have hil : i < (states k).length := by rw [length_states]; exact hi
    have : (states k)[i] = (i : ℤ) := by simp [states]
    rw [← this, (nodup_states k).idxOf_getElem, this]
  · intro h
    rw [List.idxOf_eq_length_iff.2 fun h' => h (mem_states'.1 h'), length_states]

/-- What holds of C44: it is right if there is at least one table, every state of the root has a positive probability and, in every table, every
state has a positive probability under the first state of the parent (later rows may contain zeros).  Missing: other networks, for which
it is false (`C44_full_false`, `C44_single_node`). -/
theorem C44_joint_partial {net : Network} {sizes : ℕ → ℕ} (hv : Valid net) (hs : Stochastic net) (hd : Domains net sizes)
    (hf : FirstRowFull net sizes) (hne : net.nodes ≠ []) :
    ∃ (G : Circuit) (u : Node) (sc : Node → Finset Var),
      asProbabilisticCircuit net sizes = .ok G ∧ Layered G u ∧ Scoped G sc ∧ Decomposable G sc ∧
      (∀ v, v ∈ sc u ↔ v ≤ net.nodes.length) ∧
      ∀ (x : ℕ → ℤ) (m : Mem LogP), G.likelihood m (fun v => ((x v : ℤ) : ℝ)) = .ok (jointProb net x) := by
  have ha : AllPossible net sizes := ⟨hf.root, fun i nd hi t ht => ⟨0, hd.pos _, hf.rows i nd hi t ht⟩⟩
  obtain ⟨K, G, u, V, F, h1, h2, h3, h4, -, hK0, hK⟩ := asProbabilisticCircuit_spec hv hs hd ha hne
  obtain ⟨sc, s1, s2, s3⟩ := h2.scope
  have hKn : ∀ n, n < net.nodes.length + 1 → K n = states (sizes n) := by
    intro n hn
    cases n with
    | zero => exact hK0
    | succ i =>
      have hi : net.nodes[i]? = some net.nodes[i] := List.getElem?_eq_getElem (by omega)
      exact hK i _ hi (hf.rows i _ hi)
  refine ⟨G, u, sc, h1, h2.layered, s1, s2, fun v => by rw [s3]; exact (h3 v).symm, ?_⟩
  intro x m
  obtain ⟨f, hf'⟩ := exists_circuitValue h2.layered.graded.acyclic (fun d : Leaf => leafDensity d ((x d.var : ℤ) : ℝ))
  obtain ⟨L, _, _, _, hl⟩ := C01_loglikelihood h2.layered s1 h2.valid (fun v => ((x v : ℤ) : ℝ)) hf' m
  rw [hl, h4 x f hf']
  congr 1
  unfold jointProb
  have hdom : ∀ (p : TableNode × ℕ), p ∈ net.nodes.zipIdx → net.nodes[p.2]? = some p.1 := fun p hp =>
    List.mk_mem_zipIdx_iff_getElem?.1 hp
  by_cases hall : ∀ n < net.nodes.length + 1, 0 ≤ x n ∧ x n < sizes n
  · have hpos : ∀ n < net.nodes.length + 1, posIn K x n = x n := by
      intro n hn
      rw [posIn, hKn n hn]
      exact (idxOf_states (x n)).1 (hall n hn)
    rw [hpos 0 (by omega)]
    congr 2
    refine List.map_congr_left fun p hp => ?_
    have h5 := hdom p hp
    have h6 : p.2 < net.nodes.length := (List.getElem?_eq_some_iff.1 h5).1
    have h7 := hv.order _ _ h5
    rw [factorAt, hpos _ (by omega), hpos _ (by omega)]
  · push Not at hall
    obtain ⟨n, hn, hx⟩ := hall
    have hx' : ¬ (0 ≤ x n ∧ x n < sizes n) := fun h => absurd (hx h.1) (not_le.2 h.2)
    have hp : posIn K x n = (sizes n : ℤ) := by
      rw [posIn, hKn n hn, (idxOf_states (x n)).2 hx']
    cases n with
    | zero =>
      rw [hp, lookup_eq_zero fun h => hx' (hd.root _ h), lookup_eq_zero fun h => by have := hd.root _ h; omega]
      simp
    | succ i =>
      have hi : net.nodes[i]? = some net.nodes[i] := List.getElem?_eq_getElem (by omega)
      have hmem : (net.nodes[i], i) ∈ net.nodes.zipIdx := List.mk_mem_zipIdx_iff_getElem?.2 hi
      have hrows := hd.rows i _ hi
      have z1 : factorAt K x (net.nodes[i], i) = 0 := by
        rw [factorAt, hp]
        exact given_outside hrows _ (by omega)
      have z2 : given (net.nodes[i]).table (x (net.nodes[i]).parent) (x (i + 1)) = 0 := by
        unfold given
        cases h : (net.nodes[i]).table.find? fun p => decide (p.1 = x (net.nodes[i]).parent) with
        | none => rfl
        | some p => exact lookup_eq_zero fun h' => hx' (hrows p (List.mem_of_find?_eq_some h) _ h')
      have e1 : (net.nodes.zipIdx.map (factorAt K x)).prod = 0 :=
        List.prod_eq_zero (List.mem_map.2 ⟨_, hmem, z1⟩)
      have e2 : (net.nodes.zipIdx.map fun q => given q.1.table (x q.1.parent) (x (q.2 + 1))).prod = 0 :=
        List.prod_eq_zero (List.mem_map.2 ⟨_, hmem, z2⟩)
      rw [e1, e2, mul_zero, mul_zero]

/-- A network of one node has no circuit. -/
theorem C44_single_node (root : List (ℤ × ℝ)) (sizes : ℕ → ℕ) :
    asProbabilisticCircuit ⟨root, []⟩ sizes = .error .notImplementedError := rfl

/-- The second node is the negation of the first. -/
noncomputable def negation : Network where
  root := [(0, 1/2), (1, 1/2)]
  nodes := [⟨0, [(0, [(0, 0), (1, 1)]), (1, [(0, 1), (1, 0)])]⟩]

theorem negation_valid : Valid negation where
  root := by constructor <;> simp [negation]
  rows := by
    simp only [negation, List.mem_cons, List.not_mem_nil, or_false, IsMass]
    rintro nd rfl r hr
    simp only [List.mem_cons, List.not_mem_nil, or_false] at hr
    rcases hr with rfl | rfl <;> simp
  order := by
    intro i nd h
    match i with
    | 0 => simp only [negation, List.getElem?_cons_zero, Option.some.injEq] at h; subst h; exact le_rfl
    | i + 1 => simp [negation] at h

theorem negation_stochastic : Stochastic negation where
  root := by simp [negation]; norm_num
  rows := by
    simp only [negation, List.mem_cons, List.not_mem_nil, or_false]
    rintro nd rfl r hr
    simp only [List.mem_cons, List.not_mem_nil, or_false] at hr
    rcases hr with rfl | rfl <;> norm_num

theorem negation_domains : Domains negation fun _ => 2 where
  pos := by simp
  root := by simp [negation]
  keys := by simp [negation]
  parents := by
    simp only [negation, List.mem_cons, List.not_mem_nil, or_false]
    rintro nd rfl s
    simp only [List.map_cons, List.map_nil, List.mem_cons, List.not_mem_nil, or_false]
    push_cast
    omega
  rows := by
    intro i nd h
    match i with
    | 0 =>
      simp only [negation, List.getElem?_cons_zero, Option.some.injEq] at h
      subst h
      intro r hr
      simp only [List.mem_cons, List.not_mem_nil, or_false] at hr
      rcases hr with rfl | rfl <;> simp
    | i + 1 => simp [negation] at h

theorem negation_possible : AllPossible negation fun _ => 2 where
  root := by
    intro t ht
    have : t = 0 ∨ t = 1 := by omega
    rcases this with rfl | rfl <;> simp [negation, lookup]
  rows := by
    intro i nd h
    match i with
    | 0 =>
      simp only [negation, List.getElem?_cons_zero, Option.some.injEq] at h
      subst h
      intro t ht
      have : t = 0 ∨ t = 1 := by omega
      rcases this with rfl | rfl
      · exact ⟨1, by norm_num, by simp [given, lookup]⟩
      · exact ⟨0, by norm_num, by simp [given, lookup]⟩
    | i + 1 => simp [negation] at h

/-- C44 fails: in the circuit of `negation` the assignment (0, 1), which has probability 1/2, has likelihood 0.  The message of the second
node lists state 1 first (`bayesian_network/distributions.py:88-89`), so its sum unit has the leaf of state 1 at position 0, and the
interaction term reads positions as states. -/
theorem C44_full_false : ¬ C44_full := by
  intro h
  obtain ⟨G, hG, hl⟩ := h negation (fun _ => 2) negation_valid negation_stochastic negation_domains
  obtain ⟨K, G', u, sc, hK, hG', -, -, -, -, hl'⟩ := C44_positions negation_valid negation_stochastic negation_domains
    negation_possible (by simp [negation])
  rw [hG] at hG'
  injection hG' with hG'
  subst hG'
  have hst : states 2 = [0, 1] := by simp [states, List.range_succ]
  have hrun : forwardPass negation (fun _ => states 2) =
      .ok [(some [(0, 1/2), (1, 1/2)], 1), (some [(1, 1/2), (0, 1/2)], 1)] := by
    rw [hst]
    norm_num [forwardPass, negation, passFrom, rootForward, conditionOn, tableForward, forwardLoop, row, lookup, accumulate,
      Dict.set, Leaf.normalizeProbs, bind, Except.bind]
  obtain ⟨m0, p0, a1, a2, -⟩ := hK _ hrun 0 (by simp [negation])
  obtain ⟨m1, p1, b1, b2, -⟩ := hK _ hrun 1 (by simp [negation])
  simp only [List.getElem?_cons_zero, List.getElem?_cons_succ, Option.some.injEq, Prod.mk.injEq] at a1 b1
  rw [← a1.1] at a2
  rw [← b1.1] at b2
  have e := (hl (fun n => (n : ℤ)) (fun _ => none)).symm.trans (hl' (fun n => (n : ℤ)) (fun _ => none))
  injection e with e
  have k0 : K 0 = [0, 1] := a2.symm
  have k1 : K 1 = [1, 0] := b2.symm
  have e1 : jointProb negation (fun n => (n : ℤ)) = 1/2 := by
    simp [jointProb, negation, lookup, given]
  have e2 : jointProb negation (fun n => (((K n).idxOf (n : ℤ) : ℕ) : ℤ)) = 0 := by
    simp [jointProb, negation, lookup, given, k0, k1]
  rw [e1, e2] at e
  norm_num at e

/-- Non-vacuity: a root with two children, one of which has a child; some probabilities are zero. -/
noncomputable def smallTree : Network where
  root := [(0, 1/4), (1, 3/4)]
  nodes := [⟨0, [(0, [(0, 1/2), (1, 1/4), (2, 1/4)]), (1, [(2, 1)])]⟩, ⟨0, [(0, [(0, 1/3), (1, 2/3)]), (1, [(0, 1)])]⟩,
    ⟨1, [(0, [(0, 1/2), (1, 1/2)]), (1, [(1, 1)]), (2, [(0, 1), (1, 0)])]⟩]

def treeSizes (n : ℕ) : ℕ := if n = 1 then 3 else 2

example : ∃ G, asProbabilisticCircuit smallTree treeSizes = .ok G ∧
    ∀ m, G.likelihood m (fun v => (([1, 2, 0, 0] : List ℤ).getD v 0 : ℝ)) = .ok (3/4) := by
  have hv : Valid smallTree := by
    refine ⟨by constructor <;> norm_num [smallTree], ?_, ?_⟩
    · simp only [smallTree, List.mem_cons, List.not_mem_nil, or_false, IsMass]
      rintro nd (rfl | rfl | rfl) r hr <;> simp only [List.mem_cons, List.not_mem_nil, or_false] at hr
      · rcases hr with rfl | rfl <;> norm_num
      · rcases hr with rfl | rfl <;> norm_num
      · rcases hr with rfl | rfl | rfl <;> norm_num
    · intro i nd h
      match i with
      | 0 | 1 | 2 => simp [smallTree] at h; subst h; simp
      | i + 3 => simp [smallTree] at h
  have hs : Stochastic smallTree := by
    refine ⟨by simp [smallTree]; norm_num, ?_⟩
    simp only [smallTree, List.mem_cons, List.not_mem_nil, or_false]
    rintro nd (rfl | rfl | rfl) r hr <;> simp only [List.mem_cons, List.not_mem_nil, or_false] at hr
    · rcases hr with rfl | rfl <;> norm_num
    · rcases hr with rfl | rfl <;> norm_num
    · rcases hr with rfl | rfl | rfl <;> norm_num
  have hd : Domains smallTree treeSizes := by
    refine ⟨fun n => by unfold treeSizes; split_ifs <;> norm_num, by simp [smallTree, treeSizes], by simp [smallTree], ?_, ?_⟩
    · simp only [smallTree, List.mem_cons, List.not_mem_nil, or_false]
      rintro nd (rfl | rfl | rfl) s <;> simp [treeSizes] <;> omega
    · intro i nd h
      match i with
      | 0 | 1 | 2 =>
        simp [smallTree] at h; subst h
        intro r hr t ht
        simp only [List.mem_cons, List.not_mem_nil, or_false] at hr
        rcases hr with rfl | rfl | rfl <;> simp at ht <;> simp [treeSizes] <;> omega
      | i + 3 => simp [smallTree] at h
  have hf : FirstRowFull smallTree treeSizes := by
    refine ⟨?_, ?_⟩
    · intro t ht
      simp only [treeSizes] at ht
      have : t = 0 ∨ t = 1 := by simp at ht; omega
      rcases this with rfl | rfl <;> simp [smallTree, lookup]
    · intro i nd h t ht
      match i with
      | 0 =>
        simp [smallTree] at h; subst h
        simp [treeSizes] at ht
        have : t = 0 ∨ t = 1 ∨ t = 2 := by omega
        rcases this with rfl | rfl | rfl <;> simp [given, lookup]
      | 1 | 2 =>
        simp [smallTree] at h; subst h
        simp [treeSizes] at ht
        have : t = 0 ∨ t = 1 := by omega
        rcases this with rfl | rfl <;> simp [given, lookup]
      | i + 3 => simp [smallTree] at h
  obtain ⟨G, u, sc, h1, -, -, -, -, h2⟩ := C44_joint_partial hv hs hd hf (by simp [smallTree])
  refine ⟨G, h1, fun m => ?_⟩
  rw [h2 (fun v => ([1, 2, 0, 0] : List ℤ).getD v 0)]
  congr 1
  simp [jointProb, smallTree, given, lookup]

end PM.Props
