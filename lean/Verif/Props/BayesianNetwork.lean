import Verif.BN.ForwardLemmas

/-!
# C45: the forward pass of a Bayesian network

`evidenceProb` is the sum of the path probabilities (root probability times conditional probabilities) over all states of a node
and its ancestors that the event allows.
-/

namespace PM.Props
open PM PM.BN PM.BN.Spec
open PM.Leaf (lookup)

/-- C45: after `forward_pass(event)` every node holds the conditional probability of its evidence given the evidence at its ancestors, and
the posterior of its states. -/
def C45_full : Prop :=
  ∀ (net : Network) (event : ℕ → List ℤ), Valid net → Stochastic net → Covers net event →
    ∃ results, forwardPass net event = .ok results ∧ ∀ n Ts ns, Lineage net n Ts ns → ∃ r, results[n]? = some r ∧
      RightProbability net.root event Ts ns r ∧ RightMessage net.root event Ts ns r

/-- What holds of C45.  The forward probability is right at a node if the evidence at each of its proper ancestors except the root is
equally likely under all states of the ancestor's parent (in particular: no evidence there); hence always at the root and its
children.  The message is right if this also holds for the node's own evidence.  Missing: evidence at inner nodes that tells the states
of their parent apart, for which the claim is false (`C45_full_false`). -/
theorem C45_forward_partial (net : Network) (event : ℕ → List ℤ) (hv : Valid net) (hc : Covers net event) :
    ∃ results, forwardPass net event = .ok results ∧ results.length = net.nodes.length + 1 ∧
      ∀ n Ts ns, Lineage net n Ts ns → ∃ r, results[n]? = some r ∧
        (AllUnselective event Ts.tail ns.tail → RightProbability net.root event Ts ns r) ∧
        (AllUnselective event Ts ns → RightMessage net.root event Ts ns r) := by
  obtain ⟨results, h1, h2, h3, h4⟩ := passFrom_spec (event := event) net.nodes [rootForward net.root (event 0)]
    (fun i nd h => by have := hv.order i nd h; rw [List.length_singleton]; omega)
    (fun nd h => ⟨hv.rows nd h, hc.rows nd h⟩) hc.nodup
  refine ⟨results, h1, by rw [h2, List.length_singleton]; omega, ?_⟩
  intro n Ts ns hl
  induction hl with
  | root =>
    obtain ⟨c1, c2⟩ := conditionOn_spec hv.root (hc.nodup 0)
    have hE : evidenceProb net.root [] [event 0] = ((event 0).map (lookup net.root)).sum := by
      rw [evidenceProb_cons]
      congr 1
      refine List.map_congr_left fun t _ => ?_
      simp [stateProb, List.sections, pathProb]
    refine ⟨conditionOn net.root (event 0), h3 0 (by simp), fun _ => ?_, fun _ => ⟨fun h => ?_, fun h => ?_⟩⟩
    · show (conditionOn net.root (event 0)).2 = evidenceProb net.root [] [event 0]
      rw [hE]
      by_cases hz : ((event 0).map (lookup net.root)).sum = 0
      · rw [c1 hz, hz]
      · obtain ⟨d, hd, _⟩ := c2 hz
        rw [hd]
    · have h : evidenceProb net.root [] [event 0] = 0 := h
      rw [c1 (hE ▸ h)]
    · have h : evidenceProb net.root [] [event 0] ≠ 0 := h
      obtain ⟨d, hd, _, hd2⟩ := c2 (hE ▸ h)
      refine ⟨d, by rw [hd], fun t => ?_⟩
      rw [hd2 t]
      show _ = if t ∈ event 0 then stateProb net.root [] t [] / evidenceProb net.root [] [event 0] else 0
      rw [hE]
      simp [stateProb, List.sections, pathProb]
  | @child i nd Ts ns hi hl ih =>
    obtain ⟨r, hr, -, hr2⟩ := ih
    obtain ⟨r', out, ha, hb, hcc⟩ := h4 i nd hi
    rw [hr] at ha
    injection ha with ha
    subst ha
    have e1 : [rootForward net.root (event 0)].length + i = i + 1 := by rw [List.length_singleton]; omega
    rw [e1] at hb hcc
    obtain ⟨ns', rfl⟩ := lineage_cons hl
    refine ⟨out, hcc, fun h => (step_right hv hc hi hl (hr2 h) hb).1, fun h => ?_⟩
    exact (step_right hv hc hi hl (hr2 h.2) hb).2 h.1

/-- A chain of three nodes: the middle one has three states. -/
noncomputable def selectiveChain : Network where
  root := [(0, 1/2), (1, 1/2)]
  nodes := [⟨0, [(0, [(0, 1)]), (1, [(1, 1/2), (2, 1/2)])]⟩,
    ⟨1, [(0, [(0, 1)]), (1, [(1, 1)]), (2, [(1, 1)])]⟩]

theorem selectiveChain_valid : Valid selectiveChain where
  root := by constructor <;> simp [selectiveChain]
  rows := by
    simp only [selectiveChain, List.mem_cons, List.not_mem_nil, or_false, IsMass]
    rintro nd (rfl | rfl) r hr
    · simp only [List.mem_cons, List.not_mem_nil, or_false] at hr
      rcases hr with rfl | rfl <;> simp
    · simp only [List.mem_cons, List.not_mem_nil, or_false] at hr
      rcases hr with rfl | rfl | rfl <;> simp
  order := by
    intro i nd h
    match i with
    | 0 => simp only [selectiveChain, List.getElem?_cons_zero, Option.some.injEq] at h; subst h; exact le_rfl
    | 1 => simp only [selectiveChain, List.getElem?_cons_succ, List.getElem?_cons_zero, Option.some.injEq] at h; subst h; exact le_rfl
    | i + 2 => simp [selectiveChain] at h

theorem selectiveChain_stochastic : Stochastic selectiveChain where
  root := by simp [selectiveChain]; norm_num
  rows := by
    simp only [selectiveChain, List.mem_cons, List.not_mem_nil, or_false]
    rintro nd (rfl | rfl) r hr
    · simp only [List.mem_cons, List.not_mem_nil, or_false] at hr
      rcases hr with rfl | rfl <;> norm_num
    · simp only [List.mem_cons, List.not_mem_nil, or_false] at hr
      rcases hr with rfl | rfl | rfl <;> norm_num

theorem selectiveChain_covers (e2 : List ℤ) (h2 : e2.Nodup) :
    Covers selectiveChain (fun n => if n = 2 then e2 else [0, 1]) where
  nodup := by intro n; split_ifs <;> simp_all
  rows := by
    simp only [selectiveChain, List.mem_cons, List.not_mem_nil, or_false]
    rintro nd (rfl | rfl) s hs
    · simpa using hs
    · have : s = 0 ∨ s = 1 := by simpa using hs
      rcases this with rfl | rfl <;> simp

/-- C45 fails: with the evidence "state 0 or 1" at the middle node of `selectiveChain`, the evidence "state 0" at the last node has conditional
probability 2/3 and the code reports 1/2: the message of the middle node forgets how likely its evidence was under the two root
states (each row is normalised before the rows are added, `bayesian_network/distributions.py:80-89`). -/
theorem C45_full_false : ¬ C45_full := by
  intro h
  obtain ⟨results, h1, h2⟩ := h selectiveChain (fun n => if n = 2 then [0] else [0, 1]) selectiveChain_valid selectiveChain_stochastic
    (selectiveChain_covers [0] (by simp))
  have hl : Lineage selectiveChain 2 [[(0, [(0, 1)]), (1, [(1, 1)]), (2, [(1, 1)])], [(0, [(0, 1)]), (1, [(1, 1/2), (2, 1/2)])]]
      [2, 1, 0] :=
    Lineage.child (nd := ⟨1, [(0, [(0, 1)]), (1, [(1, 1)]), (2, [(1, 1)])]⟩) rfl
      (Lineage.child (nd := ⟨0, [(0, [(0, 1)]), (1, [(1, 1/2), (2, 1/2)])]⟩) rfl Lineage.root)
  obtain ⟨r, hr, hp, -⟩ := h2 2 _ _ hl
  have hE1 : evidenceProb selectiveChain.root [[(0, [(0, 1)]), (1, [(1, 1/2), (2, 1/2)])]] [[0, 1], [0, 1]] = 3/4 := by
    simp [evidenceProb, List.sections, pathProb, given, selectiveChain, lookup]; norm_num
  have hE2 : evidenceProb selectiveChain.root
      [[(0, [(0, 1)]), (1, [(1, 1)]), (2, [(1, 1)])], [(0, [(0, 1)]), (1, [(1, 1/2), (2, 1/2)])]] [[0], [0, 1], [0, 1]] = 1/2 := by
    simp [evidenceProb, List.sections, pathProb, given, selectiveChain, lookup]
  have hp := hp (by
    show evidenceProb selectiveChain.root [[(0, [(0, 1)]), (1, [(1, 1/2), (2, 1/2)])]] [[0, 1], [0, 1]] ≠ 0
    rw [hE1]; norm_num)
  have hp : r.2 = evidenceProb selectiveChain.root
      [[(0, [(0, 1)]), (1, [(1, 1)]), (2, [(1, 1)])], [(0, [(0, 1)]), (1, [(1, 1/2), (2, 1/2)])]] [[0], [0, 1], [0, 1]] /
      evidenceProb selectiveChain.root [[(0, [(0, 1)]), (1, [(1, 1/2), (2, 1/2)])]] [[0, 1], [0, 1]] := hp
  rw [hE1, hE2] at hp
  have hrun : forwardPass selectiveChain (fun n => if n = 2 then [0] else [0, 1]) =
      .ok [(some [(0, 1/2), (1, 1/2)], 1), (some [(0, 1/2), (1, 1/2)], 3/4), (some [(0, 1)], 1/2)] := by
    norm_num [forwardPass, selectiveChain, passFrom, rootForward, conditionOn, tableForward, forwardLoop, row, lookup, accumulate,
      Dict.set, Leaf.normalizeProbs, bind, Except.bind]
  rw [hrun] at h1
  injection h1 with h1
  subst h1
  simp only [List.getElem?_cons_succ, List.getElem?_cons_zero, Option.some.injEq] at hr
  subst hr
  norm_num at hp

/-- Non-vacuity: evidence {0, 1} at the root, no evidence at the middle node, evidence {0} at the last node. -/
noncomputable def trivialMiddle : Network where
  root := [(0, 1/4), (1, 3/4)]
  nodes := [⟨0, [(0, [(0, 1/2), (1, 1/2)]), (1, [(1, 1)])]⟩, ⟨1, [(0, [(0, 1)]), (1, [(0, 1/4), (1, 3/4)])]⟩]

example : Valid trivialMiddle ∧ Covers trivialMiddle (fun n => if n = 2 then [0] else [0, 1]) ∧
    Lineage trivialMiddle 2 [[(0, [(0, 1)]), (1, [(0, 1/4), (1, 3/4)])], [(0, [(0, 1/2), (1, 1/2)]), (1, [(1, 1)])]] [2, 1, 0] ∧
    AllUnselective (fun n => if n = 2 then [0] else [0, 1]) [[(0, [(0, 1/2), (1, 1/2)]), (1, [(1, 1)])]] [1, 0] := by
  refine ⟨⟨?_, ?_, ?_⟩, ⟨?_, ?_⟩, ?_, ⟨1, one_pos, ?_⟩, trivial⟩
  · constructor <;> norm_num [trivialMiddle]
  · simp only [trivialMiddle, List.mem_cons, List.not_mem_nil, or_false, IsMass]
    rintro nd (rfl | rfl) r hr <;> simp only [List.mem_cons, List.not_mem_nil, or_false] at hr <;> rcases hr with rfl | rfl <;> norm_num
  · intro i nd h
    match i with
    | 0 => simp only [trivialMiddle, List.getElem?_cons_zero, Option.some.injEq] at h; subst h; exact le_rfl
    | 1 => simp only [trivialMiddle, List.getElem?_cons_succ, List.getElem?_cons_zero, Option.some.injEq] at h; subst h; exact le_rfl
    | i + 2 => simp [trivialMiddle] at h
  · intro n; split_ifs <;> simp
  · simp only [trivialMiddle, List.mem_cons, List.not_mem_nil, or_false]
    rintro nd (rfl | rfl) s hs
    · simpa using hs
    · have : s = 0 ∨ s = 1 := by simpa using hs
      rcases this with rfl | rfl <;> simp
  · exact Lineage.child (nd := ⟨1, [(0, [(0, 1)]), (1, [(0, 1/4), (1, 3/4)])]⟩) rfl
      (Lineage.child (nd := ⟨0, [(0, [(0, 1/2), (1, 1/2)]), (1, [(1, 1)])]⟩) rfl Lineage.root)
  · intro s hs
    have : s = 0 ∨ s = 1 := by simpa using hs
    rcases this with rfl | rfl <;> norm_num [given, lookup]

end PM.Props
