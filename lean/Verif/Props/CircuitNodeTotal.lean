import Verif.BN.CircuitNodeNeat
import Verif.Circuit.CondPruned
import Verif.Props.CircuitNode
import Verif.Props.Marginal

/-!
# C66: the forward pass returns
-/

namespace PM.Props
open PM PM.Spec PM.BN PM.BN.Spec PM.Graph MeasureTheory
open PM.Leaf (lookup)

variable {v : Var} {own : Finset Var} {n : Node} {entries : List Entry} {message root : List (ℤ × ℝ)} {E : SimpleEvent} {S : List ℤ}

/-- **C66 (first pass).**  If the conditional distributions are trees of normalized sum units without zero weights, the event meets the
support of every leaf in at most one interval and has positive probability, then the forward pass through the parent and the node returns.
The product of the forward probabilities is the probability of the event in the network, and the forward message of the node is a valid
circuit over its variables.  Missing for the full statement `C66_full`: this is about conditional distributions as they are before the
pass. -/
theorem C66_answers_partial (hm : IsMass root) (h : GoodEntries v own n entries) (hE : NodeEvent v S entries E)
    (hc : ∀ s, lookup root s ≠ 0 → ∃ e ∈ entries, e.state = s) {f : Entry → ℝ} (hf : Answers entries E f)
    (hpos : jointAnswer root S entries f ≠ 0) (hown : own.Nonempty)
    (ht : ∀ e ∈ entries, TreeShaped (distribution e) ∧ NormalizedSums (distribution e) ∧ PositiveWeights (distribution e))
    (hone : ∀ e ∈ entries, ∀ k d, (distribution e).kind? k = some (.leaf d) → ∀ A, (d.var, A) ∈ E → OneIntervalOn d A) (m : Mem LogP) :
    ∃ after p g, circuitForward v own entries (rootForward root S).1 n m E = .ok (after, p, g) ∧
      (rootForward root S).2 * p = jointAnswer root S entries f ∧ (∃ r, Layered g r) ∧ g.circuitVars = .ok own := by
  suffices hs : ∃ after p g, circuitForward v own entries (rootForward root S).1 n m E = .ok (after, p, g) ∧
      (∃ r, Layered g r) ∧ g.circuitVars = .ok own by
    obtain ⟨after, p, g, h1, h2, h3⟩ := hs
    exact ⟨after, p, g, h1, (C66_forward_partial hm h hE hc hf m h1).1, h2, h3⟩
  -- the event is possible for the parent
  have hne : (S.map (lookup root)).sum ≠ 0 := by
    intro h0
    apply hpos
    have hz : ∀ s ∈ S, lookup root s = 0 := by
      intro s hs
      have hnn : ∀ x ∈ S.map (lookup root), (0 : ℝ) ≤ x := fun x hx => by
        obtain ⟨k, _, rfl⟩ := List.mem_map.1 hx
        exact lookup_nonneg hm.2 k
      exact List.all_zero_of_le_zero_le_of_sum_eq_zero hnn h0 (List.mem_map_of_mem hs)
    refine List.sum_eq_zero fun y hy => ?_
    obtain ⟨e, _, rfl⟩ := List.mem_map.1 hy
    split_ifs with he
    · rw [hz _ he, zero_mul]
    · rfl
  obtain ⟨message, hrt, _, _⟩ := (conditionOn_spec hm hE.nodup).2 hne
  have hrt' : rootForward root S = (some message, (S.map (lookup root)).sum) := hrt
  obtain ⟨hmm, _, _, hl⟩ := conditionOn_mass hm hE.nodup hrt
  rw [hrt']
  -- the message sums to one over the entries
  have hsum : (entries.map fun e => lookup message e.state).sum = 1 := by
    have h1 : (entries.map fun e => lookup message e.state).sum
        = (entries.map fun e => if e.state ∈ S then lookup root e.state else 0).sum / (S.map (lookup root)).sum := by
      rw [div_eq_mul_inv, ← List.sum_map_mul_right]
      congr 1
      refine List.map_congr_left fun e _ => ?_
      rw [hl]
      split_ifs
      · rw [div_eq_mul_inv]
      · rw [zero_mul]
    rw [h1, div_eq_one_iff_eq hne]
    have h2 : (entries.map fun e => if e.state ∈ S then lookup root e.state else 0)
        = (entries.map Entry.state).map fun s => if s ∈ S then lookup root s else 0 := by rw [List.map_map]; rfl
    rw [h2, ← List.sum_toFinset _ h.states, ← List.sum_toFinset _ hE.nodup, ← Finset.sum_filter]
    refine Finset.sum_subset_zero_on_sdiff (fun s hs => ?_) (fun s hs => ?_) (fun _ _ => rfl)
    · rw [Finset.mem_filter] at hs
      exact List.mem_toFinset.2 hs.2
    · rw [Finset.mem_sdiff, Finset.mem_filter] at hs
      by_contra hs0
      obtain ⟨e, he, rfl⟩ := hc s hs0
      exact hs.2 ⟨List.mem_toFinset.2 (List.mem_map_of_mem he), List.mem_toFinset.1 hs.1⟩
  have hposs : ∃ e ∈ entries, lookup message e.state ≠ 0 := by
    by_contra hno
    push Not at hno
    rw [List.sum_eq_zero (fun y hy => by obtain ⟨e, he, rfl⟩ := List.mem_map.1 hy; exact hno e he)] at hsum
    exact zero_ne_one hsum
  have hF : ∀ e : Entry, ∃ F, e ∈ entries → Denotes (distribution e) e.root own F := fun e => by
    by_cases he : e ∈ entries
    · obtain ⟨F, hF⟩ := denotes_distribution (h.circuit e he)
      exact ⟨F, fun _ => hF⟩
    · exact ⟨fun _ => 0, fun h => absurd h he⟩
  choose F hF using hF
  obtain ⟨J, hJ, hD, hleaf⟩ := denotes_joint hmm h hF hposs
  have hN := neat_joint hmm h (fun e he => ⟨(ht e he).1, (ht e he).2.1, (ht e he).2.2⟩) hsum hJ
  obtain ⟨sc, hs, hdec, hsc⟩ := hD.scope
  obtain ⟨P, hP⟩ := exists_circuitValue hD.layered.graded.acyclic fun d => (leafLaw d).real (allowed E d.var)
  obtain ⟨T, hT⟩ := exists_remainingWeight hD.layered.graded.acyclic hD.layered.leaves P
  have hU : Unsplit J E (allowed E) := fun k d hk => hleaf (fun d => d.Valid → ∃ A c, E.get d.var = .ok A ∧
      d.condInPlace A = .ok c ∧ CondSpec d (allowed E d.var) c ∧ ∀ ps, c ≠ .several ps)
    (fun e _ hd => by
      obtain ⟨c, h1, h2⟩ := condInPlace_spec (A := .symbols S) hd trivial hE.nodup trivial
      exact ⟨_, c, get_ok_of_mem hE.keys hE.parent, h1, by
        rw [show allowed E (Leaf.symbolic v [(e.state, 1)]).var = (VSet.symbols S).toSet from allowed_of_mem hE.keys hE.parent]
        exact h2, condInPlace_not_several (d := .symbolic v [(e.state, 1)]) trivial h1⟩)
    (fun e he k d hk hd => by
      obtain ⟨A, hA, h1, h2, h3⟩ := hE.own e he k d hk
      obtain ⟨c, h4, h5⟩ := condInPlace_spec hd h1 h2 h3
      exact ⟨A, c, get_ok_of_mem hE.keys hA, h4, by rw [show allowed E d.var = A.toSet from allowed_of_mem hE.keys hA]; exact h5,
        condInPlace_not_several (hone e he k d hk A hA) h4⟩) k d hk (hD.valid k d hk)
  have hPn : P n ≠ 0 := by
    intro h0
    apply hpos
    have hans : (S.map (lookup root)).sum * P n = jointAnswer root S entries f := by
      rw [hD.value _ _ hP, jointAnswer, ← List.sum_map_mul_left]
      congr 1
      refine List.map_congr_left fun e he => ?_
      obtain ⟨Q, hQ, hQf⟩ := hf e he
      have hv : (leafLaw (.symbolic v [(e.state, 1)])).real (allowed E (Leaf.symbolic v [(e.state, 1)]).var) = if e.state ∈ S then 1 else 0 := by
        rw [show allowed E (Leaf.symbolic v [(e.state, 1)]).var = (VSet.symbols S).toSet from allowed_of_mem hE.keys hE.parent, stateLaw]
      simp only [hv]
      rw [← hQf, (hF e he).value _ _ hQ, hl]
      split_ifs
      · field_simp
      · ring
    rw [← hans, h0, mul_zero]
  obtain ⟨g', r', m', p, h1, _, _, _, hL', hs', hdec', hsc', hn', hp', ht', _, hleaf', _⟩ := conditionSimple_pruned hD.layered hs hdec hN.pos hN.tree
    hP hU hT hPn m
  have hv' : ∀ k d, g'.copy.kind? k = some (.leaf d) → d.Valid ∧ d.Normalized := by
    intro k d hk
    rw [kind?_copy] at hk
    obtain ⟨_, _, _, _, _, h3, h4, _⟩ := hleaf' k d hk
    exact ⟨h3, h4⟩
  have hscr : sc r' = insert v own := hsc'.trans hsc
  obtain ⟨g'', h2, h3, h4, _⟩ := C10_tree_partial (vs := own) (Layered.copy hL') (Scoped.copy hL'.wf hs') (Decomposable.copy hL'.wf hdec')
    (fun k d hk => (hv' k d hk).1) (fun k d hk => (hv' k d hk).2) (NormalizedSums.copy hL'.wf hn') (PositiveWeights.copy hL'.wf hp')
    (TreeShaped.copy hL'.wf ht') (by
      rw [hscr, Finset.not_disjoint_iff]
      obtain ⟨w, hw⟩ := hown
      exact ⟨w, by simp [hw], hw⟩)
  refine ⟨remount message g' entries, p.exp, g'', ?_, h3, ?_⟩
  · unfold circuitForward
    simp only [bind, Except.bind, hJ, h1, h2]
  · rw [h4, hscr, Finset.inter_eq_right.2 (Finset.subset_insert _ _)]

/-- The hypotheses of `C66_answers_partial` hold for the coins. -/
example : GoodEntries 0 {1} 2 coins ∧ NodeEvent 0 [0, 1] coins coinEvent ∧ IsMass coinRoot ∧
    (∀ s, lookup coinRoot s ≠ 0 → ∃ e ∈ coins, e.state = s) ∧ Answers coins coinEvent (fun _ => 1 / 2) ∧
    jointAnswer coinRoot [0, 1] coins (fun _ => 1 / 2) ≠ 0 ∧
    (∀ e ∈ coins, TreeShaped (distribution e) ∧ NormalizedSums (distribution e) ∧ PositiveWeights (distribution e)) ∧
    (∀ e ∈ coins, ∀ k d, (distribution e).kind? k = some (.leaf d) → ∀ A, (d.var, A) ∈ coinEvent → OneIntervalOn d A) := by
  refine ⟨coins_two.good le_rfl, coins_two.event, coinMass, coins_two.complete, coins_two.answers _ coinLaw coinLaw,
    by rw [coins_two.total]; norm_num, ?_, ?_⟩
  · have hN : ∀ k, Neat (fairCoin k) := fun k => neat_leaf _ _
    simp only [coins, List.mem_cons, List.not_mem_nil, or_false, forall_eq_or_imp, forall_eq]
    exact ⟨⟨(hN 0).tree, (hN 0).norm, (hN 0).pos⟩, ⟨(hN 1).tree, (hN 1).norm, (hN 1).pos⟩⟩
  · intro e he k d hk A _
    simp only [coins, List.mem_cons, List.not_mem_nil, or_false] at he
    have hdb : d = fair := by
      rcases he with rfl | rfl
      · exact newUnit_leaf hk
      · exact newUnit_leaf hk
    rw [hdb]
    trivial

end PM.Props
