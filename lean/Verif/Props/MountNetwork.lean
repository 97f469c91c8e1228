import Verif.Circuit.JoinLemmas
import Verif.Props.Interaction

/-!
# C115: `mount_from_bayesian_network`

`u.mount_from_bayesian_network(o)` is meant to multiply the `k`-th component of the mixture `u` with the `k`-th component of
the mixture `o` and to keep the weights of `u`.  The code takes the logarithm of weights that are logarithms already.
-/

namespace PM.Props

open Graph Spec PM.Bound

/-- Two mixtures that can be mounted: valid circuits with roots `u` and `o`, over different variables, without common
units, and with as many components. -/
structure Pairable (g h : Circuit) (u o : Node) (scg sch : Node → Finset Var) : Prop where
  own : Layered g u
  other : Layered h o
  ownScoped : Scoped g scg
  ownDecomposable : Decomposable g scg
  otherScoped : Scoped h sch
  otherDecomposable : Decomposable h sch
  ownValid : ∀ n d, g.kind? n = some (.leaf d) → d.Valid
  otherValid : ∀ n d, h.kind? n = some (.leaf d) → d.Valid
  ownSum : g.kind? u = some .sum
  otherSum : h.kind? o = some .sum
  overOthers : Disjoint (scg u) (sch o)
  units : DisjointIds g h
  sameLength : (g.succ u).length = (h.succ o).length

/-- The weight of the `k`-th component of the mixture `u`. -/
noncomputable def componentWeight (g : Circuit) (u : Node) (k : ℕ) : ℝ := ((g.outEdges u).map linWeight).getD k 0

/-- `∑ k, w k * p_k * q_k` where `p_k` and `q_k` are the values of the `k`-th components. -/
noncomputable def pairedMixture (g h : Circuit) (u o : Node) (w : ℕ → ℝ) (fg fh : Node → ℝ) : ℝ :=
  ∑ k ∈ Finset.range (g.succ u).length, w k * (fg ((g.succ u).getD k 0) * fh ((h.succ o).getD k 0))

theorem logOfLog_isNone (w : LogP) : (logOfLog w).isNone = true ↔ w.exp < 1 := by
  cases w with
  | negInf => simp [logOfLog]
  | fin x =>
    by_cases hx : x < 0
    · simp [logOfLog, LogP.exp, hx]
    · simp [logOfLog, LogP.exp, hx]

theorem exp_logOfLog {w : LogP} (hw : 1 ≤ w.exp) : ((logOfLog w).getD .negInf).exp = Real.log w.exp := by
  cases w with
  | negInf => simp at hw; linarith
  | fin x =>
    have hx : 0 ≤ x := Real.one_le_exp_iff.1 hw
    simp only [logOfLog, if_neg hx.not_gt, Option.getD_some]
    rw [LogP.exp_log hx]
    exact (Real.log_exp x).symm

variable {g h : Circuit} {u o : Node} {scg sch : Node → Finset Var}

/-- What `mount_from_bayesian_network` does. -/
theorem mountFromNetwork_spec (H : Pairable g h u o scg sch) :
    ∃ G nan sc, mountFromNetwork g h u o = .ok (G, nan) ∧ Layered G u ∧ Scoped G sc ∧ Decomposable G sc ∧
      sc u = scg u ∪ sch o ∧ (∀ n d, G.kind? n = some (.leaf d) → d.Valid) ∧
      (nan = true ↔ ∃ e ∈ g.outEdges u, linWeight e < 1) ∧
      ((∀ e ∈ g.outEdges u, 1 ≤ linWeight e) → ∀ ℓ fg fh f, CircuitValue g ℓ fg → CircuitValue h ℓ fh →
        CircuitValue G ℓ f → f u = pairedMixture g h u o (fun k => Real.log (componentWeight g u k)) fg fh) := by
  have hu := (root_mem H.own.root).1
  have hbg : ∀ n ∈ g.ids, n < max g.fresh h.fresh := fun n hn => lt_of_lt_of_le (lt_fresh hn) (le_max_left _ _)
  have hbh : ∀ n ∈ h.ids, n < max g.fresh h.fresh := fun n hn => lt_of_lt_of_le (lt_fresh hn) (le_max_right _ _)
  set lw := (g.outEdges u).map fun e => e.weight.getD 0 with hlw
  have hlen : lw.length = (g.succ u).length := by simp [hlw, succ]
  obtain ⟨hJ, hn⟩ := joined_fold H.own.wf H.other.wf H.units hu hbg hbh (os := h.succ o)
    (fun x hx => Graph.succ_mem_ids H.other.wf hx) lw hlen H.sameLength
  have hexp : ∀ e ∈ g.outEdges u, (e.weight.getD 0).exp = linWeight e := by
    intro e he
    obtain ⟨w, hw⟩ := Option.isSome_iff_exists.1 (H.own.weighted u H.ownSum e he)
    rw [linWeight, hw]; rfl
  have hL := joined_layered H.own H.other H.units hbg hbh H.ownSum H.sameLength hJ
  obtain ⟨sc, s1, s2, s3⟩ := joined_scoped H.own H.other H.units hbg hbh H.ownSum H.otherSum H.sameLength hJ H.ownScoped
    H.ownDecomposable H.otherScoped H.otherDecomposable H.overOthers
  have hrun : mountFromNetwork g h u o = .ok ((((lw.zip (g.succ u)).zip (h.succ o)).zipIdx).foldl
      (joinStep h u (max g.fresh h.fresh)) (g, false)) := by
    have e1 := circuitVars_eq H.own.wf H.own.graded.acyclic H.ownScoped H.own.root
    have e2 := circuitVars_eq H.other.wf H.other.graded.acyclic H.otherScoped H.other.root
    unfold circuitVars at e1 e2
    rw [H.own.root] at e1
    rw [H.other.root] at e2
    simp only at e1 e2
    unfold mountFromNetwork
    rw [e1, e2]
    simp only [bind, Except.bind]
    rw [if_pos H.overOthers, if_pos H.sameLength]
    have : g.logWeights u = .ok lw := by
      rw [logWeights, mapM_readWeight_ok (H.own.weighted u H.ownSum)]
    rw [this]
    rfl
  refine ⟨_, _, sc, hrun, hL, s1, s2, s3, ?_, ?_, ?_⟩
  · intro n d hk
    exact (joined_leaf H.other.wf hu H.ownSum H.sameLength hJ hk).elim (H.ownValid n d) (H.otherValid n d)
  · rw [hn, List.any_eq_true]
    constructor
    · rintro ⟨w, hw, h1⟩
      obtain ⟨e, he, rfl⟩ := List.mem_map.1 hw
      exact ⟨e, he, by rw [← hexp e he]; exact (logOfLog_isNone _).1 h1⟩
    · rintro ⟨e, he, h1⟩
      exact ⟨_, List.mem_map_of_mem he, (logOfLog_isNone _).2 (by rw [hexp e he]; exact h1)⟩
  · intro hpos ℓ fg fh f hfg hfh hf
    rw [joined_value H.own H.other H.ownSum H.sameLength hJ hfg hfh hf, pairedMixture]
    refine Finset.sum_congr rfl fun k hk => ?_
    have hk' : k < (g.outEdges u).length := by simpa [succ] using Finset.mem_range.1 hk
    have hmem : (g.outEdges u)[k] ∈ g.outEdges u := List.getElem_mem hk'
    have h1 : lw.getD k .negInf = (g.outEdges u)[k].weight.getD 0 := by
      rw [hlw, List.getD_eq_getElem?_getD, List.getElem?_map, List.getElem?_eq_getElem hk']; rfl
    have h2 : componentWeight g u k = linWeight (g.outEdges u)[k] := by
      rw [componentWeight, List.getD_eq_getElem?_getD, List.getElem?_map, List.getElem?_eq_getElem hk']; rfl
    rw [h1, h2, exp_logOfLog (by rw [hexp _ hmem]; exact hpos _ hmem), hexp _ hmem]

/-- **C115, what the code computes.**  If all weights of `u` are at least one (a mixture that was not normalized),
`mount_from_bayesian_network` succeeds, the result is a valid circuit with root `u` over the variables of both mixtures, and
its likelihood at every point is `∑ k, log w_k * p_k * q_k`: the components are paired as intended, but their weights are
the logarithms of the weights of `u`. -/
theorem C115_paired_partial (H : Pairable g h u o scg sch) (hpos : ∀ e ∈ g.outEdges u, 1 ≤ linWeight e) :
    ∃ r sc, mountFromNetwork g h u o = .ok r ∧ Layered r.1 u ∧ Scoped r.1 sc ∧ Decomposable r.1 sc ∧
      sc u = scg u ∪ sch o ∧
      ∀ (x : Var → ℝ) (m : Mem LogP) fg fh, CircuitValue g (fun d => leafDensity d (x d.var)) fg →
        CircuitValue h (fun d => leafDensity d (x d.var)) fh →
        likelihoodOrNan r m x = .ok (some (pairedMixture g h u o (fun k => Real.log (componentWeight g u k)) fg fh)) := by
  obtain ⟨G, nan, sc, h1, hL, s1, s2, s3, hv, hnan, hval⟩ := mountFromNetwork_spec H
  refine ⟨_, sc, h1, hL, s1, s2, s3, ?_⟩
  intro x m fg fh hfg hfh
  have hf0 : nan = false := by
    rw [Bool.eq_false_iff]
    intro hn
    obtain ⟨e, he, hlt⟩ := hnan.1 hn
    exact absurd (hpos e he) hlt.not_ge
  obtain ⟨f, hf⟩ := exists_circuitValue hL.graded.acyclic (fun d : Leaf => leafDensity d (x d.var))
  obtain ⟨L, _, _, _, h4⟩ := C01_loglikelihood hL s1 hv x hf m
  unfold likelihoodOrNan
  simp only [hf0]
  rw [h4, hval hpos _ fg fh f hfg hfh hf]
  rfl

/-- **C115, normalized mixtures.**  If the weights of `u` sum to one, the call succeeds and the likelihood afterwards is NaN
at every point, or zero at every point if `u` has one component only. -/
theorem C115_normalized (H : Pairable g h u o scg sch) (hsum : ((g.outEdges u).map linWeight).sum = 1) :
    ∃ r, mountFromNetwork g h u o = .ok r ∧ ∀ (x : Var → ℝ) (m : Mem LogP),
      likelihoodOrNan r m x = .ok (if (g.succ u).length = 1 then some 0 else none) := by
  have hw0 : ∀ e : Edge, 0 ≤ linWeight e := by
    intro e; unfold linWeight; split
    · exact LogP.exp_nonneg _
    · exact le_rfl
  by_cases hone : (g.succ u).length = 1
  · have hlen : (g.outEdges u).length = 1 := by simpa [succ] using hone
    obtain ⟨e, he⟩ := List.length_eq_one_iff.1 hlen
    rw [he] at hsum
    simp only [List.map_cons, List.map_nil, List.sum_cons, List.sum_nil, add_zero] at hsum
    obtain ⟨r, sc, h1, hL, _, _, _, hlik⟩ := C115_paired_partial H (by
      rw [he]
      intro e' he'
      rw [List.mem_singleton.1 he', hsum])
    refine ⟨r, h1, fun x m => ?_⟩
    obtain ⟨fg, hfg⟩ := exists_circuitValue H.own.graded.acyclic (fun d : Leaf => leafDensity d (x d.var))
    obtain ⟨fh, hfh⟩ := exists_circuitValue H.other.graded.acyclic (fun d : Leaf => leafDensity d (x d.var))
    rw [hlik x m fg fh hfg hfh, if_pos hone, pairedMixture, hone]
    simp [componentWeight, he, hsum]
  · obtain ⟨G, nan, sc, h1, hL, s1, s2, s3, hv, hnan, hval⟩ := mountFromNetwork_spec H
    have hn : nan = true := by
      rw [hnan]
      by_contra hcon
      push Not at hcon
      have hne : (g.outEdges u) ≠ [] := by
        intro h0; rw [h0] at hsum; simp at hsum
      have hlen : 2 ≤ (g.outEdges u).length := by
        have h1 : (g.outEdges u).length ≠ 1 := by simpa [succ] using hone
        have h2 : 0 < (g.outEdges u).length := List.length_pos_of_ne_nil hne
        omega
      match hg : g.outEdges u, hlen with
      | a :: b :: l, _ =>
        rw [hg] at hsum hcon
        simp only [List.map_cons, List.sum_cons] at hsum
        have ha := hcon a (by simp)
        have hb := hcon b (by simp)
        have hl : 0 ≤ (l.map linWeight).sum := List.sum_nonneg fun y hy => by
          obtain ⟨e, _, rfl⟩ := List.mem_map.1 hy
          exact hw0 e
        linarith
    refine ⟨_, h1, fun x m => ?_⟩
    rw [if_neg hone]
    unfold likelihoodOrNan
    simp only [hn]
    rfl

/-- **C115, the property as a user reads it.**  For normalized mixtures the likelihood after
`u.mount_from_bayesian_network(o)` is `∑ k, w_k * p_k * q_k`. -/
def C115_full : Prop :=
  ∀ (g h : Circuit) (u o : Node) (scg sch : Node → Finset Var), Pairable g h u o scg sch → NormalizedSums g →
    NormalizedSums h → ∃ r, mountFromNetwork g h u o = .ok r ∧
      ∀ (x : Var → ℝ) (m : Mem LogP) fg fh, CircuitValue g (fun d => leafDensity d (x d.var)) fg →
        CircuitValue h (fun d => leafDensity d (x d.var)) fh →
        likelihoodOrNan r m x = .ok (some (pairedMixture g h u o (componentWeight g u) fg fh))

/-! ### Examples -/

/-- The two mixtures of `C27` can be mounted. -/
theorem pairable_example : ∃ scg sch, Pairable (leafMix 0 ownParts) (leafMix 10 otherParts) 0 10 scg sch := by
  obtain ⟨scg, h1, h2, h3⟩ := own_mixture.scope
  obtain ⟨sch, h4, h5, h6⟩ := other_mixture.scope
  exact ⟨scg, sch, own_mixture.layered, other_mixture.layered, h1, h2, h4, h5, own_mixture.valid, other_mixture.valid,
    own_mixture.kind, other_mixture.kind, by rw [h3, h6]; simp, own_other_disjoint,
    by rw [own_mixture.count, other_mixture.count]⟩

theorem leafMix_normalizedSums {u : Node} {E : List (Node × Leaf × LogP)} (h : FreshIds u E)
    (hs : (E.map fun x => x.2.2.exp).sum = 1) : NormalizedSums (leafMix u E) := by
  intro n hk
  rw [h.sum_iff.1 hk, h.out, List.map_map]
  exact hs

theorem own_normalizedSums : NormalizedSums (leafMix 0 ownParts) := by
  refine leafMix_normalizedSums ownParts_fresh ?_
  simp only [ownParts, List.map_cons, List.map_nil, List.sum_cons, List.sum_nil]
  rw [LogP.exp_log (by norm_num)]; norm_num

theorem other_normalizedSums : NormalizedSums (leafMix 10 otherParts) := by
  refine leafMix_normalizedSums otherParts_fresh ?_
  simp only [otherParts, List.map_cons, List.map_nil, List.sum_cons, List.sum_nil]
  rw [LogP.exp_log (by norm_num), LogP.exp_log (by norm_num)]; norm_num

/-- The full property is false: already the mixture of two components becomes NaN. -/
theorem C115_full_false : ¬ C115_full := by
  intro hfull
  obtain ⟨scg, sch, H⟩ := pairable_example
  obtain ⟨r, h1, h2⟩ := hfull _ _ _ _ _ _ H own_normalizedSums other_normalizedSums
  obtain ⟨r', h1', h2'⟩ := C115_normalized H (own_normalizedSums 0 own_mixture.kind)
  obtain rfl : r = r' := by rw [h1] at h1'; exact Except.ok.inj h1'
  obtain ⟨fg, hfg⟩ := exists_circuitValue H.own.graded.acyclic (fun d : Leaf => leafDensity d 0)
  obtain ⟨fh, hfh⟩ := exists_circuitValue H.other.graded.acyclic (fun d : Leaf => leafDensity d 0)
  have a := h2 (fun _ => 0) (fun _ => none) fg fh hfg hfh
  rw [h2' (fun _ => 0) (fun _ => none), own_mixture.count] at a
  simp at a

/-- Two uniform components over variable `0` with the weights `2` and `3`. -/
noncomputable def heavyParts : List (Node × Leaf × LogP) :=
  [(1, .uniform 0 0 1 closed closed, .log 2), (2, .uniform 0 2 3 closed closed, .log 3)]

theorem heavyParts_fresh : FreshIds 0 heavyParts := ⟨by simp [heavyParts], by simp [heavyParts]⟩

/-- The hypotheses of `C115_paired_partial` are met by a mixture with weights `2` and `3`. -/
example : ∃ scg sch, Pairable (leafMix 0 heavyParts) (leafMix 10 otherParts) 0 10 scg sch ∧
    ∀ e ∈ (leafMix 0 heavyParts).outEdges 0, 1 ≤ linWeight e := by
  have hm : Mixture (leafMix 0 heavyParts) 0 {0} 2
      (fun k ℓ => ℓ ((heavyParts[k]?.map fun x => x.2.1).getD (.uniform 0 0 1 closed closed))) :=
    heavyParts_fresh.mixture (by simp [heavyParts]) (by simp [heavyParts, Leaf.Valid, Leaf.var]; norm_num)
  obtain ⟨scg, h1, h2, h3⟩ := hm.scope
  obtain ⟨sch, h4, h5, h6⟩ := other_mixture.scope
  refine ⟨scg, sch, ⟨hm.layered, other_mixture.layered, h1, h2, h4, h5, hm.valid, other_mixture.valid,
    hm.kind, other_mixture.kind, by rw [h3, h6]; simp, ?_, by rw [hm.count, other_mixture.count]⟩, ?_⟩
  · intro n hn hn'
    rw [heavyParts_fresh.ids] at hn
    rw [otherParts_fresh.ids] at hn'
    simp only [heavyParts, otherParts, List.map_cons, List.map_nil, List.mem_cons, List.not_mem_nil, or_false] at hn hn'
    rcases hn with rfl | rfl | rfl <;> rcases hn' with h | h | h <;> cases h
  · rw [heavyParts_fresh.out]
    intro e he
    simp only [heavyParts, List.map_cons, List.map_nil, List.mem_cons, List.not_mem_nil, or_false] at he
    rcases he with rfl | rfl <;> simp only [linWeight] <;> rw [LogP.exp_log (by norm_num)] <;> norm_num

/-- The hypotheses of `C115_normalized` are met by a mixture of two components. -/
example : ∃ scg sch, Pairable (leafMix 0 ownParts) (leafMix 10 otherParts) 0 10 scg sch ∧
    (((leafMix 0 ownParts).outEdges 0).map linWeight).sum = 1 ∧ ((leafMix 0 ownParts).succ 0).length = 2 := by
  obtain ⟨scg, sch, H⟩ := pairable_example
  exact ⟨scg, sch, H, own_normalizedSums 0 own_mixture.kind, own_mixture.count⟩

end PM.Props
