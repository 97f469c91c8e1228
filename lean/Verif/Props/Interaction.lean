import Verif.Circuit.Mixture
import Verif.Props.Queries
import Verif.Props.ExampleTools

/-!
# C27: `mount_with_interaction_terms`
-/

namespace PM.Props

open Graph Spec PM.Bound

/-- **C27.** `g` is a mixture with root `u`, `h` one with root `o` over other variables.  The interaction model answers
`P(own = i, other = j) = pq i j ≥ 0` and `P(own = i) = pc i = ∑ j, pq i j`, and every own state has positive probability.
Then `u.mount_with_interaction_terms(o, model)` succeeds, `u` is the root of a well-formed smooth decomposable circuit
over the variables of both, and for all leaf values `ℓ` (densities at a point, probabilities of an event, …) its value is
`∑ i j, pq i j * p_i * q_j`, where `p_i` and `q_j` are the values of the children of `u` and `o` before the call.  In
particular this is its likelihood at every point. -/
theorem C27_interaction {g h : Circuit} {u o : Node} {scg sch : Node → Finset Var} (hg : Layered g u) (hh : Layered h o)
    (hsg : Scoped g scg) (hdg : Decomposable g scg) (hsh : Scoped h sch) (hdh : Decomposable h sch)
    (hvg : ∀ n d, g.kind? n = some (.leaf d) → d.Valid) (hvh : ∀ n d, h.kind? n = some (.leaf d) → d.Valid)
    (hku : g.kind? u = some .sum) (hko : h.kind? o = some .sum) (hV : Disjoint (scg u) (sch o)) (hd : DisjointIds g h)
    {pc : ℕ → ℝ} {pq : ℕ → ℕ → ℝ} (hpos : ∀ i < (g.succ u).length, 0 < pc i) (hpq : ∀ i j, 0 ≤ pq i j)
    (hsum : ∀ i < (g.succ u).length, ∑ j ∈ Finset.range (h.succ o).length, pq i j = pc i) :
    ∃ G sc, mountWithInteraction g h u o pc pq = .ok G ∧ Layered G u ∧ Scoped G sc ∧ Decomposable G sc ∧
      sc u = scg u ∪ sch o ∧
      (∀ ℓ fg fh f, CircuitValue g ℓ fg → CircuitValue h ℓ fh → CircuitValue G ℓ f →
        f u = ∑ i ∈ Finset.range (g.succ u).length, ∑ j ∈ Finset.range (h.succ o).length,
          pq i j * (fg ((g.succ u).getD i 0) * fh ((h.succ o).getD j 0))) ∧
      ∀ (x : Var → ℝ) fg fh (m : Mem LogP), CircuitValue g (fun d => leafDensity d (x d.var)) fg →
        CircuitValue h (fun d => leafDensity d (x d.var)) fh →
        G.likelihood m x = .ok (∑ i ∈ Finset.range (g.succ u).length, ∑ j ∈ Finset.range (h.succ o).length,
          pq i j * (fg ((g.succ u).getD i 0) * fh ((h.succ o).getD j 0))) := by
  choose Fg hFg using fun ℓ : Leaf → ℝ => exists_circuitValue hg.graded.acyclic ℓ
  choose Fh hFh using fun ℓ : Leaf → ℝ => exists_circuitValue hh.graded.acyclic ℓ
  have hug : ∀ ℓ f, CircuitValue g ℓ f → ∀ n ∈ g.ids, f n = Fg ℓ n := fun ℓ f hf =>
    circuitValue_unique hg.wf hg.graded.acyclic hf (hFg ℓ)
  have huh : ∀ ℓ f, CircuitValue h ℓ f → ∀ n ∈ h.ids, f n = Fh ℓ n := fun ℓ f hf =>
    circuitValue_unique hh.wf hh.graded.acyclic hf (hFh ℓ)
  have mg : Mixture g u (scg u) (g.succ u).length (fun k ℓ => Fg ℓ ((g.succ u).getD k 0)) :=
    ⟨hg, ⟨scg, hsg, hdg, rfl⟩, hvg, hku, rfl, fun ℓ f hf k hk => hug ℓ f hf _ (Graph.succ_mem_ids hg.wf (getD_mem hk))⟩
  have mh : Mixture h o (sch o) (h.succ o).length (fun k ℓ => Fh ℓ ((h.succ o).getD k 0)) :=
    ⟨hh, ⟨sch, hsh, hdh, rfl⟩, hvh, hko, rfl, fun ℓ f hf k hk => huh ℓ f hf _ (Graph.succ_mem_ids hh.wf (getD_mem hk))⟩
  obtain ⟨G, h1, hM, hval, _⟩ := mg.interaction mh hV hd hpos hpq hsum
  obtain ⟨sc, hs1, hs2, hs3⟩ := hM.scope
  have key : ∀ ℓ fg fh f, CircuitValue g ℓ fg → CircuitValue h ℓ fh → CircuitValue G ℓ f →
      f u = ∑ i ∈ Finset.range (g.succ u).length, ∑ j ∈ Finset.range (h.succ o).length,
        pq i j * (fg ((g.succ u).getD i 0) * fh ((h.succ o).getD j 0)) := by
    intro ℓ fg fh f hfg hfh hf
    rw [hval ℓ f hf]
    refine Finset.sum_congr rfl fun i hi => ?_
    have hil := Finset.mem_range.1 hi
    rw [hug ℓ fg hfg _ (Graph.succ_mem_ids hg.wf (getD_mem hil)), Finset.mul_sum, Finset.mul_sum]
    refine Finset.sum_congr rfl fun j hj => ?_
    rw [huh ℓ fh hfh _ (Graph.succ_mem_ids hh.wf (getD_mem (Finset.mem_range.1 hj)))]
    have := (hpos i hil).ne'
    field_simp
  refine ⟨G, sc, h1, hM.layered, hs1, hs2, hs3, key, ?_⟩
  intro x fg fh m hfg hfh
  obtain ⟨f, hf⟩ := exists_circuitValue hM.layered.graded.acyclic (fun d : Leaf => leafDensity d (x d.var))
  obtain ⟨L, _, _, _, h4⟩ := C01_loglikelihood hM.layered hs1 hM.valid x hf m
  rw [h4, key _ fg fh f hfg hfh hf]

/-! ### Examples -/

/-- Two uniform components over variable `0`. -/
noncomputable def ownParts : List (Node × Leaf × LogP) :=
  [(1, .uniform 0 0 1 closed closed, .log (1 / 2)), (2, .uniform 0 2 3 closed closed, .log (1 / 2))]

/-- Two uniform components over variable `1`. -/
noncomputable def otherParts : List (Node × Leaf × LogP) :=
  [(11, .uniform 1 0 1 closed closed, .log (1 / 4)), (12, .uniform 1 2 3 closed closed, .log (3 / 4))]

theorem ownParts_fresh : FreshIds 0 ownParts := ⟨by simp [ownParts], by simp [ownParts]⟩
theorem otherParts_fresh : FreshIds 10 otherParts := ⟨by simp [otherParts], by simp [otherParts]⟩

theorem own_mixture : Mixture (leafMix 0 ownParts) 0 {0} 2
    (fun k ℓ => ℓ ((ownParts[k]?.map fun x => x.2.1).getD (.uniform 0 0 1 closed closed))) :=
  ownParts_fresh.mixture (by simp [ownParts]) (by simp [ownParts, Leaf.Valid, Leaf.var]; norm_num)

theorem other_mixture : Mixture (leafMix 10 otherParts) 10 {1} 2
    (fun k ℓ => ℓ ((otherParts[k]?.map fun x => x.2.1).getD (.uniform 0 0 1 closed closed))) :=
  otherParts_fresh.mixture (by simp [otherParts]) (by simp [otherParts, Leaf.Valid, Leaf.var]; norm_num)

theorem own_other_disjoint : DisjointIds (leafMix 0 ownParts) (leafMix 10 otherParts) := by
  intro n hn hn'
  rw [ownParts_fresh.ids] at hn
  rw [otherParts_fresh.ids] at hn'
  simp only [ownParts, otherParts, List.map_cons, List.map_nil, List.mem_cons, List.not_mem_nil, or_false] at hn hn'
  rcases hn with rfl | rfl | rfl <;> rcases hn' with h | h | h <;> cases h

/-- The hypotheses of `C27_interaction` are met with a dependent interaction table that has a zero entry. -/
example : ∃ (g h : Circuit) (u o : Node) (scg sch : Node → Finset Var) (pc : ℕ → ℝ) (pq : ℕ → ℕ → ℝ),
    Layered g u ∧ Layered h o ∧ Scoped g scg ∧ Decomposable g scg ∧ Scoped h sch ∧ Decomposable h sch ∧
    (∀ n d, g.kind? n = some (.leaf d) → d.Valid) ∧ (∀ n d, h.kind? n = some (.leaf d) → d.Valid) ∧
    g.kind? u = some .sum ∧ h.kind? o = some .sum ∧ Disjoint (scg u) (sch o) ∧ DisjointIds g h ∧
    (∀ i < (g.succ u).length, 0 < pc i) ∧ (∀ i j, 0 ≤ pq i j) ∧
    (∀ i < (g.succ u).length, ∑ j ∈ Finset.range (h.succ o).length, pq i j = pc i) ∧ (g.succ u).length = 2 := by
  obtain ⟨scg, h1, h2, h3⟩ := own_mixture.scope
  obtain ⟨sch, h4, h5, h6⟩ := other_mixture.scope
  refine ⟨leafMix 0 ownParts, leafMix 10 otherParts, 0, 10, scg, sch, fun i => if i = 0 then 1 / 2 else 1 / 2,
    fun i j => if i = 0 then (if j = 0 then 1 / 2 else 0) else 1 / 4, own_mixture.layered, other_mixture.layered, h1, h2, h4,
    h5, own_mixture.valid, other_mixture.valid, own_mixture.kind, other_mixture.kind, ?_, own_other_disjoint, ?_, ?_, ?_,
    own_mixture.count⟩
  · rw [h3, h6]; simp
  · intro i _; dsimp only; split <;> norm_num
  · intro i j; dsimp only; split_ifs <;> norm_num
  · rw [own_mixture.count, other_mixture.count]
    intro i hi
    interval_cases i <;> norm_num

/-- Why positivity is needed: if the interaction model gives the second own state probability zero, its old edge stays
with its old weight.  The result then has the value `1/2` (times the density of the second component) at points where the
mixture `∑ i j, pq i j * p_i * q_j` is zero. -/
theorem C27_zero_state_kept : ∃ G, mountWithInteraction (leafMix 0 ownParts) (leafMix 10 otherParts) 0 10
      (fun i => if i = 0 then 1 else 0) (fun i _ => if i = 0 then 1 / 2 else 0) = .ok G ∧
    ∀ fg fh f, CircuitValue (leafMix 0 ownParts) (fun d => leafDensity d (5 / 2)) fg →
      CircuitValue (leafMix 10 otherParts) (fun d => leafDensity d (5 / 2)) fh →
      CircuitValue G (fun d => leafDensity d (5 / 2)) f →
      f 0 ≠ ∑ i ∈ Finset.range 2, ∑ j ∈ Finset.range 2, (if i = 0 then 1 / 2 else 0) *
        (fg (((leafMix 0 ownParts).succ 0).getD i 0) * fh (((leafMix 10 otherParts).succ 10).getD j 0)) := by
  set g := leafMix 0 ownParts with hgdef
  set h := leafMix 10 otherParts with hhdef
  set pc : ℕ → ℝ := fun i => if i = 0 then 1 else 0 with hpc
  set pq : ℕ → ℕ → ℝ := fun i _ => if i = 0 then 1 / 2 else 0 with hpq
  have hLg : Layered g 0 := own_mixture.layered
  have hLh : Layered h 10 := other_mixture.layered
  have hu : (0 : Node) ∈ g.ids := (root_mem hLg.root).1
  have hsu : g.succ 0 = [1, 2] := by rw [hgdef, ownParts_fresh.succ]; rfl
  have hso : h.succ 10 = [11, 12] := by rw [hhdef, otherParts_fresh.succ]; rfl
  have hbg : ∀ n ∈ g.ids, n < max g.fresh h.fresh := fun n hn => lt_of_lt_of_le (lt_fresh hn) (le_max_left _ _)
  have hbh : ∀ n ∈ h.ids, n < max g.fresh h.fresh := fun n hn => lt_of_lt_of_le (lt_fresh hn) (le_max_right _ _)
  obtain ⟨G, h1, hG⟩ := woven_step (others := h.succ 10) (pc := pc) (pq := pq) hLg.wf hLh.wf own_other_disjoint hu hbg hbh
    (fun x hx => Graph.succ_mem_ids hLh.wf hx) (nodup_succ hLh.wf 10)
    (woven_zero (u := 0) (b := max g.fresh h.fresh) hLg.wf own_other_disjoint (h.succ 10).zipIdx) (c := 1)
    (by rw [hsu]; rfl) (by simp [hpc]) ⟨(11, 0), by rw [hso]; simp, by simp [hpq]⟩
  refine ⟨G, ?_, ?_⟩
  · obtain ⟨scg, a1, a2, a3⟩ := own_mixture.scope
    obtain ⟨sch, b1, b2, b3⟩ := other_mixture.scope
    have e1 := circuitVars_eq hLg.wf hLg.graded.acyclic a1 hLg.root
    have e2 := circuitVars_eq hLh.wf hLh.graded.acyclic b1 hLh.root
    unfold circuitVars at e1 e2
    rw [hLg.root, a3] at e1
    rw [hLh.root, b3] at e2
    unfold mountWithInteraction
    simp only at e1 e2
    rw [e1, e2]
    simp only [bind, Except.bind]
    rw [if_pos (by simp), hsu]
    simp only [List.zipIdx_cons, List.zipIdx_nil, List.foldlM_cons, List.foldlM_nil, Nat.zero_add]
    rw [h1]
    simp only [bind, Except.bind]
    unfold weaveStep
    simp [hpc]
    rfl
  · intro fg fh f hfg hfh hf heq
    have hout : G.outEdges 0 = [⟨0, 2, some (.log (1 / 2))⟩, ⟨0, max g.fresh h.fresh, some (.log 1)⟩] := by
      rw [hG.outU, hgdef, ownParts_fresh.out]
      simp [ownParts, hpc]
    have hk0 : G.kind? 0 = some .sum := (hG.kindG 0 hu).trans own_mixture.kind
    have hk2 : g.kind? 2 = some (.leaf (.uniform 0 2 3 closed closed)) :=
      ownParts_fresh.kindLeaf (x := (2, .uniform 0 2 3 closed closed, .log (1 / 2))) (by simp [ownParts])
    have hk1 : g.kind? 1 = some (.leaf (.uniform 0 0 1 closed closed)) :=
      ownParts_fresh.kindLeaf (x := (1, .uniform 0 0 1 closed closed, .log (1 / 2))) (by simp [ownParts])
    have hd2 : leafDensity (.uniform 0 2 3 closed closed) (5 / 2) = 1 := by
      rw [Ex.uniform_inside (by norm_num) (by norm_num)]; norm_num
    have hd1 : leafDensity (.uniform 0 0 1 closed closed) (5 / 2) = 0 := Ex.uniform_outside (.inr (by norm_num))
    have hf2 : f 2 = 1 := by
      rw [hf.leaf 2 _ ((hG.kindG 2 (mem_ids_of_kind? hk2)).trans hk2)]
      exact hd2
    have hf1 : fg 1 = 0 := by
      rw [hfg.leaf 1 _ hk1]
      exact hd1
    have hf1' : f 1 = 0 := by
      rw [hf.leaf 1 _ ((hG.kindG 1 (mem_ids_of_kind? hk1)).trans hk1)]
      exact hd1
    have hkp := hG.kindP 0 (by omega)
    have hop := hG.outP 0 (by omega)
    rw [Nat.mul_zero, Nat.add_zero] at hkp hop
    have hfp : f (max g.fresh h.fresh) = 0 := by
      rw [hf.prod _ hkp, hop, hsu]
      simp [hf1']
    rw [hf.sum 0 hk0, hout, hsu] at heq
    simp only [List.map_cons, List.map_nil, List.sum_cons, List.sum_nil, hf2, hfp, linWeight] at heq
    rw [LogP.exp_log (by norm_num)] at heq
    simp [Finset.sum_range_succ, hf1] at heq

end PM.Props
