import Verif.Learn.RegionGraphLemmas

/-!
# C42: random region graphs
-/

namespace PM.Props

open Spec Learn

/-- The full property C42: for every outcome of the shuffles, the construction ends with a graph in which the children of every
partition node are disjoint regions that make up the region the partition node belongs to. -/
def C42_full : Prop := ∀ (shuffles : ℕ → List ℕ → List ℕ) (V : Finset Var) (k depth repetitions : ℕ),
  (∀ n l, (shuffles n l).Perm l) → k ≠ 0 →
  ∃ g, createRandomRegionGraph shuffles V k depth repetitions = .ok g ∧ IsRegion g 0 V ∧
    ∀ p, IsPartition g p → ∃ R W, g.parents p = [R] ∧ IsRegion g R W ∧ Partitions g p W

/-- C42 for all partition nodes of regions that do not have exactly one variable; missing: the partition nodes of regions with one
variable, which the code creates but leaves without children. -/
theorem C42_decomposable_partial (shuffles : ℕ → List ℕ → List ℕ) (V : Finset Var) (k depth repetitions : ℕ)
    (hs : ∀ n l, (shuffles n l).Perm l) (hk : k ≠ 0) :
    ∃ g, createRandomRegionGraph shuffles V k depth repetitions = .ok g ∧ IsRegion g 0 V ∧
      ∀ p, IsPartition g p → ∃ R W, g.parents p = [R] ∧ IsRegion g R W ∧
        (W.card ≠ 1 → Partitions g p W) ∧ (W.card = 1 → g.children p = []) := by
  obtain ⟨g, h1, h2, h3⟩ := create_spec hs hk depth V (List.range repetitions) ⟨[.region V], []⟩
    ⟨by simp [Bounded], by simp, by simp, fun n hn => by
      have hlt := hn.lt
      have : n = 0 := by simpa using hlt
      subst this
      cases hn⟩ rfl
  refine ⟨g, h1, h3, fun p hp => ?_⟩
  rcases h2.others p hp with h | h
  · cases h
  · obtain ⟨R, W, h4, h5, h6⟩ := h
    refine ⟨R, W, h4, h5, fun hc => by rwa [if_neg hc] at h6, fun hc => by rwa [if_pos hc] at h6⟩

/-- The hypotheses are met by reversing as shuffle; then the graph over three variables with two repetitions has partition nodes. -/
example : (∀ (_ : ℕ) (l : List ℕ), (l.reverse).Perm l) ∧ (2 : ℕ) ≠ 0 := ⟨fun _ l => List.reverse_perm l, by norm_num⟩

theorem sort01 : ({0, 1} : Finset Var).sort (· ≤ ·) = [0, 1] := by
  have := Finset.sort_insert (r := (· ≤ ·)) (a := (0 : Var)) (s := {1}) (by simp) (by simp)
  rw [Finset.sort_singleton] at this
  exact this

/-- Two variables, two parts, one level: the graph, without shuffling. -/
theorem two_variables : createRandomRegionGraph (fun _ l => l) {0, 1} 2 1 1 = .ok
    ⟨[.region {0, 1}, .partition, .region {0}, .partition, .region {1}, .partition], [(0, 1), (1, 2), (2, 3), (1, 4), (4, 5)]⟩ := by
  have hp : randomPartition (fun l => l) {0, 1} 2 = .ok [{0}, {1}] := by
    unfold randomPartition
    rw [sort01]
    rfl
  simp only [createRandomRegionGraph, recursiveSplit, List.range_one, List.foldlM_cons, List.foldlM_nil, RegionGraph.attach]
  rw [show rounds 2 1 = 3 from rfl, splitLoop, if_neg (by decide)]
  simp only [hp, bind, Except.bind]
  rfl

/-- C42 is false of the code: after a split into single variables, the regions still get a partition node, without children. -/
theorem C42_full_false : ¬ C42_full := by
  intro H
  obtain ⟨g, h, _, hg⟩ := H (fun _ l => l) {0, 1} 2 1 1 (fun _ l => List.Perm.refl l) (by norm_num)
  rw [two_variables] at h
  injection h with h
  subst h
  obtain ⟨R, W, h1, h2, Vs, h3, _, h5⟩ := hg 3 rfl
  have hR : R = 2 := by
    have : ([2] : List ℕ) = [R] := h1
    injection this with this
    exact this.symm
  subst hR
  have hW : W = {0} := by
    have : some (RKind.region {0}) = some (RKind.region W) := h2
    injection this with this
    injection this with this
    exact this.symm
  have hVs : Vs = [] := List.forall₂_nil_left_iff.1 h3
  rw [hVs, hW] at h5
  simp at h5

end PM.Props
