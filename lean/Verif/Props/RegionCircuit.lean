import Verif.Learn.RegionCircuitMain
import Verif.Props.RegionGraph
import Verif.Props.LayerMass

/-! # C72: random region graphs become normalized circuits -/

namespace PM.Props
open PM.Jax Spec Learn MeasureTheory

/-- **C72, the full statement**: for all outcomes of the shuffles and of the random parameters, the random region graph over variables that
are continuous or symbolic converts to a circuit over these variables, and the likelihood that is computed for every class has the integral
one. -/
def C72_full : Prop :=
  ∀ (shuffles : ℕ → List ℕ → List ℕ) (V : Finset Var) (kinds : Var → VarKind) (u : Units) (d : Draws) (k depth repetitions : ℕ),
    (∀ n l, (shuffles n l).Perm l) → k ≠ 0 → repetitions ≠ 0 → V.Nonempty → 0 < u.input → 0 < u.sum → (∀ v ∈ V, Supported (kinds v)) →
    UnitDraws d →
    ∃ g M, createRandomRegionGraph shuffles V k depth repetitions = .ok g ∧ regionCircuit g V kinds u d = .ok M ∧
      M.vars = V.sort (· ≤ ·) ∧ M.root.numberOfNodes = u.classes ∧
      ∀ i < u.classes, mass (columnTypes V kinds) (Finset.range V.card) (computed M.root V.card i) = 1

/-- C72 for graphs with enough variables for all splits, and for the likelihood that the circuit describes: every sum is over children with
the same variables, every product over children with disjoint variables, every class has all variables, and its mass is one.  Missing:
graphs with fewer variables, for which the conversion fails (`C72_full_false`), and the computed likelihood, which uses the wrong columns
in nested products (`C72_ignores_variable`). -/
theorem C72_circuit_partial (shuffles : ℕ → List ℕ → List ℕ) (V : Finset Var) (kinds : Var → VarKind) (u : Units) (d : Draws)
    (k depth repetitions : ℕ) (hs : ∀ n l, (shuffles n l).Perm l) (hk : k ≠ 0) (hr : repetitions ≠ 0) (hV : 2 * k ^ depth ≤ V.card)
    (hin : 0 < u.input) (hsum : 0 < u.sum) (hkinds : ∀ v ∈ V, Supported (kinds v)) (hd : UnitDraws d) :
    ∃ g M, createRandomRegionGraph shuffles V k depth repetitions = .ok g ∧ regionCircuit g V kinds u d = .ok M ∧
      M.vars = V.sort (· ≤ ·) ∧ M.root.numberOfNodes = u.classes ∧
      Regular M.root ∧ SmoothLayer M.root ∧ DecomposableLayer M.root ∧ TypedInputs (columnTypes V kinds) M.root ∧
      ∀ i < u.classes, (nodeScopes M.root).getD i ∅ = Finset.range V.card ∧
        mass (columnTypes V kinds) (Finset.range V.card) (fun a => (layerValue a M.root).getD i 0) = 1 := by
  have hB0 : Between ⟨[.region V], []⟩ [] := ⟨by simp [Bounded], by simp, by simp, fun n hn => by
      have hlt := hn.lt
      have : n = 0 := by simpa using hlt
      subst this
      cases hn⟩
  have hS0 : Shaped V ⟨[.region V], []⟩ [] := by
    refine ⟨⟨by simp, by simp, by simp⟩, ?_, ?_, ?_⟩
    · intro R W hR
      have hlt := hR.lt
      have : R = 0 := by simpa using hlt
      subst this
      injection hR with hR
      injection hR with hR
      rw [hR]
    · intro R W _ c hc
      simp [RegionGraph.children] at hc
    · intro n hn
      have hlt := hn.lt
      have : n = 0 := by simpa using hlt
      subst this
      cases hn
  obtain ⟨g, h1, h2, h3, h4, h5⟩ := create_shape hs hk hV (List.range repetitions) _ hB0 rfl hS0 (Or.inr (by simpa using hr))
  obtain ⟨L, h6, h7⟩ := regionCircuit_good hd hkinds hin hsum h2 h4 h5 h3
  refine ⟨g, _, h1, h6, rfl, h7.number, h7.regular, h7.smooth, h7.decomposable, h7.typed, fun i hi => ?_⟩
  have hi' : i < L.numberOfNodes := by rw [h7.number]; exact hi
  have hsc : (nodeScopes L).getD i ∅ = Finset.range V.card := by
    have : i < (nodeScopes L).length := by rw [Learn.nodeScopes_length]; exact hi'
    rw [List.getD_eq_getElem _ _ this]
    exact h7.scopes _ (List.getElem_mem _)
  refine ⟨hsc, ?_⟩
  rw [← hsc]
  exact C71_described _ h7.regular h7.smooth h7.decomposable h7.typed hi'

/-- The hypotheses are met by five variables, of which one has three states, four sums and two classes. -/
example : (∀ (_ : ℕ) (l : List ℕ), (l.reverse).Perm l) ∧ (2 * 2 ^ 1 ≤ (Finset.range 5 : Finset Var).card) ∧
    (∀ v ∈ (Finset.range 5 : Finset Var), Supported (if v = 2 then .symbolic 3 else .continuous)) ∧
    UnitDraws ⟨fun _ _ => 1 / 2, fun _ _ _ _ => 1 / 4⟩ := by
  refine ⟨fun _ l => List.reverse_perm l, by decide, ?_, ?_⟩
  · intro v _
    split <;> simp [Supported]
  · constructor <;> intros <;> norm_num

/-- C72 is false of the code: splitting two variables into two parts leaves partitions without children, and the conversion fails. -/
theorem C72_full_false : ¬ C72_full := by
  intro H
  obtain ⟨g, M, h1, h2, _⟩ := H (fun _ l => l) {0, 1} (fun _ => .continuous) ⟨1, 1, 1⟩ ⟨fun _ _ => 0, fun _ _ _ _ => 0⟩ 2 1 1
    (fun _ l => List.Perm.refl l) (by norm_num) (by norm_num) (by simp) (by norm_num) (by norm_num) (fun _ _ => trivial)
    (by constructor <;> intros <;> norm_num)
  rw [two_variables] at h1
  injection h1 with h1
  subst h1
  have : ∀ g : RegionGraph, g = ⟨[.region {0, 1}, .partition, .region {0}, .partition, .region {1}, .partition],
      [(0, 1), (1, 2), (2, 3), (1, 4), (4, 5)]⟩ →
      regionCircuit g {0, 1} (fun _ => .continuous) ⟨1, 1, 1⟩ ⟨fun _ _ => 0, fun _ _ _ _ => 0⟩ = .error .assertionError := by
    rintro _ rfl
    rfl
  rw [this _ rfl] at h2
  cases h2

theorem sort0123 : ({0, 1, 2, 3} : Finset Var).sort (· ≤ ·) = [0, 1, 2, 3] := by
  rw [show (∀ s : Finset Var, s = {0, 1, 2, 3} → s.sort (· ≤ ·) = uniqueSorted [0, 1, 2, 3]) from fun s h => by
    rw [uniqueSorted_eq, h]
    simp] <;> decide

theorem sort23 : ({2, 3} : Finset Var).sort (· ≤ ·) = [2, 3] := by
  have := Finset.sort_insert (r := (· ≤ ·)) (a := (2 : Var)) (s := {3}) (by simp) (by simp)
  rw [Finset.sort_singleton] at this
  exact this

/-- Four variables, two parts, one level: the graph, without shuffling. -/
def fourGraph : RegionGraph :=
  ⟨[.region {0, 1, 2, 3}, .partition, .region {0, 1}, .partition, .region {2, 3}, .partition, .region {0}, .region {1}, .region {2}, .region {3}],
    [(0, 1), (1, 2), (2, 3), (1, 4), (4, 5), (3, 6), (3, 7), (5, 8), (5, 9)]⟩

theorem four_variables : createRandomRegionGraph (fun _ l => l) {0, 1, 2, 3} 2 1 1 = .ok fourGraph := by
  have hp : randomPartition (fun l => l) {0, 1, 2, 3} 2 = .ok [{0, 1}, {2, 3}] := by
    unfold randomPartition
    rw [sort0123]
    rfl
  simp only [createRandomRegionGraph, recursiveSplit, List.range_one, List.foldlM_cons, List.foldlM_nil, RegionGraph.attach]
  rw [show rounds 2 1 = 3 from rfl, splitLoop, if_neg (by decide)]
  simp only [hp, bind, Except.bind]
  simp only [List.foldl_cons, List.foldl_nil, addRegion, RegionGraph.attach, List.nil_append, List.cons_append]
  rw [splitLoop, if_neg (by decide)]
  simp only [sort01]
  rw [splitLoop, if_neg (by decide)]
  simp only [sort23]
  rfl

/-- The input layer of a continuous variable with one unit. -/
noncomputable def fourLeaf (d : Draws) (v : ℕ) : Layer :=
  .input v [.gaussian (between (-1) 1 (d.vector 1 0)) (Real.log (between 0.5 3 (d.vector 1 0))) 0.1]

noncomputable def fourPair (d : Draws) (l r : Layer) : Layer :=
  .denseSum [[[LogP.log (between 0.1 1 (d.matrix 1 1 0 0))]]] [.product 1 [[(0, 0)], [(0, 0)]] [l, r]]

theorem four_circuit (d : Draws) : regionCircuit fourGraph {0, 1, 2, 3} (fun _ => .continuous) ⟨1, 1, 1⟩ d =
    .ok ⟨[0, 1, 2, 3], fourPair d (fourPair d (fourLeaf d 0) (fourLeaf d 1)) (fourPair d (fourLeaf d 2) (fourLeaf d 3))⟩ := by
  have hroot : fourGraph.root = .ok 0 := rfl
  have horder : fourGraph.bottomUp 0 = [6, 7, 8, 9, 3, 5, 2, 4, 1, 0] := rfl
  have hin : ∀ v ∈ ({0, 1, 2, 3} : Finset Var), inputLayer {0, 1, 2, 3} (fun _ => .continuous) ⟨1, 1, 1⟩ d {v} = .ok (fourLeaf d v) := by
    intro v hv
    unfold Learn.inputLayer
    rw [Finset.sort_singleton, sort0123]
    simp only [hv, not_true_eq_false, if_false]
    simp only [Finset.mem_insert, Finset.mem_singleton] at hv
    rcases hv with rfl | rfl | rfl | rfl <;> rfl
  have hprod : ∀ l r : Layer, l.numberOfNodes = 1 → r.numberOfNodes = 1 →
      productLayer [l, r] = .ok (.product 1 [[(0, 0)], [(0, 0)]] [l, r]) := by
    intro l r h1 h2
    simp [Learn.productLayer, h1, h2]
  have hsum : ∀ l r : Layer, sumLayer d 1 [.product 1 [[(0, 0)], [(0, 0)]] [l, r]] = .ok (fourPair d l r) := by
    intro l r
    simp [Learn.sumLayer, fourPair, Layer.variables, firstVariables, Layer.numberOfNodes]
  have hnum : ∀ l r : Layer, (fourPair d l r).numberOfNodes = 1 := fun l r => rfl
  have hleaf : ∀ v, (fourLeaf d v).numberOfNodes = 1 := fun v => rfl
  have hnode : ∀ (n : ℕ) (W : Finset Var) layers, fourGraph.nodes[n]? = some (.region W) → fourGraph.children n = [] →
      nodeLayer fourGraph {0, 1, 2, 3} (fun _ => .continuous) ⟨1, 1, 1⟩ d layers n =
        inputLayer {0, 1, 2, 3} (fun _ => .continuous) ⟨1, 1, 1⟩ d W := by
    intro n W layers h1 h2
    unfold nodeLayer
    rw [h1]
    simp [h2]
  have hnode2 : ∀ (n : ℕ) (W : Finset Var) (layers : ℕ → Option Layer) c l r, fourGraph.nodes[n]? = some (.region W) →
      fourGraph.children n = [c] → layers c = some (.product 1 [[(0, 0)], [(0, 0)]] [l, r]) →
      nodeLayer fourGraph {0, 1, 2, 3} (fun _ => .continuous) ⟨1, 1, 1⟩ d layers n = .ok (fourPair d l r) := by
    intro n W layers c l r h1 h2 h3
    unfold nodeLayer
    rw [h1]
    simp [h2, childLayers, h3, bind, Except.bind, pure, Except.pure, hsum]
  have hnode3 : ∀ (n : ℕ) (layers : ℕ → Option Layer) c e l r, fourGraph.nodes[n]? = some .partition →
      fourGraph.children n = [c, e] → layers c = some l → layers e = some r → l.numberOfNodes = 1 → r.numberOfNodes = 1 →
      nodeLayer fourGraph {0, 1, 2, 3} (fun _ => .continuous) ⟨1, 1, 1⟩ d layers n = .ok (.product 1 [[(0, 0)], [(0, 0)]] [l, r]) := by
    intro n layers c e l r h1 h2 h3 h4 h5 h6
    unfold nodeLayer
    rw [h1]
    simp [h2, childLayers, h3, h4, bind, Except.bind, pure, Except.pure, hprod l r h5 h6]
  unfold regionCircuit
  simp only [hroot, horder, bind, Except.bind]
  rw [assignLayers, hnode 6 {0} _ rfl rfl, hin 0 (by decide)]
  simp only [bind, Except.bind]
  rw [assignLayers, hnode 7 {1} _ rfl rfl, hin 1 (by decide)]
  simp only [bind, Except.bind]
  rw [assignLayers, hnode 8 {2} _ rfl rfl, hin 2 (by decide)]
  simp only [bind, Except.bind]
  rw [assignLayers, hnode 9 {3} _ rfl rfl, hin 3 (by decide)]
  simp only [bind, Except.bind]
  rw [assignLayers, hnode3 3 _ 6 7 (fourLeaf d 0) (fourLeaf d 1) rfl rfl (by simp) (by simp) rfl rfl]
  simp only [bind, Except.bind]
  rw [assignLayers, hnode3 5 _ 8 9 (fourLeaf d 2) (fourLeaf d 3) rfl rfl (by simp) (by simp) rfl rfl]
  simp only [bind, Except.bind]
  rw [assignLayers, hnode2 2 {0, 1} _ 3 (fourLeaf d 0) (fourLeaf d 1) rfl rfl (by simp)]
  simp only [bind, Except.bind]
  rw [assignLayers, hnode2 4 {2, 3} _ 5 (fourLeaf d 2) (fourLeaf d 3) rfl rfl (by simp)]
  simp only [bind, Except.bind]
  rw [assignLayers, hnode3 1 _ 2 4 (fourPair d (fourLeaf d 0) (fourLeaf d 1)) (fourPair d (fourLeaf d 2) (fourLeaf d 3)) rfl rfl (by simp)
    (by simp) rfl rfl]
  simp only [bind, Except.bind]
  rw [assignLayers, hnode2 0 {0, 1, 2, 3} _ 1 (fourPair d (fourLeaf d 0) (fourLeaf d 1)) (fourPair d (fourLeaf d 2) (fourLeaf d 3)) rfl rfl
    (by simp)]
  simp only [bind, Except.bind]
  rw [assignLayers]
  simp only [Function.update_self, sort0123]

/-- The circuit of a random region graph over four variables computes likelihoods that do not depend on variable 2: the inner product uses
the column of variable 3 for it, too. -/
theorem C72_ignores_variable (d : Draws) : ∃ g M, createRandomRegionGraph (fun _ l => l) {0, 1, 2, 3} 2 1 1 = .ok g ∧
    regionCircuit g {0, 1, 2, 3} (fun _ => .continuous) ⟨1, 1, 1⟩ d = .ok M ∧
    ∀ (a : ℕ → ℝ) (x : ℝ), computed M.root 4 0 (Function.update a 2 x) = computed M.root 4 0 a := by
  refine ⟨_, _, four_variables, four_circuit d, ?_⟩
  intro a x
  have hu01 : uniqueSorted [0, 1] = [0, 1] := by decide
  have hu23 : uniqueSorted [2, 3] = [2, 3] := by decide
  have hl : ∀ a : ℕ → ℝ, (fourPair d (fourPair d (fourLeaf d 0) (fourLeaf d 1)) (fourPair d (fourLeaf d 2) (fourLeaf d 3))).logLikelihood
      ((List.range 4).map a) = (fourPair d (fourPair d (fourLeaf d 0) (fourLeaf d 1)) (fourPair d (fourLeaf d 2) (fourLeaf d 3))).logLikelihood
      [a 0, a 1, 0, a 3] := by
    intro a
    simp [fourPair, fourLeaf, Layer.logLikelihood, childLikelihoods, slicedLikelihoods, Layer.variables, firstVariables, allVariables, hu01, hu23, gather, bind, Except.bind,
      List.range_succ]
  rw [computed, computed, hl, hl, Function.update_of_ne (by decide), Function.update_of_ne (by decide), Function.update_of_ne (by decide)]

end PM.Props
