import Verif.Circuit.Rename
import Verif.Spec.Rename
import Verif.Circuit.TransformLemmas
import Verif.Props.Queries
import Verif.Props.ExampleTools

/-!
# C84: renaming the variables of a circuit
-/

namespace PM.Props

open Spec Graph Classical

theorem newName_eq (v : Var) : ∀ ρ : List (Var × Var), newName ρ v = ρ.lookup v
  | [] => rfl
  | (a, b) :: ρ => by
    rw [List.lookup_cons, newName, List.find?_cons]
    have hc : (v == a) = (a == v) := Bool.beq_comm
    simp only [hc]
    cases (a == v)
    · exact newName_eq v ρ
    · rfl

/-- The full property: after `update_variables` the circuit has the renamed variables, and the likelihood of a point is that
of the point read under the old names. -/
def C84_full : Prop := ∀ (g : Circuit) (r : Node) (sc : Node → Finset Var) (ρ : List (Var × Var)), Layered g r → Scoped g sc →
  (∀ n d, g.kind? n = some (.leaf d) → d.Valid) →
  ∃ g', g.updateVariables ρ = .ok g' ∧ g'.circuitVars = .ok ((sc r).image (renamed ρ)) ∧
    ∀ m m' x, g'.likelihood m x = g.likelihood m' fun v => x (renamed ρ v)

theorem var_updateVariable (ρ : List (Var × Var)) (d : Leaf) : (d.updateVariable ρ).var = renamed ρ d.var := by
  unfold Leaf.updateVariable renamed
  rw [newName_eq]
  cases ρ.lookup d.var with
  | none => rfl
  | some w => cases d <;> rfl

theorem density_updateVariable (ρ : List (Var × Var)) (d : Leaf) (x : ℝ) : leafDensity (d.updateVariable ρ) x = leafDensity d x := by
  unfold Leaf.updateVariable
  cases newName ρ d.var with
  | none => rfl
  | some w => cases d <;> rfl

theorem valid_updateVariable (ρ : List (Var × Var)) {d : Leaf} (h : d.Valid) : (d.updateVariable ρ).Valid := by
  unfold Leaf.updateVariable
  cases newName ρ d.var with
  | none => exact h
  | some w => cases d <;> exact h

/-- C84 (partial): the full property for circuits whose root is a sum or a product; and if no two variables get the same
name, the result is decomposable when the circuit was.  Swapping names is possible.  What is missing: a
circuit that consists of a single leaf is not changed, see `C84_full_false`. -/
theorem C84_rename_partial {g : Circuit} {r : Node} {sc : Node → Finset Var} (ρ : List (Var × Var)) (hL : Layered g r)
    (hs : Scoped g sc) (hv : ∀ n d, g.kind? n = some (.leaf d) → d.Valid) (hr : ∀ d, g.kind? r ≠ some (.leaf d)) :
    ∃ g', g.updateVariables ρ = .ok g' ∧ Layered g' r ∧ g'.circuitVars = .ok ((sc r).image (renamed ρ)) ∧
      (∀ m m' x, g'.likelihood m x = g.likelihood m' fun v => x (renamed ρ v)) ∧
      (Decomposable g sc → Set.InjOn (renamed ρ) {v | ∃ n ∈ g.ids, v ∈ sc n} →
        Scoped g' (fun n => (sc n).image (renamed ρ)) ∧ Decomposable g' fun n => (sc n).image (renamed ρ)) := by
  have hL' := mapLeaves_layered hL (Leaf.updateVariable ρ)
  have hs' : Scoped (g.mapLeavesOn (Leaf.updateVariable ρ) fun _ => true) (fun n => (sc n).image (renamed ρ)) := by
    refine ⟨fun n d h => ?_, fun n h => ?_, fun n h c hc => ?_, fun n h v => ?_⟩
    · obtain ⟨d', h', rfl⟩ := kind?_mapLeaves_leaf.1 h
      rw [var_updateVariable, hs.leaf n d' h', Finset.image_singleton]
    · exact hs.sumNe n (kind?_mapLeaves_sum.1 h)
    · rw [hs.sum n (kind?_mapLeaves_sum.1 h) c hc]
    · have := hs.prod n (kind?_mapLeaves_prod.1 h)
      simp only [Finset.mem_image, this]
      exact ⟨fun ⟨a, ⟨c, hc, ha⟩, e⟩ => ⟨c, hc, a, ha, e⟩, fun ⟨c, hc, a, ha, e⟩ => ⟨a, ⟨c, hc, ha⟩, e⟩⟩
  refine ⟨_, changeLeaves_eq hL hr fun _ _ _ => rfl, hL', circuitVars_eq hL'.wf hL'.graded.acyclic hs' hL'.root, ?_, ?_⟩
  · intro m m' x
    obtain ⟨f, hf⟩ := exists_circuitValue hL.graded.acyclic (fun d => leafDensity d (x (renamed ρ d.var)))
    have hf' : CircuitValue (g.mapLeavesOn (Leaf.updateVariable ρ) fun _ => true) (fun d => leafDensity d (x d.var)) f :=
      mapLeaves_value hf fun n d _ => by rw [density_updateVariable, var_updateVariable]
    obtain ⟨-, -, -, -, h1⟩ := C01_loglikelihood hL hs hv (fun v => x (renamed ρ v)) hf m'
    obtain ⟨-, -, -, -, h2⟩ := C01_loglikelihood hL' hs' (fun n d h => by
      obtain ⟨d', h', rfl⟩ := kind?_mapLeaves_leaf.1 h
      exact valid_updateVariable ρ (hv n d' h')) x hf' m
    rw [h1, h2]
  · intro hd hinj
    refine ⟨hs', fun n h => ?_⟩
    have hn := kind?_mapLeaves_prod.1 h
    refine (List.Pairwise.and_mem.1 (hd n hn)).imp ?_
    rintro a b ⟨ha, hb, hab⟩
    rw [Finset.disjoint_left] at hab ⊢
    intro v hva hvb
    obtain ⟨p, hp, rfl⟩ := Finset.mem_image.1 hva
    obtain ⟨q, hq, hqp⟩ := Finset.mem_image.1 hvb
    have hpq := hinj ⟨b, succ_mem_ids hL.wf hb, hq⟩ ⟨a, succ_mem_ids hL.wf ha, hp⟩ hqp
    exact hab hp (hpq ▸ hq)

/-- The hypotheses are met by the mixture `Ex.dag` and the map that swaps its two variables. -/
example : Layered Ex.dag 0 ∧ Scoped Ex.dag Ex.dagScope ∧ (∀ n d, Ex.dag.kind? n = some (.leaf d) → d.Valid) ∧
    (∀ d, Ex.dag.kind? 0 ≠ some (.leaf d)) ∧ Function.Injective (renamed [(0, 1), (1, 0)]) := by
  refine ⟨Ex.dag_layered, Ex.dag_scoped, Ex.dag_valid, ?_, ?_⟩
  · intro d h
    cases h
  · have hr : ∀ a : Var, renamed [(0, 1), (1, 0)] a = if a = 0 then 1 else if a = 1 then 0 else a := by
      intro a
      by_cases h0 : a = 0
      · subst h0; rfl
      · by_cases h1 : a = 1
        · subst h1; rfl
        · rw [if_neg h0, if_neg h1]
          simp [renamed, List.lookup_cons, beq_false_of_ne h0, beq_false_of_ne h1]
    intro a b h
    rw [hr, hr] at h
    revert h
    split_ifs <;> intro h <;> simp_all

/-- A circuit that is a single uniform distribution. -/
noncomputable def leafOnly : Circuit where
  nodes := [(0, .leaf (.uniform 0 0 1 .closed .closed))]
  edges := []

theorem leafOnly_layered : Layered leafOnly 0 where
  wf := ⟨by simp [leafOnly, ids], by simp [leafOnly], by simp [leafOnly], by simp [leafOnly]⟩
  graded := ⟨fun _ => 0, by simp [leafOnly]⟩
  leaves := Ex.leafTerminal_of (by simp [leafOnly, Graph.succ, outEdges])
  weighted := Ex.weighted_of (by simp [leafOnly])
  root := rfl

/-- C84: a circuit that consists of a single leaf keeps its variable. -/
theorem C84_full_false : ¬ C84_full := by
  intro h
  have hs : Scoped leafOnly fun _ => {0} :=
    Ex.scoped_of (by simp [leafOnly, Leaf.var]) (by simp [leafOnly]) (by simp [leafOnly])
  obtain ⟨g', h1, h2, -⟩ := h leafOnly 0 _ [(0, 1)] leafOnly_layered hs
    (Ex.valid_of (by simp [leafOnly, Leaf.Valid]))
  have : leafOnly.updateVariables [(0, 1)] = .ok leafOnly := rfl
  rw [this] at h1
  cases h1
  rw [circuitVars_eq leafOnly_layered.wf leafOnly_layered.graded.acyclic hs leafOnly_layered.root] at h2
  simp [renamed] at h2

end PM.Props
