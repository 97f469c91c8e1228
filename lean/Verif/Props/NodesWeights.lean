import Verif.Circuit.NodesWeightsLemmas
import Verif.Props.ConditionalExamples
import Verif.Props.Examples
import Verif.Spec.Sharing

/-! # C91: `nodes_weights` lists one entry per path from the root, but not the weights -/

namespace PM.Props
open PM.Graph Spec

/-- **C91, the full statement**: the list of a unit contains the weights of the unit, read as weights or as log weights; for a child of the
root of a tree this is the weight of the one edge into it. -/
def C91_full : Prop :=
  (∀ (g : Circuit) (r : Node), Layered g r → TreeShaped g → g.kind? r = some .sum → ∀ e ∈ g.outEdges r, ∀ w, e.weight = some (.fin w) →
    g.nodesWeights r e.dst = [Real.exp w]) ∨
  ∀ (g : Circuit) (r : Node), Layered g r → TreeShaped g → g.kind? r = some .sum → ∀ e ∈ g.outEdges r, ∀ w, e.weight = some (.fin w) →
    g.nodesWeights r e.dst = [w]

/-- What is computed: the number one, once for every path from the root to the unit.  Missing: the weights, which are ignored. -/
theorem C91_paths_partial {g : Circuit} {r : Node} (hL : Layered g r) {c : Node → ℕ} (hc : PathCount g r c) (n : Node) :
    g.nodesWeights r n = List.replicate (c n) 1 :=
  nodesWeights_eq hL hc n

/-- The hypotheses are met by `Ex.dag`, in which the unit 3 has two parents. -/
example : ∃ (c : Node → ℕ) (n : Node), Layered Ex.dag 0 ∧ PathCount Ex.dag 0 c ∧ c n = 2 := by
  refine ⟨fun n => if n = 3 then 2 else if n < 6 then 1 else 0, 3, Ex.dag_layered, ?_, rfl⟩
  intro n
  match n with
  | 0 | 1 | 2 | 3 | 4 | 5 => rfl
  | n + 6 => simp [Ex.dag, inEdges]

theorem mix_paths : PathCount mix 0 fun n => if n < 3 then 1 else 0 := by
  intro n
  match n with
  | 0 | 1 | 2 => rfl
  | n + 3 => simp [mix, inEdges]

/-- C91 fails for a mixture of two leaves with the weights one half: the list of a leaf is `[1]`. -/
theorem C91_full_false : ¬ C91_full := by
  have h1 : mix.nodesWeights 0 1 = [1] := C91_paths_partial mix_layered mix_paths 1
  have he : (⟨0, 1, Ex.lw (1 / 2)⟩ : Edge) ∈ mix.outEdges 0 := by simp [mix, outEdges]
  rintro (h | h)
  · have h2 := h mix 0 mix_layered (by simp [TreeShaped, mix]) rfl _ he (Real.log (1 / 2)) rfl
    rw [h1, Real.exp_log (by norm_num)] at h2
    norm_num at h2
  · have h2 := h mix 0 mix_layered (by simp [TreeShaped, mix]) rfl _ he (Real.log (1 / 2)) rfl
    simp only at h2
    rw [h1, List.cons.injEq] at h2
    have : Real.log (1 / 2) < 0 := Real.log_neg (by norm_num) (by norm_num)
    linarith [h2.1]

end PM.Props
