import Verif.Graph.ValidLemmas
import Verif.Graph.Bfs
import Verif.Spec.Eval
import Verif.Props.Examples

/-!
# C94: `is_valid`
-/

namespace PM.Props
open PM PM.Graph PM.Spec

variable {D : Type} {g : Graph D}

/-- **C94 (exactness).**  On every graph with units, `is_valid` returns, and the answer is `True` exactly if the graph has no directed cycle
and is connected. -/
theorem C94_exact (hw : g.WF) (hne : g.ids ≠ []) : ∃ b, g.isValid = .ok b ∧ (b = true ↔ NoCycle g ∧ Connected g) := by
  unfold isValid
  by_cases hd : g.isDag
  · obtain ⟨b, hb, hiff⟩ := isWeaklyConnected_iff hw hne
    exact ⟨b, by rw [if_pos hd, hb], by rw [hiff, ← isDag_iff hw]; simp [hd]⟩
  · exact ⟨false, by rw [if_neg hd], by rw [← isDag_iff hw]; simp [hd]⟩

/-- **C94 (no units).**  `is_valid` of a circuit without units raises. -/
theorem C94_empty (h : g.ids = []) : g.isValid = .error .networkXError := by
  have hd : g.isDag = true := by simp [isDag, h]
  simp [isValid, hd, isWeaklyConnected, h]

theorem noCycle_of_acyclic (h : g.Acyclic) : NoCycle g := by
  obtain ⟨rank, hr⟩ := h
  have key : ∀ {a b}, Relation.TransGen (Arrow g) a b → rank b < rank a := by
    intro a b hab
    induction hab with
    | single h => obtain ⟨e, he, rfl, rfl⟩ := h; exact hr e he
    | tail _ h ih => obtain ⟨e, he, rfl, rfl⟩ := h; exact (hr e he).trans ih
  exact fun n hn => lt_irrefl _ (key hn)

/-- **C94 (valid circuits).**  `is_valid` is `True` for every acyclic circuit that has a root, so for every circuit the other theorems are
about. -/
theorem C94_rooted (hw : g.WF) (ha : g.Acyclic) {r : Node} (hr : g.root = .ok r) : g.isValid = .ok true := by
  obtain ⟨b, hb, hiff⟩ := C94_exact hw (List.ne_nil_of_mem (root_mem hr).1)
  have hc : Connected g := by
    have hreach : ∀ n ∈ g.ids, Relation.ReflTransGen (fun x y => Arrow g x y ∨ Arrow g y x) r n := by
      intro n hn
      refine Relation.ReflTransGen.mono (r := fun a b => b ∈ g.succ a) ?_ _ _ (reachable_of_root hw ha hr n hn)
      intro x y hxy
      obtain ⟨e, he, h1, h2⟩ := mem_succ.1 hxy
      exact .inl ⟨e, he, h1, h2⟩
    exact fun a ha b hb => (connected_symm (hreach a ha)).trans (hreach b hb)
  rw [hb, hiff.2 ⟨noCycle_of_acyclic ha, hc⟩]

/-- **C94 (roots).**  A valid circuit has a unit without parents; `root` returns it if it is the only one, and then every unit can be reached
from it, and raises `ValueError` otherwise. -/
theorem C94_sources (hw : g.WF) (hv : g.isValid = .ok true) :
    (∃ r, g.root = .ok r ∧ ∀ n ∈ g.ids, Relation.ReflTransGen (Arrow g) r n) ∨
    (g.root = .error .valueError ∧ ∃ a ∈ g.ids, ∃ b ∈ g.ids, a ≠ b ∧ (∀ x, ¬ Arrow g x a) ∧ ∀ x, ¬ Arrow g x b) := by
  classical
  have hne : g.ids ≠ [] := fun h0 => by rw [C94_empty h0] at hv; cases hv
  obtain ⟨b, hb, hiff⟩ := C94_exact hw hne
  rw [hb] at hv
  injection hv with hv
  obtain ⟨hnc, _⟩ := hiff.1 hv
  have hin : ∀ n, (g.inDegree n == 0) = true ↔ ∀ x, ¬ Arrow g x n := by
    intro n
    rw [beq_iff_eq, inDegree, List.length_eq_zero_iff]
    constructor
    · rintro h x ⟨e, he, rfl, rfl⟩
      have := mem_inEdges.2 ⟨he, rfl⟩
      rw [h] at this
      cases this
    · intro h
      rw [List.eq_nil_iff_forall_not_mem]
      intro e he
      obtain ⟨h1, h2⟩ := mem_inEdges.1 he
      exact h e.src ⟨e, h1, rfl, h2⟩
  cases hf : g.ids.filter (fun n => g.inDegree n == 0) with
  | nil =>
    exfalso
    obtain ⟨n, hn, hsrc⟩ := NoCycle.source hnc hne
    have : n ∈ g.ids.filter (fun n => g.inDegree n == 0) := by
      rw [List.mem_filter, hin]
      refine ⟨hn, fun x hx => hsrc x ?_ hx⟩
      obtain ⟨e, he, rfl, _⟩ := hx
      exact hw.srcMem e he
    rw [hf] at this
    cases this
  | cons a l =>
    have ha : a ∈ g.ids.filter (fun n => g.inDegree n == 0) := by rw [hf]; simp
    rw [List.mem_filter, hin] at ha
    cases l with
    | nil =>
      left
      refine ⟨a, by simp [root, hf], ?_⟩
      -- the units that cannot be reached have a source, which is another unit without parents
      by_contra hno
      push Not at hno
      obtain ⟨n, hn, hnr⟩ := hno
      obtain ⟨m, hm, hsrc⟩ := NoCycle.source hnc (rest := g.ids.filter fun n => decide (¬ Relation.ReflTransGen (Arrow g) a n))
        (List.ne_nil_of_mem (a := n) (List.mem_filter.2 ⟨hn, by simpa using hnr⟩))
      rw [List.mem_filter, decide_eq_true_eq] at hm
      have hm0 : m ∈ g.ids.filter (fun n => g.inDegree n == 0) := by
        rw [List.mem_filter, hin]
        refine ⟨hm.1, fun x hx => ?_⟩
        refine hsrc x (List.mem_filter.2 ⟨?_, ?_⟩) hx
        · obtain ⟨e, he, rfl, _⟩ := hx
          exact hw.srcMem e he
        · rw [decide_eq_true_eq]
          exact fun hax => hm.2 (hax.tail hx)
      rw [hf, List.mem_singleton] at hm0
      exact hm.2 (hm0 ▸ .refl)
    | cons b l =>
      right
      have hb' : b ∈ g.ids.filter (fun n => g.inDegree n == 0) := by rw [hf]; simp
      rw [List.mem_filter, hin] at hb'
      refine ⟨by simp [root, hf], a, ha.1, b, hb'.1, ?_, ha.2, hb'.2⟩
      have := hw.nodup.filter (fun n => g.inDegree n == 0)
      rw [hf] at this
      simp only [List.nodup_cons, List.mem_cons, not_or] at this
      exact this.1.1

/-- Two product units over the same leaf. -/
noncomputable def twoRoots : Circuit := ⟨[(0, .prod), (1, .prod), (2, .leaf (.dirac 0 0 1))], [⟨0, 2, none⟩, ⟨1, 2, none⟩]⟩

theorem twoRoots_wf : twoRoots.WF := ⟨by decide, by simp [twoRoots], by simp [twoRoots, ids], by simp [twoRoots, ids]⟩

/-- **C94 (several roots).**  The second case of `C94_sources` is possible: `is_valid` does not promise that a circuit has a root. -/
theorem C94_rootless : ¬ ∀ g : Circuit, g.WF → g.isValid = .ok true → ∃ r, g.root = .ok r := by
  intro h
  have hv : twoRoots.isValid = .ok true := rfl
  obtain ⟨r, hr⟩ := h twoRoots twoRoots_wf hv
  have : twoRoots.root = .error .valueError := rfl
  rw [this] at hr
  cases hr

/-- The hypotheses of the theorems hold for the circuit of the examples. -/
example : Ex.dag.WF ∧ Ex.dag.Acyclic ∧ Ex.dag.root = .ok 0 ∧ Ex.dag.isValid = .ok true :=
  ⟨Ex.dag_layered.wf, Ex.dag_layered.graded.acyclic, Ex.dag_layered.root,
    C94_rooted Ex.dag_layered.wf Ex.dag_layered.graded.acyclic Ex.dag_layered.root⟩

end PM.Props
