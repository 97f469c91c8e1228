import Verif.Circuit.MountLayered
import Verif.Props.Examples
import Mathlib.Tactic.Ring

/-!
# C26: adding a subcircuit
-/

namespace PM.Props

open Graph Spec PM.Bound

variable {V : Type}

/-- **C26**: after `u.add_subcircuit(o, …)` every unit of the circuit that is not `u` or an ancestor of `u`, and every
unit of the added subcircuit, has exactly the value it had before, for every bottom-up query (`A` is arbitrary:
likelihood, probability, cdf, moments, mode, support). -/
theorem C26_frame {g h : Circuit} {u o : Node} {w : Option LogP} (hc : Compatible g h) (hg : g.WF) (hh : h.WF)
    (ho : o ∈ h.ids) (A : Alg Leaf V) (v : V) :
    (∀ n ∈ g.ids, ¬ g.Reachable n u → (Eval (g.addSubcircuit h u o w) A n v ↔ Eval g A n v)) ∧
      ∀ n, h.Reachable o n → ¬ h.Reachable n u → (Eval (g.addSubcircuit h u o w) A n v ↔ Eval h A n v) :=
  ⟨fun _ hn hr => eval_addSubcircuit_left hc hg hh ho hn hr, fun _ hn hr => eval_addSubcircuit_right hc hg hh ho hn hr⟩

theorem not_reachable_of_acyclic {g : Circuit} (ha : g.Acyclic) {u c : Node} (hc : c ∈ g.succ u) :
    ¬ g.Reachable c u := by
  obtain ⟨rank, hr⟩ := ha
  intro h
  have key : ∀ a b, g.Reachable a b → rank b ≤ rank a := by
    intro a b hab
    induction hab with
    | refl => exact le_refl _
    | tail _ hs ih =>
      obtain ⟨e, he, h1, h2⟩ := mem_succ.1 hs
      have := hr e he
      rw [h1, h2] at this
      exact this.le.trans ih
  have h1 := key c u h
  obtain ⟨e, he, h2, h3⟩ := mem_succ.1 hc
  have := hr e he
  rw [h2, h3] at this
  exact absurd h1 (not_le.2 this)

/-- **C26**: the value of an extended sum unit grows by `exp(log_weight)` times the value of the new child, whatever the
leaf values (`leaf` is arbitrary: densities at a point, probabilities of an event, cdf). -/
theorem C26_sum {g h : Circuit} {u o : Node} {w : LogP} (hc : Compatible g h) (hg : g.WF) (ha : g.Acyclic) (hh : h.WF)
    (ho : o ∈ h.ids) (hk : g.kind? u = some .sum) (hn : o ∉ g.succ u) (hr : ¬ h.Reachable o u)
    (leaf : Leaf → Except PyErr ℝ) {a b : ℝ} (hua : Eval g (forwardAlg leaf) u a)
    (hob : Eval h (forwardAlg leaf) o b) :
    Eval (g.addSubcircuit h u o (some w)) (forwardAlg leaf) u (a + w.exp * b) := by
  have hu := mem_ids_of_kind? hk
  have hout : (g.addSubcircuit h u o (some w)).outEdges u = g.outEdges u ++ [⟨u, o, some w⟩] := by
    rw [outEdges_addSubcircuit_self hc hg hh ho hu, updOut_new hn]
  cases hua with
  | leaf h1 _ => rw [hk] at h1; cases h1
  | prod _ h1 => rw [hk] at h1; cases h1
  | sum child h1 h2 h3 h4 =>
    refine .sum (fun c => if c = o then b else child c) ((kind?_addSubcircuit_left hu).trans hk) ?_ ?_ ?_
    · intro c hcm
      unfold succ at hcm
      rw [hout, List.map_append, List.mem_append] at hcm
      rcases hcm with hcm | hcm
      · have hne : c ≠ o := fun h => hn (h ▸ hcm)
        have hci : c ∈ g.ids := by
          obtain ⟨e, he, _, rfl⟩ := mem_succ.1 hcm
          exact hg.dstMem e he
        rw [if_neg hne]
        exact (eval_addSubcircuit_left hc hg hh ho hci (not_reachable_of_acyclic ha hcm)).2 (h2 c hcm)
      · have : c = o := by simpa using hcm
        subst this
        rw [if_pos rfl]
        exact (eval_addSubcircuit_right hc hg hh ho .refl hr).2 hob
    · intro e he
      rw [hout, List.mem_append, List.mem_singleton] at he
      rcases he with he | rfl
      · exact h3 e he
      · rfl
    · simp only [forwardAlg] at h4 ⊢
      injection h4 with h4
      rw [← h4, hout]
      congr 1
      rw [List.map_append, List.map_append, List.sum_append]
      congr 1
      · rw [List.map_map, List.map_map]
        congr 1
        apply List.map_congr_left
        intro e he
        have hne : e.dst ≠ o := fun h => hn (h ▸ List.mem_map_of_mem he)
        simp [hne]
      · simp

/-- **C26**: the value of an extended product unit is multiplied by the value of the new child. -/
theorem C26_product {g h : Circuit} {u o : Node} (hc : Compatible g h) (hg : g.WF) (ha : g.Acyclic) (hh : h.WF)
    (ho : o ∈ h.ids) (hk : g.kind? u = some .prod) (hn : o ∉ g.succ u) (hr : ¬ h.Reachable o u)
    (leaf : Leaf → Except PyErr ℝ) {a b : ℝ} (hua : Eval g (forwardAlg leaf) u a)
    (hob : Eval h (forwardAlg leaf) o b) :
    Eval (g.addSubcircuit h u o none) (forwardAlg leaf) u (a * b) := by
  have hu := mem_ids_of_kind? hk
  have hout : (g.addSubcircuit h u o none).outEdges u = g.outEdges u ++ [⟨u, o, none⟩] := by
    rw [outEdges_addSubcircuit_self hc hg hh ho hu, updOut_new hn]
  cases hua with
  | leaf h1 _ => rw [hk] at h1; cases h1
  | sum _ h1 => rw [hk] at h1; cases h1
  | prod child h1 h2 h4 =>
    refine .prod (fun c => if c = o then b else child c) ((kind?_addSubcircuit_left hu).trans hk) ?_ ?_
    · intro c hcm
      unfold succ at hcm
      rw [hout, List.map_append, List.mem_append] at hcm
      rcases hcm with hcm | hcm
      · have hne : c ≠ o := fun h => hn (h ▸ hcm)
        have hci : c ∈ g.ids := by
          obtain ⟨e, he, _, rfl⟩ := mem_succ.1 hcm
          exact hg.dstMem e he
        rw [if_neg hne]
        exact (eval_addSubcircuit_left hc hg hh ho hci (not_reachable_of_acyclic ha hcm)).2 (h2 c hcm)
      · have : c = o := by simpa using hcm
        subst this
        rw [if_pos rfl]
        exact (eval_addSubcircuit_right hc hg hh ho .refl hr).2 hob
    · simp only [forwardAlg] at h4 ⊢
      injection h4 with h4
      rw [← h4]
      congr 1
      unfold succ
      rw [hout, List.map_append, List.map_append, List.prod_append]
      congr 1
      · congr 1
        apply List.map_congr_left
        intro c hcm
        have hne : c ≠ o := fun h => hn (h ▸ hcm)
        simp [hne]
      · simp

/-- **C26** at the level of a whole circuit: adding the root of a circuit with other units to the root of `g` keeps it a
well-formed layered circuit with the same root, and the result of every bottom-up query with weighted sums and products
(`leaf` arbitrary) is the old one plus `exp(log_weight)` times that of the added circuit. -/
theorem C26_query {g h : Circuit} {r o : Node} {w : LogP} (hg : Layered g r) (hh : Layered h o) (hd : DisjointIds g h)
    (hk : g.kind? r = some .sum) (leaf : Leaf → Except PyErr ℝ) (m m₁ m₂ : Mem ℝ) {a b : ℝ}
    (hga : (g.query (forwardAlg leaf) m₁).2 = .ok a) (hhb : (h.query (forwardAlg leaf) m₂).2 = .ok b) :
    Layered (g.addSubcircuit h r o (some w)) r ∧
      ((g.addSubcircuit h r o (some w)).query (forwardAlg leaf) m).2 = .ok (a + w.exp * b) := by
  have hr := (root_mem hg.root).1
  have ho := (root_mem hh.root).1
  obtain ⟨hL, -⟩ := layered_addSubcircuit (w := some w) hg hh hd hr (by rw [hk]; simp) (fun _ => rfl)
  refine ⟨hL, ?_⟩
  rw [query_iff_eval hL.wf hL.graded hL.leaves hL.root]
  rw [query_iff_eval hg.wf hg.graded hg.leaves hg.root] at hga
  rw [query_iff_eval hh.wf hh.graded hh.leaves hh.root] at hhb
  refine C26_sum hd.compatible hg.wf hg.graded.acyclic hh.wf ho hk ?_ ?_ leaf hga hhb
  · intro hm
    obtain ⟨e, he, _, h2⟩ := mem_succ.1 hm
    exact hd o (h2 ▸ hg.wf.dstMem e he) ho
  · intro hrch
    exact hd r hr (reachable_mem_ids hh.wf ho hrch)

/-- **C26**, boundary: adding a unit that already is a child does not add a second child; a sum unit's weight for it is
replaced, a product unit is unchanged. -/
theorem C26_again {g : Circuit} {u o : Node} {w : Option LogP} (hg : g.WF) (ho : o ∈ g.succ u) :
    (g.addSubcircuit g u o w).succ u = g.succ u ∧
      (∀ e ∈ (g.addSubcircuit g u o w).outEdges u, e.dst = o → w.isSome → e.weight = w) ∧
      (g.addSubcircuit g u o none).outEdges u = g.outEdges u := by
  obtain ⟨e₀, he₀, hs, hd⟩ := mem_succ.1 ho
  have hu : u ∈ g.ids := hs ▸ hg.srcMem e₀ he₀
  have hoi : o ∈ g.ids := hd ▸ hg.dstMem e₀ he₀
  have hout : ∀ w, (g.addSubcircuit g u o w).outEdges u = updOut u (g.outEdges u) o w := fun w =>
    outEdges_addSubcircuit_self (Compatible.refl g) hg hg hoi hu
  have hany : (g.outEdges u).any (fun e => e.dst == o) = true := by
    simp only [List.any_eq_true, beq_iff_eq]
    exact ⟨e₀, mem_outEdges.2 ⟨he₀, hs⟩, hd⟩
  refine ⟨?_, ?_, ?_⟩
  · unfold succ
    rw [hout, updOut, if_pos hany, List.map_map]
    apply List.map_congr_left
    intro e _
    simp only [Function.comp]
    split <;> rfl
  · intro e he hdo hw
    rw [hout, updOut, if_pos hany] at he
    obtain ⟨e', _, rfl⟩ := List.mem_map.1 he
    obtain ⟨w', rfl⟩ := Option.isSome_iff_exists.1 hw
    split at hdo
    · rename_i h; rw [if_pos h]; rfl
    · rename_i h; exact absurd (by simpa using hdo) h
  · rw [hout]
    obtain rfl := hd
    exact updOut_id (nodup_succ hg u) (mem_outEdges.2 ⟨he₀, hs⟩) (.inl rfl)

/-- The hypotheses are met: a new sum unit gets the four-unit circuit `Ex.dag` (moved to other numbers) as a child. -/
example : ∃ (g h : Circuit) (r o : Node), Layered g r ∧ Layered h o ∧ DisjointIds g h ∧ g.kind? r = some .sum ∧
    (∃ a, ∀ leaf, (g.query (forwardAlg leaf) freshMem).2 = .ok a) ∧ Compatible g h ∧ Compatible h h := by
  refine ⟨newUnit 100 .sum, Ex.dag, 100, _, layered_newUnit _ _, Ex.dag_layered, ?_, kind?_newUnit _ _, ⟨0, ?_⟩, ?_,
    Compatible.refl _⟩
  · intro n hn
    simp only [ids_newUnit, List.mem_singleton] at hn
    subst hn
    decide
  · intro leaf
    have hL := layered_newUnit (D := Leaf) 100 .sum
    rw [query_iff_eval hL.wf hL.graded hL.leaves hL.root]
    exact .sum (fun _ => 0) (kind?_newUnit _ _) (by intro c hc; simp [succ] at hc) (by simp) (by simp [forwardAlg])
  · refine DisjointIds.compatible ?_
    intro n hn
    simp only [ids_newUnit, List.mem_singleton] at hn
    subst hn
    decide

end PM.Props
