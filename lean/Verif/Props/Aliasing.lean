import Verif.Heap.World
import Verif.Props.ExampleTools

/-!
# C09: queries that return a new circuit leave the original untouched
-/

namespace PM.Props
open Graph Spec

/-- **C09, full statement.** Whatever calls a user makes, a circuit changes only by in-place edits made on it. -/
def C09_full : Prop := ∀ w : World, Separate w → ∀ (calls : List Call) (i : ℕ), i < w.circuits.length →
  (∀ c ∈ calls, Call.spares i c) → (w.run calls).look i = w.look i

/-- **C09, proved part.** As long as nobody normalises the distribution of a leaf (`leaf.distribution.normalize()`), no sequence of
`copy`, `conditional`, `marginal` on any circuit (including circuit `i`) and in-place edits of other circuits changes the units, edges,
weights or distributions of circuit `i`; the new circuits share no distribution object with the old ones. -/
theorem C09_history_partial (calls : List Call) {w : World} (hs : Separate w) (hd : ∀ c ∈ calls, Call.keepsDicts c) :
    Separate (w.run calls) ∧ ∀ i, i < w.circuits.length → (∀ c ∈ calls, Call.spares i c) → (w.run calls).look i = w.look i := by
  induction calls generalizing w with
  | nil => exact ⟨hs, fun _ _ _ => rfl⟩
  | cons c calls ih =>
    obtain ⟨h1, h2⟩ := step_spec hs c (hd c (by simp))
    obtain ⟨h3, h4⟩ := ih h1 fun c hc => hd c (by simp [hc])
    refine ⟨h3, fun i hi hsp => ?_⟩
    obtain ⟨h5, h6⟩ := h2 i hi (hsp c (by simp))
    exact (h4 i h6 fun c hc => hsp c (by simp [hc])).trans h5

/-- **C09, queries.** No sequence of `copy`, `conditional` and `marginal` calls changes any circuit. -/
theorem C09_queries {w : World} (hs : Separate w) (calls : List Call) (hq : ∀ c ∈ calls, ∀ j e, c ≠ .edit j e) (i : ℕ)
    (hi : i < w.circuits.length) : (w.run calls).look i = w.look i := by
  refine (C09_history_partial calls hs ?_).2 i hi ?_
  · intro c hc
    have := hq c hc
    cases c with
    | edit j e => exact absurd rfl (this j e)
    | _ => exact trivial
  · intro c hc
    have := hq c hc
    cases c with
    | edit j e => exact absurd rfl (this j e)
    | _ => exact trivial

/-- What an in-place method that succeeds does to the circuit it is called on. -/
theorem look_edit {w : World} {j : ℕ} {gr : RefCircuit} (hj : w.circuits[j]? = some gr) {e : Edit} {h : Heap} {g' : RefCircuit}
    (he : World.applyEdit gr e w.heap = (h, .ok g')) : (w.editAt j e).look j = some (g'.view h) := by
  have hlt : j < w.circuits.length := by
    by_contra hc
    rw [List.getElem?_eq_none (by omega)] at hj
    exact absurd hj (by simp)
  have : w.editAt j e = ⟨h, w.circuits.set j g'⟩ := by simp only [World.editAt, hj, he]
  rw [this]
  simp only [World.look, List.getElem?_set_self hlt, Option.map_some]

/-- **C09, results.** The circuit a query returns is the one the circuit model without objects computes: `copy`, `conditional` and
`marginal` with circuit and distribution objects refine the operations on values. -/
theorem C09_results {w : World} (hs : Separate w) {i : ℕ} {g : Circuit} (hi : w.look i = some g) :
    (w.step (.copy i)).look w.circuits.length = some g.copy ∧
    (∀ Es g' p, g.logConditional Es = .ok (some g', p) → (w.step (.conditional i Es)).look w.circuits.length = some g') ∧
    ∀ vs g', g.copy.marginalInPlace vs = .ok (some g') → (w.step (.marginal i vs)).look w.circuits.length = some g' := by
  unfold World.look at hi
  cases hj : w.circuits[i]? with
  | none => rw [hj] at hi; exact absurd hi (by simp)
  | some gr =>
    rw [hj] at hi
    injection hi with hi
    subst hi
    obtain ⟨h1, g1, hc, hsep, hv, -⟩ := copyAt_spec hs hj
    have hget : (World.mk h1 (w.circuits ++ [g1])).circuits[w.circuits.length]? = some g1 := List.getElem?_concat_length
    have hk : Owns (fun _ => True) h1 g1 := fun r hr => ⟨hsep.known _ (List.mem_of_getElem? hget) r hr, trivial⟩
    refine ⟨?_, ?_, ?_⟩
    · have : w.step (.copy i) = ⟨h1, w.circuits ++ [g1]⟩ := by simp only [World.step, hc]
      rw [this, World.look, hget, Option.map_some, hv]
    · intro Es g' p hg'
      have hst : w.step (.conditional i Es) = (World.mk h1 (w.circuits ++ [g1])).editAt w.circuits.length (.conditional Es) := by
        simp only [World.step, World.conditionalAt, hc]
      rw [hst]
      have hp := (runs_logConditionalInPlace hsep.wf Es freshMem hk fun _ _ => trivial).post
      rw [hv] at hp
      rcases hr : OnHeap.logConditionalInPlace g1 freshMem Es h1 with ⟨h2, e | ⟨o, q⟩⟩ <;> rw [hr] at hp
      · exact absurd (hp.symm.trans hg') (by simp)
      · have h3 := hp.2.symm.trans hg'
        injection h3 with h3
        obtain ⟨h4, -⟩ := Prod.mk.inj h3
        cases o with
        | none => exact absurd h4 (by simp)
        | some g2 =>
          have h4 := Option.some.inj h4
          rw [look_edit hget (h := h2) (g' := g2) (by simp only [World.applyEdit, HM.bind, hr]; rfl), ← h4]
    · intro vs g' hg'
      have hst : w.step (.marginal i vs) = (World.mk h1 (w.circuits ++ [g1])).editAt w.circuits.length (.marginal vs) := by
        simp only [World.step, World.marginalAt, hc]
      rw [hst]
      have hp := (runs_marginalInPlace vs hk).post
      rw [hv] at hp
      rcases hr : OnHeap.marginalInPlace g1 vs h1 with ⟨h2, e | o⟩ <;> rw [hr] at hp
      · exact absurd (hp.symm.trans hg') (by simp)
      · have h3 := hp.2.symm.trans hg'
        injection h3 with h3
        cases o with
        | none => exact absurd h3 (by simp)
        | some g2 =>
          have h4 := Option.some.inj h3
          rw [look_edit hget (h := h2) (g' := g2) (by simp only [World.applyEdit, HM.bind, hr]; rfl), ← h4]

/-- A user with one circuit: a leaf with a symbolic distribution given by counts. -/
def counts : World where
  heap := { obj := fun _ => .discrete true 0 0, dict := fun _ => [(0, 1), (1, 3)], nextObj := 1, nextDict := 1 }
  circuits := [{ nodes := [(0, .leaf 0)], edges := [] }]

theorem counts_separate : Separate counts := by
  refine ⟨?_, ?_, ?_⟩
  · intro r hr s v k h
    injection h with _ _ h
    rw [← h]; exact Nat.one_pos
  · intro g hg r hr
    rw [List.mem_singleton.1 hg] at hr
    have : r = 0 := List.mem_singleton.1 hr
    rw [this]; exact Nat.one_pos
  · intro i j g g' r h1 h2 hr1 hr2
    have e : ∀ (k : ℕ) g, counts.circuits[k]? = some g → k = 0 := by
      intro k g h
      cases k with
      | zero => rfl
      | succ k => exact absurd h (by simp [counts])
    rw [e i g h1, e j g' h2]

/-- **C09 fails for `leaf.distribution.normalize()`**: a copied discrete distribution shares the dictionary of probabilities, which
`normalize` changes in place. -/
theorem C09_full_false : ¬ C09_full := by
  intro h
  have h1 := h counts counts_separate [.copy 0, .edit 1 (.normalizeLeaf 0)] 0 Nat.one_pos (by simp [Call.spares])
  have h2 : (counts.run [.copy 0, .edit 1 (.normalizeLeaf 0)]).look 0 =
      some ⟨[(0, .leaf (.symbolic 0 (Leaf.normalizeProbs [(0, 1), (1, 3)])))], []⟩ := rfl
  have h3 : counts.look 0 = some ⟨[(0, .leaf (.symbolic 0 [(0, 1), (1, 3)]))], []⟩ := rfl
  rw [h2, h3] at h1
  simp [Leaf.normalizeProbs] at h1

/-- A user with a product of two independent variables. -/
def pair : World where
  heap := { obj := fun r => .value (.dirac r 0 1), dict := fun _ => [], nextObj := 2, nextDict := 0 }
  circuits := [{ nodes := [(0, .prod), (1, .leaf 0), (2, .leaf 1)], edges := [⟨0, 1, none⟩, ⟨0, 2, none⟩] }]

/-- The copy in `marginal` is needed: `marginal_in_place` on the user's own circuit changes it, so a `marginal` without the copy would
violate `C09_queries`. -/
theorem C09_copy_needed : (pair.editAt 0 (.marginal {0})).look 0 ≠ pair.look 0 := by
  have h1 : (pair.editAt 0 (.marginal {0})).look 0 = some ⟨[(1, .leaf (.dirac 0 0 1))], []⟩ := rfl
  have h2 : pair.look 0 =
      some ⟨[(0, .prod), (1, .leaf (.dirac 0 0 1)), (2, .leaf (.dirac 1 0 1))], [⟨0, 1, none⟩, ⟨0, 2, none⟩]⟩ := rfl
  rw [h1, h2]
  simp

/-- The proved part applies: conditioning and marginalising the circuit, translating and refitting the copy leave the original alone. -/
example : (counts.run [.copy 0, .conditional 0 [[(0, .symbols [1])]], .marginal 0 {0}, .edit 1 (.translate fun _ => some 2),
    .edit 1 (.fit 0 0 [4, 5]), .edit 1 .normalize, .edit 2 (.conditional [[(0, .symbols [0])]])]).look 0 = counts.look 0 := by
  refine (C09_history_partial _ counts_separate ?_).2 0 Nat.one_pos ?_ <;> simp [Call.keepsDicts, Call.spares]

/-- The copy is there and looks like the original; after refitting the copy it looks different. -/
example : (counts.step (.copy 0)).look 1 = counts.look 0 ∧
    (counts.run [.copy 0, .edit 1 (.fit 0 0 [4])]).look 1 = some ⟨[(0, .leaf (.integer 0 (Leaf.fitDiscrete [4])))], []⟩ := by
  constructor
  · exact (C09_results counts_separate (i := 0) rfl).1
  · rfl

end PM.Props
