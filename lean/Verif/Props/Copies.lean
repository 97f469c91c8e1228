import Verif.Circuit.JsonLemmas
import Verif.Circuit.Moment
import Verif.Props.Examples

/-!
# C19, C20: a copied circuit and a circuit read back from JSON answer every query like the original
-/

namespace PM.Props

open Graph Spec PM.Bound

/-- Two circuit objects, both without earlier queries, give the same answers (values and exceptions): their variables, and
`log_likelihood`, `cdf`, `probability` and `moment` for all arguments; the answers of any sequence of bottom-up queries. -/
structure SameAnswers (g g' : Circuit) : Prop where
  vars : g'.circuitVars = g.circuitVars
  logLikelihood : ∀ x, (g'.logLikelihood freshMem x).2 = (g.logLikelihood freshMem x).2
  cdf : ∀ x, (g'.cdf freshMem x).2 = (g.cdf freshMem x).2
  probability : ∀ dom E, (g'.probability freshMem dom E).2 = (g.probability freshMem dom E).2
  moment : ∀ order center, (Graph.moment g' freshMem order center).2 = (Graph.moment g freshMem order center).2
  session : ∀ (V : Type) (As : List (Alg Leaf V)), (g'.session As freshMem).2 = (g.session As freshMem).2

theorem probabilityLoop_renamed {g g' : Circuit} {φ : Node → Node} (hw : g.WF) (h : Renamed g g' φ) : ∀ (Es : List SimpleEvent)
    (acc : ℝ) (m m' : Mem ℝ), SameResults g φ m m' → (g'.probabilityLoop Es acc m').2 = (g.probabilityLoop Es acc m).2 := by
  intro Es
  induction Es with
  | nil => intro acc m m' _; rfl
  | cons E Es ih =>
    intro acc m m' hm
    have key : SameResults g φ (g.probabilityOfSimpleEvent m E).1 (g'.probabilityOfSimpleEvent m' E).1 ∧
        (g'.probabilityOfSimpleEvent m' E).2 = (g.probabilityOfSimpleEvent m E).2 := Renamed.query hw h _ hm
    unfold probabilityLoop
    obtain ⟨k1, k2⟩ := key
    revert k1 k2
    generalize g.probabilityOfSimpleEvent m E = A
    generalize g'.probabilityOfSimpleEvent m' E = B
    obtain ⟨a, a'⟩ := A
    obtain ⟨b, b'⟩ := B
    intro k1 k2
    dsimp only at k1 k2
    subst k2
    cases b' with
    | error e => rfl
    | ok p => exact ih _ _ _ k1

theorem sameAnswers_of_renamed {g g' : Circuit} {φ : Node → Node} (hw : g.WF) (h : Renamed g g' φ) : SameAnswers g g' where
  vars := Renamed.circuitVars hw h
  logLikelihood x := by
    unfold Graph.logLikelihood
    rw [Renamed.circuitVars hw h]
    cases g.circuitVars with
    | error e => rfl
    | ok vs => exact (Renamed.query hw h _ fun _ _ => rfl).2
  cdf x := by
    unfold Graph.cdf
    rw [Renamed.circuitVars hw h]
    cases g.circuitVars with
    | error e => rfl
    | ok vs => exact (Renamed.query hw h _ fun _ _ => rfl).2
  probability dom E := by
    unfold Graph.probability
    rw [Renamed.circuitVars hw h]
    cases g.circuitVars with
    | error e => rfl
    | ok vs => exact probabilityLoop_renamed hw h _ _ _ _ fun _ _ => rfl
  moment order center := by
    unfold Graph.moment
    rw [Renamed.circuitVars hw h]
    cases g.circuitVars with
    | error e => rfl
    | ok vs =>
      exact congrArg (Except.map fun (res : Var → ℝ) (v : Var) => if v ∈ vs then some (res v) else none)
          (Renamed.query hw h (momentAlg vs order center) (m := freshMem) (m' := freshMem) fun _ _ => rfl).2
  session V As := Renamed.session hw h As fun _ _ => rfl

/-- C20.  The copy of a circuit is the circuit with new unit identities (`off + n` for the unit `n`): same kinds, same leaf
distributions, same children in the same order with the same weights; and it gives the same answers.  Any graph: no tree,
layer or rootedness is needed. -/
theorem C20_copy {g : Circuit} (hw : g.WF) (off : Nat) : Renamed g (g.copyAt off) (off + ·) ∧ SameAnswers g (g.copyAt off) :=
  ⟨copyAt_renamed hw off, sameAnswers_of_renamed hw (copyAt_renamed hw off)⟩

/-- C20, whatever was asked of the original before: on layered circuits the copy, which has no earlier results, answers a
query as the original does with any results left in its units. -/
theorem C20_copy_after_queries {g : Circuit} {r : Node} (hL : Layered g r) (off : Nat) {V : Type} (A : Alg Leaf V) (m : Mem V) (v : V) :
    ((g.copyAt off).query A freshMem).2 = .ok v ↔ (g.query A m).2 = .ok v := by
  rw [(Renamed.query hL.wf (copyAt_renamed hL.wf off) A (m := freshMem) (m' := freshMem) fun _ _ => rfl).2,
    query_iff_eval hL.wf hL.graded hL.leaves hL.root, query_iff_eval hL.wf hL.graded hL.leaves hL.root]

example : Ex.dag.WF ∧ Layered Ex.dag 0 := ⟨Ex.dag_layered.wf, Ex.dag_layered⟩

/-- C19.  Reading what `to_json` wrote succeeds and gives the circuit with new unit identities: same kinds, same leaf
distributions, same children in the same order with the same weights (also weight 0, i.e. `-inf` as log weight); and it gives
the same answers.  Any graph.  `base` is the first identity that is free in the process that reads. -/
theorem C19_json_round_trip {g : Circuit} (hw : g.WF)
    (hk : ∀ n v probs, g.kind? n = some (.leaf (.symbolic v probs)) ∨ g.kind? n = some (.leaf (.integer v probs)) →
      (probs.map Prod.fst).Nodup) (base : Nat) :
    ∃ g' φ, Graph.fromJson base g.toJson = .ok g' ∧ Renamed g g' φ ∧ SameAnswers g g' := by
  refine ⟨g.loaded base, g.loadId base, fromJson_toJson hw ?_ base, loaded_renamed hw base,
    sameAnswers_of_renamed hw (loaded_renamed hw base)⟩
  intro n d hd
  cases d with
  | symbolic v probs => exact hk n v probs (.inl hd)
  | integer v probs => exact hk n v probs (.inr hd)
  | _ => trivial

/-- C19 for a single distribution. -/
theorem C19_leaf_round_trip (d : Leaf) (hk : ∀ v probs, d = .symbolic v probs ∨ d = .integer v probs → (probs.map Prod.fst).Nodup) :
    Leaf.fromJson d.toJson = .ok d := by
  refine Leaf.fromJson_toJson d ?_
  cases d with
  | symbolic v probs => exact hk v probs (.inl rfl)
  | integer v probs => exact hk v probs (.inr rfl)
  | _ => trivial

/-- `0: ⊕ → 1: ⊗ (log 1/2), 2: ⊗ (-inf)`, both products share the integer leaf `3`; `4`, `5` truncated Gaussian and Dirac. -/
noncomputable def jsonExample : Circuit where
  nodes := [(7, .sum), (1, .prod), (2, .prod), (3, .leaf (.integer 0 [(2, 1 / 2), (-1, 1 / 2)])),
    (4, .leaf (.truncGaussian 1 ⟨0, ⊤, .opn, .opn⟩ 0 1)), (5, .leaf (.dirac 1 2 1))]
  edges := [⟨1, 4, none⟩, ⟨7, 1, some (.fin (Real.log (1 / 2)))⟩, ⟨7, 2, some .negInf⟩, ⟨1, 3, none⟩, ⟨2, 3, none⟩, ⟨2, 5, none⟩]

example : jsonExample.WF ∧ (∀ n v probs, jsonExample.kind? n = some (.leaf (.symbolic v probs)) ∨
    jsonExample.kind? n = some (.leaf (.integer v probs)) → (probs.map Prod.fst).Nodup) := by
  refine ⟨⟨by decide, by decide, by simp [jsonExample, ids], by simp [jsonExample, ids]⟩, ?_⟩
  intro n v probs h
  have := Ex.forall_kind (g := jsonExample) (P := fun n k => ∀ v probs, k = .leaf (.symbolic v probs) ∨ k = .leaf (.integer v probs) →
    (probs.map Prod.fst).Nodup) (by
      simp only [jsonExample, List.forall_mem_cons]
      refine ⟨?_, ?_, ?_, ?_, ?_, ?_, by simp⟩ <;> rintro v probs (h | h) <;> cases h
      decide) n
  rcases h with h | h
  · exact this _ h v probs (.inl rfl)
  · exact this _ h v probs (.inr rfl)

end PM.Props
