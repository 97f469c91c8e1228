import Verif.Dist.Hash
import Verif.Circuit.EqualityLemmas

/-!
# C92: hashes of distributions
-/

namespace PM.Props
open PM

/-- The full claim, which sets and dictionaries rely on: distributions that compare equal have the same hash. -/
def C92_full : Prop := ∀ (H : HashKey → ℤ) (a b : Leaf), a.eq b = true → ∃ k, a.hash H = .ok k ∧ b.hash H = .ok k

/-- Not a Gaussian. -/
def NotGaussian : Leaf → Prop
  | .gaussian .. | .truncGaussian .. => False
  | _ => True

/-- The outcomes of a discrete distribution in the order in which they are stored. -/
def outcomes : Leaf → List ℤ
  | .symbolic _ p | .integer _ p => p.map Prod.fst
  | _ => []

theorem dictEq_same {p q : List (ℤ × ℝ)} (hq : (q.map Prod.fst).Nodup) (h : dictEq p q = true) (hk : p.map Prod.fst = q.map Prod.fst) :
    p = q := by
  unfold dictEq at h
  obtain ⟨hl, h⟩ := Iff.mp (@decide_eq_true_iff _ (_)) h
  refine List.ext_getElem hl fun i hi hi' => ?_
  have hf : p[i].1 = q[i].1 := by
    have h1 : (p.map Prod.fst)[i]'(by simpa using hi) = (q.map Prod.fst)[i]'(by simpa using hi') := by simp only [hk]
    simpa using h1
  have h1 := h p[i] (List.getElem_mem hi)
  cases hx : q.find? (fun e => e.1 == p[i].1) with
  | none => rw [hx] at h1; cases h1
  | some x =>
    rw [hx] at h1
    simp only [Option.map_some, Option.some.injEq] at h1
    have hm := List.mem_of_find?_eq_some hx
    have hx1 : x.1 = p[i].1 := by simpa using List.find?_some hx
    have hxq : x = q[i] := by
      have := List.inj_on_of_nodup_map hq hm (List.getElem_mem hi')
      exact this (by rw [hx1, hf])
    exact Prod.ext hf (by rw [← h1, hxq])

/-- **C92.**  Distributions that compare equal and are not Gaussian have the same hash, whatever Python's hash of tuples is, if their
outcomes are stored in the same order (there is nothing to order for continuous distributions).  Missing for the full statement
`C92_full`: Gaussians, and discrete distributions with another order. -/
theorem C92_hash_partial (H : HashKey → ℤ) {a b : Leaf} (ha : NotGaussian a) (hb : (outcomes b).Nodup) (ho : outcomes a = outcomes b)
    (h : a.eq b = true) : ∃ k, a.hash H = .ok k ∧ b.hash H = .ok k := by
  cases a <;> cases b <;> simp only [Leaf.eq, Bool.and_eq_true, reduceCtorEq] at h <;> simp only [NotGaussian] at ha
  · obtain ⟨rfl, rfl, rfl, rfl, rfl⟩ := Iff.mp (@decide_eq_true_iff _ (_)) h
    exact ⟨_, rfl, rfl⟩
  · obtain ⟨rfl, rfl, rfl⟩ := Iff.mp (@decide_eq_true_iff _ (_)) h
    exact ⟨_, rfl, rfl⟩
  · obtain ⟨h1, h2⟩ := h
    obtain rfl := Iff.mp (@decide_eq_true_iff _ (_)) h2
    rw [dictEq_same hb h1 ho]
    exact ⟨_, rfl, rfl⟩
  · obtain ⟨h1, h2⟩ := h
    obtain rfl := Iff.mp (@decide_eq_true_iff _ (_)) h2
    rw [dictEq_same hb h1 ho]
    exact ⟨_, rfl, rfl⟩

/-- **C92 (order).**  The hash depends on the order in which the outcomes are stored: if two distributions have the same hash whatever
Python's hash of tuples is, they store the same outcomes in the same order and have the same variable. -/
theorem C92_order {a b : Leaf} (ha : NotGaussian a) (h : ∀ H, a.hash H = b.hash H) : outcomes a = outcomes b ∧ a.var = b.var := by
  classical
  have key : ∀ {s t : HashKey}, (∀ H : HashKey → ℤ, H s = H t) → s = t := by
    intro s t hst
    by_contra hne
    have := hst fun x => if x = s then 0 else 1
    rw [if_pos rfl, if_neg (Ne.symm hne)] at this
    omega
  cases a <;> cases b <;> simp only [Leaf.hash, Except.ok.injEq, reduceCtorEq, forall_const] at h <;> simp only [NotGaussian] at ha <;>
    · have := key h
      first
        | cases this
          exact ⟨rfl, rfl⟩
        | cases this

/-- **C92 (Gaussians).**  Every Gaussian equals itself, and no hash of it exists. -/
theorem C92_gaussian (H : HashKey → ℤ) {a : Leaf} (ha : ¬ NotGaussian a) : a.eq a = true ∧ a.hash H = .error .typeError := by
  cases a <;> simp only [NotGaussian, not_true_eq_false, not_false_eq_true] at ha
  · exact ⟨Iff.mpr (@decide_eq_true_iff _ (_)) ⟨rfl, rfl, rfl⟩, rfl⟩
  · exact ⟨Iff.mpr (@decide_eq_true_iff _ (_)) ⟨rfl, rfl, rfl, rfl⟩, rfl⟩

/-- A coin, and the same coin with its outcomes in the other order. -/
noncomputable def coinHash : Leaf := .symbolic 0 [(0, 1 / 2), (1, 1 / 2)]

noncomputable def coinHash' : Leaf := .symbolic 0 [(1, 1 / 2), (0, 1 / 2)]

/-- **C92 is false**, also for distributions that are hashable: the two coins compare equal, and there is a hash of tuples under which
their hashes differ. -/
theorem C92_full_false : ¬ C92_full := by
  intro h
  classical
  obtain ⟨k, h1, h2⟩ := h (fun t => match t with | .discrete _ ((0, _) :: _) => 0 | _ => 1) coinHash coinHash' (by
    simp only [coinHash, coinHash', Leaf.eq, Bool.and_eq_true]
    refine ⟨?_, by simp⟩
    unfold dictEq
    refine Iff.mpr (@decide_eq_true_iff _ (_)) ⟨rfl, ?_⟩
    simp)
  simp only [coinHash, coinHash', Leaf.hash, Except.ok.injEq] at h1 h2
  omega

/-- The hypotheses of `C92_hash_partial` hold for the coin and itself. -/
example : NotGaussian coinHash ∧ (outcomes coinHash).Nodup ∧ coinHash.eq coinHash = true := by
  refine ⟨trivial, by simp [coinHash, outcomes], ?_⟩
  simp only [coinHash, Leaf.eq, Bool.and_eq_true]
  refine ⟨?_, by simp⟩
  unfold dictEq
  refine Iff.mpr (@decide_eq_true_iff _ (_)) ⟨rfl, ?_⟩
  simp

/-- The hypotheses of `C92_order` hold for a symbolic and an integer distribution with the same outcomes. -/
example : ∀ H, coinHash.hash H = (Leaf.integer 0 [(0, 1 / 2), (1, 1 / 2)]).hash H := fun _ => rfl

/-- The hypothesis of `C92_gaussian` holds for the standard normal distribution. -/
example : ¬ NotGaussian (.gaussian 0 0 1) := id

end PM.Props
