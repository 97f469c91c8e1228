import Verif.BN.Circuit
import Verif.BN.ForwardLemmas
import Verif.Circuit.Mixture
import Verif.Circuit.Attach
import Verif.Circuit.DetSumLemmas
import Verif.Circuit.UniformLemmas
import Mathlib.Algebra.BigOperators.Fin

/-! Lemmas for the circuit of a Bayesian network. -/

namespace PM.Graph

open Spec

theorem succ_copyAt {D : Type} {g : Graph D} (hw : g.WF) (off : ℕ) (n : Node) :
    (g.copyAt off).succ (off + n) = (g.succ n).map (off + ·) := by
  unfold succ
  rw [outEdges_copyAt hw, List.map_map, List.map_map]
  rfl

/-- A copy of a mixture. -/
theorem Mixture.copyAt {g : Circuit} {u : Node} {V : Finset Var} {N : ℕ} {F : ℕ → (Leaf → ℝ) → ℝ} (h : Mixture g u V N F)
    (off : ℕ) : Mixture (g.copyAt off) (off + u) V N F := by
  have hw := h.layered.wf
  refine ⟨Layered.copyAt h.layered off, ?_, ?_, ?_, ?_, ?_⟩
  · obtain ⟨sc, h1, h2, h3⟩ := h.scope
    refine ⟨_, Scoped.copyAt hw h1 off, Decomposable.copyAt hw h2 off, ?_⟩
    simp only [Nat.add_sub_cancel_left, h3]
  · intro n d hk
    obtain ⟨m, rfl, hm⟩ := exists_of_kind?_copyAt hk
    exact h.valid m d hm
  · rw [kind?_copyAt, h.kind]
  · rw [succ_copyAt hw, List.length_map, h.count]
  · intro ℓ f hf k hk
    have hf' : CircuitValue g ℓ fun n => f (off + n) := by
      refine ⟨?_, ?_, ?_⟩
      · intro n d hk
        exact hf.leaf (off + n) d (by rw [kind?_copyAt, hk])
      · intro n hk
        rw [hf.sum (off + n) (by rw [kind?_copyAt, hk]), outEdges_copyAt hw, List.map_map]
        rfl
      · intro n hk
        rw [hf.prod (off + n) (by rw [kind?_copyAt, hk]), outEdges_copyAt hw, List.map_map]
        rfl
    rw [← h.value ℓ _ hf' k hk, succ_copyAt hw]
    have hk' : k < (g.succ u).length := by rw [h.count]; exact hk
    simp only [List.getD_eq_getElem?_getD, List.getElem?_map, List.getElem?_eq_getElem hk', Option.map_some, Option.getD_some]

theorem disjointIds_copyAt (g h : Circuit) : DisjointIds g (h.copyAt g.fresh) := by
  intro n hn hn'
  obtain ⟨m, _, rfl⟩ := exists_of_mem_copyAt hn'
  have := lt_fresh hn
  nomega

end PM.Graph

namespace PM.BN
open PM PM.BN.Spec Graph Spec
open PM.Leaf (lookup normalizeProbs)

theorem nodup_states (k : ℕ) : (states k).Nodup :=
  List.Nodup.map (fun a b h => by simpa using h) List.nodup_range

theorem mem_states {k : ℕ} {t : ℤ} : t ∈ states k ↔ ∃ i < k, (i : ℤ) = t := by
  simp [states]

theorem length_states (k : ℕ) : (states k).length = k := by simp [states]

/-- The sum unit of a message. -/
theorem messagePart_mixture {m : List (ℤ × ℝ)} {k n : ℕ} (hl : m.length = k) (hk0 : 0 < k) (p : ℝ) :
    ∃ g u, messagePart (some m, p) n = .ok (g, u) ∧
      Mixture g u {n} k (fun i ℓ => ℓ (.symbolic n [((m.map Prod.fst).getD i 0, 1)])) := by
  set d : Leaf := .symbolic n m with hd
  set ps : List (Leaf × LogP) := m.map fun kp => (Leaf.symbolic n [(kp.1, 1)], LogP.log kp.2) with hps
  have hL := layered_newUnit (D := Leaf) 0 (.leaf d)
  have hkn : (newUnit 0 (.leaf d) : Circuit).kind? 0 = some (.leaf d) := rfl
  have hR := replaced hL.wf hkn ps
  set g := (newUnit 0 (.leaf d) : Circuit).replaceLeaf 0 ps with hg
  have hfresh : (newUnit 0 (.leaf d) : Circuit).fresh = 1 := rfl
  have hne : ps ≠ [] := by
    rw [hps, Ne, List.map_eq_nil_iff]; rintro rfl; simp at hl; omega
  have hsc : Scoped (newUnit 0 (.leaf d) : Circuit) (fun _ => {n}) := by
    refine ⟨?_, ?_, ?_, ?_⟩
    · intro i d' hi
      have := mem_ids_of_kind? hi
      simp only [ids_newUnit, List.mem_singleton] at this
      subst this
      rw [hkn] at hi
      injection hi with hi
      injection hi with hi
      subst hi
      rfl
    all_goals
      intro i hi
      have := mem_ids_of_kind? hi
      simp only [ids_newUnit, List.mem_singleton] at this
      subst this
      rw [hkn] at hi
      cases hi
  have hsucc : g.succ 1 = (List.range k).map fun i => 1 + 1 + i := by
    unfold succ
    have := hR.outSum
    rw [hfresh] at this
    rw [this]
    unfold sumEdges
    rw [List.map_map]
    apply List.ext_getElem
    · simp [hps, hl]
    · intro i h1 h2
      simp
  refine ⟨g, 1, rfl, ?_, ?_, ?_, ?_, ?_, ?_⟩
  · exact hR.layered hL hkn
  · refine ⟨_, hR.isScoped hL.wf hsc hkn hne (fun q hq => by
      rw [hps, List.mem_map] at hq; obtain ⟨kp, _, rfl⟩ := hq; rfl), ?_, ?_⟩
    · intro i hi
      rcases hR.cases_ids (mem_ids_of_kind? hi) with ⟨h1, h2, _⟩ | ⟨rfl, h3⟩ | ⟨q, _, rfl, h3⟩
      · simp only [ids_newUnit, List.mem_singleton] at h1
        exact absurd h1 h2
      · rw [h3] at hi; cases hi
      · rw [h3] at hi; cases hi
    · exact Replaced.scope_fresh
  · intro i d' hi
    rcases hR.cases_ids (mem_ids_of_kind? hi) with ⟨h1, h2, _⟩ | ⟨rfl, h3⟩ | ⟨q, hq, rfl, h3⟩
    · simp only [ids_newUnit, List.mem_singleton] at h1
      exact absurd h1 h2
    · rw [h3] at hi; cases hi
    · rw [h3] at hi
      injection hi with hi
      injection hi with hi
      subst hi
      have := List.fst_mem_of_mem_zipIdx hq
      rw [hps, List.mem_map] at this
      obtain ⟨kp, _, h⟩ := this
      rw [← h]
      simp [Leaf.Valid]
  · exact hR.kindSum
  · rw [hsucc]; simp
  · intro ℓ f hf i hi
    have hi' : i < ps.length := by rw [hps, List.length_map, hl]; exact hi
    rw [hsucc]
    have : ((List.range k).map fun i => 1 + 1 + i).getD i 0 = 1 + 1 + i := by
      simp [List.getD_eq_getElem?_getD, hi]
    rw [this]
    have hq : (ps[i], i) ∈ ps.zipIdx := by
      rw [List.mk_mem_zipIdx_iff_getElem?]
      exact List.getElem?_eq_getElem hi'
    have hkk := hR.kindNew _ hq
    rw [hfresh] at hkk
    rw [hf.leaf _ _ hkk]
    have hmi : i < m.length := by rw [hl]; exact hi
    have hkey : (m.map Prod.fst).getD i 0 = (m[i]).1 := by
      simp [List.getD_eq_getElem?_getD, hmi]
    simp only [hps, List.getElem_map, hkey]

theorem mem_states' {k : ℕ} {t : ℤ} : t ∈ states k ↔ 0 ≤ t ∧ t < k := by
  rw [mem_states]
  constructor
  · rintro ⟨i, h, rfl⟩; omega
  · intro h; exact ⟨t.toNat, by omega, by omega⟩

/-! ### The interaction term -/

theorem sum_filter_ite {α : Type} (l : List α) (p : α → Prop) [DecidablePred p] (φ : α → ℝ) :
    ((l.filter fun a => decide (p a)).map φ).sum = (l.map fun a => if p a then φ a else 0).sum := by
  induction l with
  | nil => rfl
  | cons a l ih => by_cases h : p a <;> simp [h, ih]

theorem ownProbability_eq (terms : List (ℤ × ℤ × ℝ)) (m i : ℕ) :
    ownProbability terms m i = ∑ j ∈ Finset.range m, bothProbability terms i j := by
  unfold ownProbability bothProbability
  simp only [sum_filter_ite]
  induction terms with
  | nil => simp
  | cons t terms ih =>
    simp only [List.map_cons, List.sum_cons, ih, Finset.sum_add_distrib]
    congr 1
    by_cases h1 : t.1 = (i : ℤ)
    · by_cases h2 : t.2.1 ∈ states m
      · obtain ⟨j, hj, hjt⟩ := mem_states.1 h2
        rw [if_pos ⟨h1, h2⟩, Finset.sum_eq_single j]
        · rw [if_pos ⟨h1, hjt.symm⟩]
        · intro j' _ hne
          rw [if_neg]
          rintro ⟨_, h⟩
          exact hne (by omega)
        · intro h; exact absurd (Finset.mem_range.2 hj) h
      · rw [if_neg (fun h => h2 h.2)]
        symm
        refine Finset.sum_eq_zero fun j hj => ?_
        rw [if_neg]
        rintro ⟨_, h⟩
        exact h2 (mem_states.2 ⟨j, Finset.mem_range.1 hj, h.symm⟩)
    · rw [if_neg (fun h => h1 h.1)]
      symm
      refine Finset.sum_eq_zero fun j _ => ?_
      rw [if_neg (fun h => h1 h.1)]

theorem sum_row {r : List (ℤ × ℝ)} (hr : (r.map Prod.fst).Nodup) (c : ℝ) (j : ℤ) :
    (r.map fun q => if q.1 = j then c * q.2 else 0).sum = c * lookup r j := by
  induction r with
  | nil => simp [lookup_nil]
  | cons q r ih =>
    rw [List.map_cons, List.nodup_cons] at hr
    rw [List.map_cons, List.sum_cons, ih hr.2, lookup_cons]
    by_cases h : q.1 = j
    · subst h
      rw [lookup_eq_zero hr.1]; simp
    · simp [h]

theorem bothProbability_eq {T : Table} (hT : (T.map Prod.fst).Nodup) (hr : ∀ r ∈ T, IsMass r.2) (m : List (ℤ × ℝ)) (i j : ℕ) :
    bothProbability (jointTerms T m) i j = lookup m i * given T i j := by
  unfold bothProbability jointTerms
  rw [sum_filter_ite]
  induction T with
  | nil => simp [given]
  | cons r T ih =>
    rw [List.map_cons, List.nodup_cons] at hT
    have ih' := ih hT.2 fun r' h => hr r' (List.mem_cons_of_mem _ h)
    rw [List.flatMap_cons, List.map_append, List.sum_append, ih', List.map_map]
    unfold given
    rw [List.find?_cons]
    by_cases h : r.1 = (i : ℤ)
    · simp only [h, decide_true]
      have h0 : (T.find? fun p => decide (p.1 = (i : ℤ))) = none := by
        rw [List.find?_eq_none]
        intro p hp
        simp only [decide_eq_true_eq]
        intro hpi
        exact hT.1 (List.mem_map.2 ⟨p, hp, hpi.trans h.symm⟩)
      rw [h0]
      simp only [mul_zero, add_zero]
      rw [← sum_row (hr r List.mem_cons_self).1]
      congr 1
      refine List.map_congr_left fun q _ => ?_
      simp
    · simp only [h, decide_false]
      have : ((fun a : ℤ × ℤ × ℝ => if a.1 = (i : ℤ) ∧ a.2.1 = (j : ℤ) then a.2.2 else 0) ∘
          fun q : ℤ × ℝ => (r.1, q.1, lookup m r.1 * q.2)) = fun _ => 0 := by
        funext q; simp [h]
      rw [this]
      simp

theorem sum_given {T : Table} (hr : ∀ r ∈ T, IsMass r.2) {k : ℕ} (hk : ∀ r ∈ T, ∀ t ∈ r.2.map Prod.fst, 0 ≤ t ∧ t < (k : ℤ))
    (h1 : ∀ r ∈ T, (r.2.map Prod.snd).sum = 1) {s : ℤ} (hs : s ∈ T.map Prod.fst) :
    ∑ j ∈ Finset.range k, given T s j = 1 := by
  unfold given
  cases h : T.find? fun p => decide (p.1 = s) with
  | none =>
    rw [List.find?_eq_none] at h
    obtain ⟨p, hp, rfl⟩ := List.mem_map.1 hs
    exact absurd (by simp : decide (p.1 = p.1) = true) (h p hp)
  | some p =>
    have hp := List.mem_of_find?_eq_some h
    simp only
    have : (p.2.map Prod.snd).sum = ((states k).map (lookup p.2)).sum :=
      sum_keyed (nodup_states k) ⟨(hr p hp).1, fun t ht => mem_states'.2 (hk p hp t ht)⟩
    rw [← h1 p hp, this, states, List.map_map, sum_map_range]
    rfl

theorem given_outside {T : Table} {k : ℕ} (hk : ∀ r ∈ T, ∀ t ∈ r.2.map Prod.fst, 0 ≤ t ∧ t < (k : ℤ)) (s : ℤ) {t : ℤ}
    (ht : ¬ t < k) : given T s t = 0 := by
  unfold given
  cases h : T.find? fun p => decide (p.1 = s) with
  | none => rfl
  | some p => exact lookup_eq_zero fun h' => ht (hk p (List.mem_of_find?_eq_some h) t h').2

end PM.BN
