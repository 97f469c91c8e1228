import Mathlib.Order.WellFounded
import Mathlib.Order.RelClasses
import Mathlib.Data.Fintype.Card
import Mathlib.Data.List.Nodup
import Verif.Graph.Valid
import Verif.Spec.Valid

/-!
# Lemmas about `is_valid`
-/

namespace PM.Graph
open PM.Spec

variable {D : Type} {g : Graph D}

theorem mem_peel {rest : List Node} {n : Node} : n ∈ g.peel rest ↔ n ∈ rest ∧ ∃ m ∈ rest, Arrow g m n := by
  simp only [peel, List.mem_filter, List.any_eq_true, decide_eq_true_eq, Arrow]
  constructor
  · rintro ⟨h, e, he, h1, h2⟩
    exact ⟨h, e.src, h2, e, he, rfl, h1⟩
  · rintro ⟨h, m, hm, e, he, rfl, h1⟩
    exact ⟨h, e, he, h1, hm⟩

theorem peel_sublist (rest : List Node) : (g.peel rest).Sublist rest := List.filter_sublist

/-- Without cycles every nonempty set of units has one without a parent in it. -/
theorem NoCycle.source (h : NoCycle g) {rest : List Node} (hne : rest ≠ []) : ∃ n ∈ rest, ∀ m ∈ rest, ¬ Arrow g m n := by
  classical
  by_contra hno
  push Not at hno
  let T := {n // n ∈ rest}
  let R : T → T → Prop := fun a b => Relation.TransGen (Arrow g) a.1 b.1
  have : Finite T := Finite.of_injective (fun n : T => (⟨n.1, List.mem_toFinset.2 n.2⟩ : rest.toFinset)) (by
    intro a b hab
    exact Subtype.ext (congrArg (fun x : rest.toFinset => x.1) hab))
  have hR : IsTrans T R := ⟨fun _ _ _ => Relation.TransGen.trans⟩
  have hI : Std.Irrefl R := ⟨fun a => h a.1⟩
  have hwf : WellFounded R := Finite.wellFounded_of_trans_of_irrefl R
  obtain ⟨x, hx⟩ := List.exists_mem_of_ne_nil _ hne
  obtain ⟨n, _, hn⟩ := hwf.has_min Set.univ ⟨⟨x, hx⟩, trivial⟩
  obtain ⟨m, hm, hmn⟩ := hno n.1 n.2
  exact hn ⟨m, hm⟩ trivial (Relation.TransGen.single hmn)

theorem isDag_iff (hw : g.WF) : g.isDag = true ↔ NoCycle g := by
  unfold isDag
  rw [List.isEmpty_iff]
  constructor
  · intro h n hn
    have hedge : ∀ {a b}, Arrow g a b → a ∈ g.ids ∧ b ∈ g.ids := by
      rintro a b ⟨e, he, rfl, rfl⟩
      exact ⟨hw.srcMem e he, hw.dstMem e he⟩
    have key : ∀ k, ∀ m, Relation.TransGen (Arrow g) n m → Relation.TransGen (Arrow g) m n → m ∈ (g.peel)^[k] g.ids := by
      intro k
      induction k with
      | zero =>
        intro m h1 _
        cases h1 with
        | single h => exact (hedge h).2
        | tail _ h => exact (hedge h).2
      | succ k ih =>
        intro m h1 h2
        rw [Function.iterate_succ_apply', mem_peel]
        refine ⟨ih m h1 h2, ?_⟩
        cases h1 with
        | single h => exact ⟨n, ih n hn hn, h⟩
        | tail h1' h => exact ⟨_, ih _ h1' (Relation.TransGen.head h h2), h⟩
    have := key g.ids.length n hn hn
    rw [h] at this
    cases this
  · intro h
    have hlen : ∀ k, (g.peel)^[k] g.ids = [] ∨ ((g.peel)^[k] g.ids).length + k ≤ g.ids.length := by
      intro k
      induction k with
      | zero => exact .inr le_rfl
      | succ k ih =>
        rw [Function.iterate_succ_apply']
        rcases ih with ih | ih
        · left; rw [ih]; rfl
        · by_cases hne : (g.peel)^[k] g.ids = []
          · left; rw [hne]; rfl
          · right
            obtain ⟨n, hn, hsrc⟩ := NoCycle.source h hne
            have hlt : (g.peel ((g.peel)^[k] g.ids)).length < ((g.peel)^[k] g.ids).length := by
              refine lt_of_le_of_ne (peel_sublist _).length_le fun heq => ?_
              have := (peel_sublist (g := g) ((g.peel)^[k] g.ids)).eq_of_length heq
              rw [← this, mem_peel] at hn
              obtain ⟨_, m, hm, ha⟩ := hn
              exact hsrc m hm ha
            omega
    rcases hlen g.ids.length with h1 | h1
    · exact h1
    · exact List.length_eq_zero_iff.1 (by omega)

theorem mem_grow {seen : List Node} {n : Node} : n ∈ g.grow seen ↔ n ∈ g.ids ∧
    (n ∈ seen ∨ ∃ m ∈ seen, Arrow g n m ∨ Arrow g m n) := by
  simp only [grow, List.mem_filter, Bool.or_eq_true, List.any_eq_true, decide_eq_true_eq, Arrow]
  refine and_congr_right fun _ => or_congr_right ?_
  constructor
  · rintro ⟨e, he, ⟨h1, h2⟩ | ⟨h1, h2⟩⟩
    · exact ⟨e.dst, h2, .inl ⟨e, he, h1, rfl⟩⟩
    · exact ⟨e.src, h2, .inr ⟨e, he, rfl, h1⟩⟩
  · rintro ⟨m, hm, ⟨e, he, h1, rfl⟩ | ⟨e, he, rfl, h1⟩⟩
    · exact ⟨e, he, .inl ⟨h1, hm⟩⟩
    · exact ⟨e, he, .inr ⟨h1, hm⟩⟩

theorem mem_component (hw : g.WF) {r : Node} (hr : r ∈ g.ids) {n : Node} : n ∈ (g.grow)^[g.ids.length] [r] ↔
    Relation.ReflTransGen (fun x y => Arrow g x y ∨ Arrow g y x) r n := by
  have hedge : ∀ {a b}, Arrow g a b ∨ Arrow g b a → a ∈ g.ids ∧ b ∈ g.ids := by
    rintro a b (⟨e, he, rfl, rfl⟩ | ⟨e, he, rfl, rfl⟩)
    · exact ⟨hw.srcMem e he, hw.dstMem e he⟩
    · exact ⟨hw.dstMem e he, hw.srcMem e he⟩
  have hids : ∀ k, ∀ m ∈ (g.grow)^[k] [r], m ∈ g.ids := by
    intro k
    cases k with
    | zero => intro m hm; simp only [Function.iterate_zero, id, List.mem_singleton] at hm; exact hm ▸ hr
    | succ k => intro m hm; rw [Function.iterate_succ_apply', mem_grow] at hm; exact hm.1
  have hnd : ∀ k, ((g.grow)^[k] [r]).Nodup := by
    intro k
    cases k with
    | zero => simp
    | succ k => rw [Function.iterate_succ_apply']; exact hw.nodup.filter _
  have hmono : ∀ k, ∀ m ∈ (g.grow)^[k] [r], m ∈ (g.grow)^[k + 1] [r] := by
    intro k m hm
    rw [Function.iterate_succ_apply', mem_grow]
    exact ⟨hids k m hm, .inl hm⟩
  constructor
  · have : ∀ k, ∀ m ∈ (g.grow)^[k] [r], Relation.ReflTransGen (fun x y => Arrow g x y ∨ Arrow g y x) r m := by
      intro k
      induction k with
      | zero => intro m hm; simp only [Function.iterate_zero, id, List.mem_singleton] at hm; exact hm ▸ .refl
      | succ k ih =>
        intro m hm
        rw [Function.iterate_succ_apply', mem_grow] at hm
        rcases hm.2 with h | ⟨x, hx, h⟩
        · exact ih m h
        · exact (ih x hx).tail h.symm
    exact this _ n
  · -- as long as the set is not closed it grows
    have hstep : ∀ k, (∀ m, m ∈ (g.grow)^[k + 1] [r] ↔ m ∈ (g.grow)^[k] [r]) → ∀ m, m ∈ (g.grow)^[k + 2] [r] ↔ m ∈ (g.grow)^[k + 1] [r] := by
      intro k h m
      rw [Function.iterate_succ_apply', mem_grow, Function.iterate_succ_apply' (n := k), mem_grow]
      simp only [← Function.iterate_succ_apply' (n := k), h]
      generalize (∃ x ∈ (g.grow)^[k] [r], Arrow g m x ∨ Arrow g x m) = Q
      generalize (m ∈ (g.grow)^[k] [r]) = P
      generalize (m ∈ g.ids) = A
      tauto
    have hgrow : ∀ k, (∀ m, m ∈ (g.grow)^[k + 1] [r] ↔ m ∈ (g.grow)^[k] [r]) ∨ k + 1 ≤ ((g.grow)^[k] [r]).length := by
      intro k
      induction k with
      | zero => right; simp
      | succ k ih =>
        rcases ih with ih | ih
        · left; exact hstep k ih
        · by_cases hsame : ∀ m, m ∈ (g.grow)^[k + 1] [r] ↔ m ∈ (g.grow)^[k] [r]
          · left; exact hstep k hsame
          · right
            have hsub : ((g.grow)^[k] [r]).Subperm ((g.grow)^[k + 1] [r]) := List.Nodup.subperm (hnd k) (hmono k)
            have hne : ((g.grow)^[k] [r]).length ≠ ((g.grow)^[k + 1] [r]).length := by
              intro heq
              have hperm := hsub.perm_of_length_le heq.ge
              exact hsame fun m => hperm.mem_iff.symm
            have := hsub.length_le
            omega
    have hfix : ∀ m, m ∈ (g.grow)^[g.ids.length + 1] [r] ↔ m ∈ (g.grow)^[g.ids.length] [r] := by
      rcases hgrow g.ids.length with h | h
      · exact h
      · have := (List.Nodup.subperm (hnd g.ids.length) (hids g.ids.length)).length_le
        omega
    intro h
    induction h with
    | refl =>
      have : ∀ k, r ∈ (g.grow)^[k] [r] := by
        intro k
        induction k with
        | zero => simp
        | succ k ih => exact hmono k r ih
      exact this _
    | tail _ h ih =>
      rw [← hfix, Function.iterate_succ_apply', mem_grow]
      exact ⟨(hedge h).2, .inr ⟨_, ih, h.symm⟩⟩

theorem connected_symm {a b : Node} (h : Relation.ReflTransGen (fun x y => Arrow g x y ∨ Arrow g y x) a b) :
    Relation.ReflTransGen (fun x y => Arrow g x y ∨ Arrow g y x) b a := by
  induction h with
  | refl => exact .refl
  | tail _ h ih => exact Relation.ReflTransGen.head h.symm ih

theorem isWeaklyConnected_iff (hw : g.WF) (hne : g.ids ≠ []) : ∃ b, g.isWeaklyConnected = .ok b ∧ (b = true ↔ Connected g) := by
  unfold isWeaklyConnected
  cases hids : g.ids with
  | nil => exact absurd hids hne
  | cons r l =>
    refine ⟨_, rfl, ?_⟩
    rw [← hids]
    have hr : r ∈ g.ids := by rw [hids]; simp
    rw [beq_iff_eq]
    have hsub : ∀ m ∈ (g.grow)^[g.ids.length] [r], m ∈ g.ids := by
      intro m hm
      have hl : g.ids.length = l.length + 1 := by rw [hids]; rfl
      rw [hl, Function.iterate_succ_apply', mem_grow] at hm
      exact hm.1
    have hnd : ((g.grow)^[g.ids.length] [r]).Nodup := by
      have hl : g.ids.length = l.length + 1 := by rw [hids]; rfl
      rw [hl, Function.iterate_succ_apply']
      exact hw.nodup.filter _
    constructor
    · intro hlen a ha b hb
      have hperm := (List.Nodup.subperm hnd hsub).perm_of_length_le hlen.ge
      have h1 := (mem_component hw hr).1 (hperm.mem_iff.2 ha)
      have h2 := (mem_component hw hr).1 (hperm.mem_iff.2 hb)
      exact (connected_symm h1).trans h2
    · intro hc
      have hsub' : ∀ m ∈ g.ids, m ∈ (g.grow)^[g.ids.length] [r] := fun m hm => (mem_component hw hr).2 (hc r hr m hm)
      exact ((List.perm_ext_iff_of_nodup hnd hw.nodup).2 fun m => ⟨hsub m, hsub' m⟩).length_eq

end PM.Graph
