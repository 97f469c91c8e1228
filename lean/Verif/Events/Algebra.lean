import Verif.Dist.CondLemmas
import Verif.Circuit.Probability

/-!
# Intersections of events

What `random_events` does for intersections; part of the trusted base like `Verif/Events/Basic.lean`.
-/

namespace PM

open Classical

namespace SimpleEvent

/-- `SimpleEvent.intersection_with`: variables of both events get the intersection, the others keep their set. -/
noncomputable def inter (E F : SimpleEvent) : SimpleEvent :=
  E.map (fun p => match F.find? (fun q => q.1 == p.1) with
    | some q => (p.1, p.2.inter q.2)
    | none => p) ++ F.filter (fun q => !E.keys.contains q.1)

end SimpleEvent

/-- `Event.intersection_with`: all pairwise intersections.  (`random_events` also drops the empty ones and merges
neighbours, which changes neither the set of points nor the disjointness.) -/
noncomputable def Event.inter (Es Fs : Event) : Event := Es.flatMap fun E => Fs.map fun F => E.inter F

namespace VSet

theorem Disjoint.inter {A B : VSet} (hA : A.Disjoint) (hB : B.Disjoint) (h : SameType A B) : (A.inter B).Disjoint := by
  cases A with
  | symbols S =>
    cases B with
    | interval _ => exact absurd h id
    | symbols T => exact List.Nodup.filter _ hA
  | interval I =>
    cases B with
    | symbols _ => exact absurd h id
    | interval J =>
      refine ⟨?_, ?_⟩
      · refine List.Pairwise.filter _ ?_
        have hI := hA.1
        have hJ := hB.1
        clear hA hB h
        induction I with
        | nil => simp
        | cons i I ih =>
          obtain ⟨h1, h2⟩ := List.pairwise_cons.1 hI
          rw [List.flatMap_cons, List.pairwise_append]
          refine ⟨?_, ih h2, ?_⟩
          · rw [List.pairwise_map]
            refine hJ.imp ?_
            intro a b hab x hx
            rw [SimpleInterval.mem_inter, SimpleInterval.mem_inter] at hx
            exact hab x ⟨hx.1.2, hx.2.2⟩
          · intro a ha b hb x hx
            obtain ⟨a', _, rfl⟩ := List.mem_map.1 ha
            obtain ⟨k, hk, hb⟩ := List.mem_flatMap.1 hb
            obtain ⟨b', _, rfl⟩ := List.mem_map.1 hb
            rw [SimpleInterval.mem_inter, SimpleInterval.mem_inter] at hx
            exact h1 k hk x ⟨hx.1.1, hx.2.1⟩
      · intro i hi
        simpa using (List.mem_filter.1 hi).2

end VSet

namespace SimpleEvent

theorem find?_of_mem {F : SimpleEvent} (hn : F.keys.Nodup) {q : Var × VSet} (hq : q ∈ F) :
    F.find? (fun p => p.1 == q.1) = some q := by
  induction F with
  | nil => cases hq
  | cons a F ih =>
    obtain ⟨h1, h2⟩ := List.nodup_cons.1 hn
    rcases List.mem_cons.1 hq with rfl | hq
    · simp
    · have : a.1 ≠ q.1 := fun h => h1 (h ▸ List.mem_map.2 ⟨q, hq, rfl⟩)
      rw [List.find?_cons_of_neg (by simpa using this)]
      exact ih h2 hq

/-- What the entries of the intersection are. -/
theorem mem_inter_iff {E F : SimpleEvent} (hF : F.keys.Nodup) {p : Var × VSet} :
    p ∈ E.inter F ↔ (∃ a ∈ E, ∃ b ∈ F, a.1 = b.1 ∧ p = (a.1, a.2.inter b.2)) ∨ (p ∈ E ∧ p.1 ∉ F.keys) ∨
      (p ∈ F ∧ p.1 ∉ E.keys) := by
  unfold inter
  rw [List.mem_append, List.mem_map, List.mem_filter]
  constructor
  · rintro (⟨a, ha, h⟩ | ⟨h1, h2⟩)
    · cases hf : F.find? (fun q => q.1 == a.1) with
      | none =>
        rw [hf] at h
        simp only at h
        subst h
        refine .inr (.inl ⟨ha, ?_⟩)
        intro hk
        obtain ⟨b, hb, hba⟩ := List.mem_map.1 hk
        have := List.find?_eq_none.1 hf b hb
        simp [hba] at this
      | some b =>
        rw [hf] at h
        simp only at h
        have hb := List.mem_of_find?_eq_some hf
        have hba : b.1 = a.1 := by simpa using List.find?_some hf
        exact .inl ⟨a, ha, b, hb, hba.symm, h.symm⟩
    · refine .inr (.inr ⟨h1, ?_⟩)
      simpa using h2
  · rintro (⟨a, ha, b, hb, hab, rfl⟩ | ⟨h1, h2⟩ | ⟨h1, h2⟩)
    · left
      refine ⟨a, ha, ?_⟩
      rw [hab, find?_of_mem hF hb]
    · left
      refine ⟨p, h1, ?_⟩
      have : F.find? (fun q => q.1 == p.1) = none := by
        rw [List.find?_eq_none]
        intro b hb
        simp only [beq_iff_eq]
        intro hbp
        exact h2 (hbp ▸ List.mem_map.2 ⟨b, hb, rfl⟩)
      rw [this]
    · right
      exact ⟨h1, by simpa using h2⟩

/-- Sets for the same variable have the same type. -/
def Compatible (E F : SimpleEvent) : Prop := ∀ a ∈ E, ∀ b ∈ F, a.1 = b.1 → VSet.SameType a.2 b.2

/-- The intersection contains the points of both events. -/
theorem mem_inter {E F : SimpleEvent} (hF : F.keys.Nodup) (hc : E.Compatible F) (x : Var → ℝ) :
    (E.inter F).Mem x ↔ E.Mem x ∧ F.Mem x := by
  constructor
  · intro h
    refine ⟨fun a ha => ?_, fun b hb => ?_⟩
    · by_cases hk : a.1 ∈ F.keys
      · obtain ⟨b, hb, hba⟩ := List.mem_map.1 hk
        have := h _ ((mem_inter_iff hF).2 (.inl ⟨a, ha, b, hb, hba.symm, rfl⟩))
        exact ((VSet.mem_inter (hc a ha b hb hba.symm) _).1 this).1
      · exact h a ((mem_inter_iff hF).2 (.inr (.inl ⟨ha, hk⟩)))
    · by_cases hk : b.1 ∈ E.keys
      · obtain ⟨a, ha, hab⟩ := List.mem_map.1 hk
        have := h _ ((mem_inter_iff hF).2 (.inl ⟨a, ha, b, hb, hab, rfl⟩))
        have := ((VSet.mem_inter (hc a ha b hb hab) _).1 this).2
        simpa [hab] using this
      · exact h b ((mem_inter_iff hF).2 (.inr (.inr ⟨hb, hk⟩)))
  · rintro ⟨h1, h2⟩ p hp
    rcases (mem_inter_iff hF).1 hp with ⟨a, ha, b, hb, hab, rfl⟩ | ⟨h, _⟩ | ⟨h, _⟩
    · refine (VSet.mem_inter (hc a ha b hb hab) _).2 ⟨h1 a ha, ?_⟩
      have := h2 b hb
      simpa [hab] using this
    · exact h1 p h
    · exact h2 p h

theorem keys_inter (E F : SimpleEvent) : (E.inter F).keys = E.keys ++ F.keys.filter fun v => !E.keys.contains v := by
  unfold inter keys
  rw [List.map_append, List.map_map, List.filter_map]
  congr 1
  apply List.map_congr_left
  intro p hp
  simp only [Function.comp]
  split <;> rfl

end SimpleEvent
end PM
