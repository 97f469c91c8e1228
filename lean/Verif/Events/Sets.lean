import Verif.Events.Algebra

/-!
# Events as sets of points

Emptiness and unions of events, as `random_events` has them; part of the trusted base like `Verif/Events/Basic.lean`.
-/

namespace PM

open Classical

/-- `SimpleEvent.is_empty`: no variable, or a variable without possible values. -/
def SimpleEvent.IsEmpty (E : SimpleEvent) : Prop := E = [] ∨ ∃ p ∈ E, p.2.IsEmpty

namespace Event

/-- `Event.is_empty`.  (Events keep no empty simple events; here empty ones count as absent.) -/
def IsEmpty (Es : Event) : Prop := ∀ E ∈ Es, E.IsEmpty

/-- `Event.union_with`.  (`random_events` also makes the simple events disjoint and merges neighbours, which does not change
the set of points.) -/
def union (Es Fs : Event) : Event := Es ++ Fs

/-- A full assignment lies in the event if it lies in one of its simple events. -/
def Mem (Es : Event) (x : Var → ℝ) : Prop := ∃ E ∈ Es, E.Mem x

end Event

/-- A set for a symbolic variable (`sym`) or a numeric one, without intervals that consist of an infinite point. -/
def VSet.Good (sym : Bool) : VSet → Prop
  | .interval I => sym = false ∧ ∀ i ∈ I, i.lower ≠ ⊤ ∧ i.upper ≠ ⊥
  | .symbols _ => sym = true

/-- Events over the variables `V`, well typed. -/
structure SimpleEvent.Good (sym : Var → Bool) (V : Finset Var) (E : SimpleEvent) : Prop where
  ne : E ≠ []
  nodup : E.keys.Nodup
  keys : ∀ p ∈ E, p.1 ∈ V
  good : ∀ p ∈ E, p.2.Good (sym p.1)

def Event.Good (sym : Var → Bool) (V : Finset Var) (Es : Event) : Prop := ∀ E ∈ Es, SimpleEvent.Good sym V E

theorem VSet.Good.sameType {s : Bool} {A B : VSet} (hA : A.Good s) (hB : B.Good s) : VSet.SameType A B := by
  cases A <;> cases B <;> simp_all [VSet.Good, VSet.SameType]

theorem VSet.Good.inter {s : Bool} {A B : VSet} (hA : A.Good s) (hB : B.Good s) : (A.inter B).Good s := by
  cases A with
  | symbols S => cases B with
    | interval _ => simp_all [VSet.Good]
    | symbols T => exact hA
  | interval I => cases B with
    | symbols _ => simp_all [VSet.Good]
    | interval J =>
      refine ⟨hA.1, ?_⟩
      intro k hk
      obtain ⟨hk, _⟩ := List.mem_filter.1 hk
      obtain ⟨i, hi, hk⟩ := List.mem_flatMap.1 hk
      obtain ⟨j, hj, rfl⟩ := List.mem_map.1 hk
      constructor
      · show max i.lower j.lower ≠ ⊤
        rcases max_choice i.lower j.lower with h | h <;> rw [h]
        exacts [(hA.2 i hi).1, (hB.2 j hj).1]
      · show min i.upper j.upper ≠ ⊥
        rcases min_choice i.upper j.upper with h | h <;> rw [h]
        exacts [(hA.2 i hi).2, (hB.2 j hj).2]

theorem VSet.isEmpty_iff {s : Bool} {A : VSet} (hA : A.Good s) : A.IsEmpty ↔ ∀ x, ¬ A.Mem x := by
  cases A with
  | symbols S =>
    constructor
    · rintro h x ⟨k, hk, _⟩
      have h : S = [] := h
      rw [h] at hk; cases hk
    · intro h
      cases S with
      | nil => rfl
      | cons a S => exact absurd ⟨a, by simp, rfl⟩ (h a)
  | interval I =>
    constructor
    · rintro h x ⟨i, hi, hx⟩
      have : x ∈ i.toSet := hx
      rw [SimpleInterval.toSet_of_isEmpty (h i hi)] at this
      exact this
    · intro h i hi
      have h0 : i.toSet = ∅ := by
        ext x
        exact ⟨fun hx => h x ⟨i, hi, hx⟩, fun hx => hx.elim⟩
      by_contra hne
      obtain ⟨h1, h2⟩ := hA.2 i hi
      by_cases hb : i.lower = ⊥
      · have hlt : i.lower < i.upper := by rw [hb]; exact bot_lt_iff_ne_bot.2 h2
        obtain ⟨x, hx1, hx2⟩ := EReal.lt_iff_exists_real_btwn.1 hlt
        have : x ∈ i.toSet := SimpleInterval.mem_of_between hx1 hx2
        rw [h0] at this
        exact this
      · exact hne (SimpleInterval.isEmpty_of_toSet h0 ⟨i.lower.toReal, (EReal.coe_toReal h1 hb).symm⟩)

theorem SimpleEvent.Good.inter {sym : Var → Bool} {V W : Finset Var} {E F : SimpleEvent} (hE : E.Good sym V) (hF : F.Good sym W) :
    (E.inter F).Good sym (V ∪ W) where
  ne := by
    intro h
    have := congrArg List.length h
    unfold SimpleEvent.inter at this
    simp only [List.length_append, List.length_map, List.length_nil] at this
    have h0 := List.length_pos_iff.2 hE.ne
    omega
  nodup := by
    rw [SimpleEvent.keys_inter]
    refine List.nodup_append.2 ⟨hE.nodup, hF.nodup.filter _, ?_⟩
    intro a ha b hb hab
    subst hab
    have := (List.mem_filter.1 hb).2
    simp [ha] at this
  keys := by
    intro p hp
    rcases (SimpleEvent.mem_inter_iff hF.nodup).1 hp with ⟨a, ha, b, hb, hab, rfl⟩ | ⟨h, _⟩ | ⟨h, _⟩
    · exact Finset.mem_union_left _ (hE.keys a ha)
    · exact Finset.mem_union_left _ (hE.keys p h)
    · exact Finset.mem_union_right _ (hF.keys p h)
  good := by
    intro p hp
    rcases (SimpleEvent.mem_inter_iff hF.nodup).1 hp with ⟨a, ha, b, hb, hab, rfl⟩ | ⟨h, _⟩ | ⟨h, _⟩
    · refine (hE.good a ha).inter ?_
      rw [hab]
      exact hF.good b hb
    · exact hE.good p h
    · exact hF.good p h

theorem SimpleEvent.Good.compatible {sym : Var → Bool} {V W : Finset Var} {E F : SimpleEvent} (hE : E.Good sym V) (hF : F.Good sym W) :
    E.Compatible F := by
  intro a ha b hb hab
  refine (hE.good a ha).sameType ?_
  rw [hab]
  exact hF.good b hb

theorem SimpleEvent.isEmpty_iff {sym : Var → Bool} {V : Finset Var} {E : SimpleEvent} (hE : E.Good sym V) :
    E.IsEmpty ↔ ∀ x, ¬ E.Mem x := by
  constructor
  · rintro (h | ⟨p, hp, h⟩) x hx
    · exact hE.ne h
    · exact (VSet.isEmpty_iff (hE.good p hp)).1 h _ (hx p hp)
  · intro h
    by_contra hne
    unfold IsEmpty at hne
    rw [not_or] at hne
    have hex : ∀ p ∈ E, ∃ y, p.2.Mem y := by
      intro p hp
      by_contra hc
      push Not at hc
      exact hne.2 ⟨p, hp, (VSet.isEmpty_iff (hE.good p hp)).2 hc⟩
    refine h (fun v => if hv : ∃ p ∈ E, p.1 = v ∧ ∃ y, p.2.Mem y then (choose_spec hv).2.2.choose else 0) ?_
    intro p hp
    have hv : ∃ q ∈ E, q.1 = p.1 ∧ ∃ y, q.2.Mem y := ⟨p, hp, rfl, hex p hp⟩
    simp only [dif_pos hv]
    have hq := choose_spec hv
    have heq : choose hv = p := by
      have h1 := SimpleEvent.find?_of_mem hE.nodup hq.1
      have h2 := SimpleEvent.find?_of_mem hE.nodup hp
      rw [hq.2.1, h2] at h1
      exact (Option.some.inj h1).symm
    have := (choose_spec hv).2.2.choose_spec
    generalize (choose_spec hv).2.2.choose = z at *
    rw [heq] at this
    exact this

namespace Event

theorem mem_union {Es Fs : Event} {x : Var → ℝ} : (Es.union Fs).Mem x ↔ Es.Mem x ∨ Fs.Mem x := by
  unfold union Mem
  constructor
  · rintro ⟨E, hE, h⟩
    rcases List.mem_append.1 hE with h1 | h1
    · exact .inl ⟨E, h1, h⟩
    · exact .inr ⟨E, h1, h⟩
  · rintro (⟨E, hE, h⟩ | ⟨E, hE, h⟩)
    · exact ⟨E, List.mem_append_left _ hE, h⟩
    · exact ⟨E, List.mem_append_right _ hE, h⟩

theorem Good.union {sym : Var → Bool} {V : Finset Var} {Es Fs : Event} (hE : Es.Good sym V) (hF : Fs.Good sym V) :
    (Es.union Fs).Good sym V := by
  intro E h
  rcases List.mem_append.1 h with h | h
  exacts [hE E h, hF E h]

theorem Good.mono {sym : Var → Bool} {V W : Finset Var} {Es : Event} (hE : Es.Good sym V) (h : V ⊆ W) : Es.Good sym W :=
  fun E hm => ⟨(hE E hm).ne, (hE E hm).nodup, fun p hp => h ((hE E hm).keys p hp), (hE E hm).good⟩

theorem Good.inter {sym : Var → Bool} {V W : Finset Var} {Es Fs : Event} (hE : Es.Good sym V) (hF : Fs.Good sym W) :
    (Es.inter Fs).Good sym (V ∪ W) := by
  intro G h
  obtain ⟨E, h1, h2⟩ := List.mem_flatMap.1 h
  obtain ⟨F, h3, rfl⟩ := List.mem_map.1 h2
  exact (hE E h1).inter (hF F h3)

theorem mem_inter {sym : Var → Bool} {V W : Finset Var} {Es Fs : Event} (hE : Es.Good sym V) (hF : Fs.Good sym W) {x : Var → ℝ} :
    (Es.inter Fs).Mem x ↔ Es.Mem x ∧ Fs.Mem x := by
  unfold Mem
  constructor
  · rintro ⟨G, h, hx⟩
    obtain ⟨E, h1, h2⟩ := List.mem_flatMap.1 h
    obtain ⟨F, h3, rfl⟩ := List.mem_map.1 h2
    have := (SimpleEvent.mem_inter (hF F h3).nodup ((hE E h1).compatible (hF F h3)) x).1 hx
    exact ⟨⟨E, h1, this.1⟩, ⟨F, h3, this.2⟩⟩
  · rintro ⟨⟨E, h1, hx⟩, ⟨F, h3, hy⟩⟩
    exact ⟨E.inter F, List.mem_flatMap.2 ⟨E, h1, List.mem_map.2 ⟨F, h3, rfl⟩⟩,
      (SimpleEvent.mem_inter (hF F h3).nodup ((hE E h1).compatible (hF F h3)) x).2 ⟨hx, hy⟩⟩

theorem isEmpty_iff {sym : Var → Bool} {V : Finset Var} {Es : Event} (hE : Es.Good sym V) : Es.IsEmpty ↔ ∀ x, ¬ Es.Mem x := by
  constructor
  · rintro h x ⟨E, h1, hx⟩
    exact (SimpleEvent.isEmpty_iff (hE E h1)).1 (h E h1) x hx
  · intro h E h1
    exact (SimpleEvent.isEmpty_iff (hE E h1)).2 fun x hx => h x ⟨E, h1, hx⟩

end Event
end PM
