import Verif.Circuit.Support
import Verif.Spec.Support
import Verif.Circuit.ValueLemmas

/-! Helper lemmas for `support` and `is_deterministic`. -/

namespace PM.Graph

open Spec Classical

theorem exists_eval {D V : Type} [Nonempty V] {g : Graph D} {A : Alg D V} (hw : g.WF) (ha : g.Acyclic) {P : Node → V → Prop}
    (step : ∀ n ∈ g.ids, ∀ child : Node → V, (∀ c ∈ g.succ n, Eval g A c (child c) ∧ P c (child c)) → ∃ v, Eval g A n v ∧ P n v) :
    ∃ val : Node → V, ∀ n ∈ g.ids, Eval g A n (val n) ∧ P n (val n) := by
  have h : ∀ n, n ∈ g.ids → ∃ v, Eval g A n v ∧ P n v := by
    refine ha.induct (P := fun n => n ∈ g.ids → ∃ v, Eval g A n v ∧ P n v) ?_
    intro n ih hn
    have hc : ∀ c : Node, ∃ v, c ∈ g.succ n → Eval g A c v ∧ P c v := by
      intro c
      by_cases h : c ∈ g.succ n
      · obtain ⟨v, hv⟩ := ih c h (succ_mem_ids hw h)
        exact ⟨v, fun _ => hv⟩
      · exact ⟨Classical.arbitrary V, fun h' => absurd h' h⟩
    choose child hchild using hc
    exact step n hn child fun c h => hchild c h
  have h2 : ∀ n : Node, ∃ v, n ∈ g.ids → Eval g A n v ∧ P n v := by
    intro n
    by_cases hn : n ∈ g.ids
    · obtain ⟨v, hv⟩ := h n hn
      exact ⟨v, fun _ => hv⟩
    · exact ⟨Classical.arbitrary V, fun h' => absurd h' hn⟩
  choose val hval using h2
  exact ⟨val, fun n hn => hval n hn⟩

theorem meaning_of_eval {D V : Type} {g : Graph D} {A : Alg D V} (hw : g.WF) {r : Node} (hr : r ∈ g.ids) {val : Node → V}
    (h : ∀ n ∈ g.ids, Eval g A n (val n)) : g.Meaning A r val := by
  intro n hn
  have hm := reachable_mem_ids hw hr hn
  exact evalUnit_of_eval (fun c hc => h c (succ_mem_ids hw hc)) (h n hm)

theorem exists_possiblePoints {g : Circuit} (ha : g.Acyclic) : ∃ S, PossiblePoints g S := by
  obtain ⟨rank, hr⟩ := ha
  let S : Nat → Node → Set (Var → ℝ) := fun k => Nat.rec (fun _ => ∅) (fun _ T n => match g.kind? n with
    | some (.leaf d) => {x | 0 < leafDensity d (x d.var)}
    | some .sum => {x | ∃ c ∈ g.succ n, x ∈ T c}
    | some .prod => {x | ∀ c ∈ g.succ n, x ∈ T c}
    | none => ∅) k
  have hS : ∀ k n, S (k + 1) n = match g.kind? n with
    | some (.leaf d) => {x | 0 < leafDensity d (x d.var)}
    | some .sum => {x | ∃ c ∈ g.succ n, x ∈ S k c}
    | some .prod => {x | ∀ c ∈ g.succ n, x ∈ S k c}
    | none => ∅ := fun k n => rfl
  have hlt : ∀ n c, c ∈ g.succ n → rank c < rank n := by
    intro n c hc
    obtain ⟨e, he, hs, hd⟩ := mem_succ.1 hc
    have := hr e he
    rwa [hs, hd] at this
  have hst : ∀ k n, rank n < k → ∀ j, k ≤ j → S j n = S k n := by
    intro k
    induction k with
    | zero => intro n h; omega
    | succ k ih =>
      intro n hn j hj
      obtain ⟨j, rfl⟩ : ∃ i, j = i + 1 := ⟨j - 1, by omega⟩
      have hc : ∀ c ∈ g.succ n, S j c = S k c := fun c hc => ih c (by have := hlt n c hc; omega) j (by omega)
      rw [hS, hS]
      cases g.kind? n with
      | none => rfl
      | some kd =>
        cases kd with
        | leaf d => rfl
        | sum =>
          ext x
          show (∃ c ∈ g.succ n, x ∈ S j c) ↔ (∃ c ∈ g.succ n, x ∈ S k c)
          exact exists_congr fun c => and_congr_right fun h => by rw [hc c h]
        | prod =>
          ext x
          show (∀ c ∈ g.succ n, x ∈ S j c) ↔ (∀ c ∈ g.succ n, x ∈ S k c)
          exact forall_congr' fun c => imp_congr_right fun h => by rw [hc c h]
  have hchild : ∀ n c, c ∈ g.succ n → S (rank n) c = S (rank c + 1) c := fun n c hc =>
    hst (rank c + 1) c (by omega) _ (by have := hlt n c hc; omega)
  refine ⟨fun n => S (rank n + 1) n, ?_, ?_, ?_⟩
  · intro n d h x
    show x ∈ S (rank n + 1) n ↔ _
    rw [hS, h]; rfl
  · intro n h x
    show x ∈ S (rank n + 1) n ↔ _
    rw [hS, h]
    exact exists_congr fun c => and_congr_right fun hc => by rw [hchild n c hc]
  · intro n h x
    show x ∈ S (rank n + 1) n ↔ _
    rw [hS, h]
    exact forall_congr' fun c => imp_congr_right fun hc => by rw [hchild n c hc]

theorem leaf_support_good {g : Circuit} {sym : Var → Bool} (ht : Typed g sym) {n : Node} {d : Leaf}
    (hk : g.kind? n = some (.leaf d)) (hv : d.Valid) : d.support.Good (sym d.var) := by
  have h := ht n d hk
  cases d with
  | symbolic v probs => exact h.2 ⟨_, _, rfl⟩
  | uniform v lo hi l r =>
    refine ⟨?_, ?_⟩
    · by_contra hc
      obtain ⟨_, _, he⟩ := h.1 (by simpa using hc)
      cases he
    · intro i hi
      rw [List.mem_singleton.1 hi]
      exact ⟨EReal.coe_ne_top _, EReal.coe_ne_bot _⟩
  | dirac v loc cap =>
    refine ⟨?_, ?_⟩
    · by_contra hc
      obtain ⟨_, _, he⟩ := h.1 (by simpa using hc)
      cases he
    · intro i hi
      rw [List.mem_singleton.1 hi]
      exact ⟨EReal.coe_ne_top _, EReal.coe_ne_bot _⟩
  | integer v probs =>
    refine ⟨?_, ?_⟩
    · by_contra hc
      obtain ⟨_, _, he⟩ := h.1 (by simpa using hc)
      cases he
    · intro i hi
      obtain ⟨kp, _, rfl⟩ := List.mem_map.1 hi
      exact ⟨EReal.coe_ne_top _, EReal.coe_ne_bot _⟩
  | gaussian v μ σ =>
    refine ⟨?_, ?_⟩
    · by_contra hc
      obtain ⟨_, _, he⟩ := h.1 (by simpa using hc)
      cases he
    · intro i hi
      rw [List.mem_singleton.1 hi]
      exact ⟨bot_ne_top, top_ne_bot⟩
  | truncGaussian v I μ σ =>
    refine ⟨?_, ?_⟩
    · by_contra hc
      obtain ⟨_, _, he⟩ := h.1 (by simpa using hc)
      cases he
    · intro i hi
      rw [List.mem_singleton.1 hi]
      exact ⟨(hv.2.trans_le le_top).ne, (bot_le.trans_lt hv.2).ne'⟩

theorem leafEvent_good {sym : Var → Bool} {v : Var} {A : VSet} (h : A.Good (sym v)) : Event.Good sym {v} [[(v, A)]] := by
  intro E hE
  rw [List.mem_singleton.1 hE]
  refine ⟨by simp, by simp [SimpleEvent.keys], ?_, ?_⟩
  · intro p hp; rw [List.mem_singleton.1 hp]; simp
  · intro p hp; rw [List.mem_singleton.1 hp]; exact h

theorem mem_leafEvent {v : Var} {A : VSet} {x : Var → ℝ} : Event.Mem [[(v, A)]] x ↔ A.Mem (x v) := by
  unfold Event.Mem SimpleEvent.Mem
  simp

theorem foldl_union_good {sym : Var → Bool} {V : Finset Var} : ∀ (l : List Event) (a : Event), a.Good sym V → (∀ b ∈ l, b.Good sym V) →
    (l.foldl Event.union a).Good sym V ∧ ∀ x, (l.foldl Event.union a).Mem x ↔ a.Mem x ∨ ∃ b ∈ l, b.Mem x
  | [], a, ha, _ => ⟨ha, by simp⟩
  | b :: l, a, ha, hl => by
    obtain ⟨h1, h2⟩ := foldl_union_good l (a.union b) (ha.union (hl b (by simp))) fun c hc => hl c (List.mem_cons_of_mem _ hc)
    refine ⟨h1, fun x => ?_⟩
    rw [List.foldl_cons, h2, Event.mem_union]
    simp [or_assoc]

theorem foldl_inter_good {sym : Var → Bool} {V : Finset Var} : ∀ (l : List Event) (a : Event), a.Good sym V → (∀ b ∈ l, b.Good sym V) →
    (l.foldl Event.inter a).Good sym V ∧ ∀ x, (l.foldl Event.inter a).Mem x ↔ a.Mem x ∧ ∀ b ∈ l, b.Mem x
  | [], a, ha, _ => ⟨ha, by simp⟩
  | b :: l, a, ha, hl => by
    have hab := ha.inter (hl b (by simp))
    rw [Finset.union_idempotent] at hab
    obtain ⟨h1, h2⟩ := foldl_inter_good l (a.inter b) hab fun c hc => hl c (List.mem_cons_of_mem _ hc)
    refine ⟨h1, fun x => ?_⟩
    rw [List.foldl_cons, h2, Event.mem_inter ha (hl b (by simp))]
    simp [and_assoc]

/-- The pass gives every unit a well-typed event with its possible points. -/
theorem support_eval {g : Circuit} (hw : g.WF) (ha : g.Acyclic) (hwt : Weighted g) {sc : Node → Finset Var} (hs : Scoped g sc)
    (hp : ProductsNonempty g) {sym : Var → Bool} (ht : Typed g sym) (hv : ∀ n d, g.kind? n = some (.leaf d) → d.Valid)
    {S : Node → Set (Var → ℝ)} (hS : PossiblePoints g S) :
    ∃ val : Node → Event, ∀ n ∈ g.ids, Eval g supportAlg n (val n) ∧ ((val n).Good sym (sc n) ∧ ∀ x, (val n).Mem x ↔ x ∈ S n) := by
  have : Nonempty Event := ⟨[]⟩
  refine exists_eval hw ha (P := fun n (E : Event) => E.Good sym (sc n) ∧ ∀ x, E.Mem x ↔ x ∈ S n) ?_
  intro n hn child hc
  obtain ⟨k, hk⟩ := exists_kind? hn
  cases k with
  | leaf d =>
    refine ⟨_, .leaf hk rfl, ?_, ?_⟩
    · rw [hs.leaf n d hk]
      exact leafEvent_good (leaf_support_good ht hk (hv n d hk))
    · intro x
      rw [mem_leafEvent, hS.leaf n d hk]
      constructor
      · exact fun h => leafDensity_pos (hv n d hk) h
      · intro h
        by_contra hc
        rw [leafDensity_eq_zero (hv n d hk) hc] at h
        exact lt_irrefl _ h
  | sum =>
    have hne := hs.sumNe n hk
    have hout : ∃ e l, g.outEdges n = e :: l := by
      cases h : g.outEdges n with
      | nil => simp [succ, h] at hne
      | cons e l => exact ⟨e, l, rfl⟩
    obtain ⟨e, l, hel⟩ := hout
    have hsucc : g.succ n = e.dst :: l.map Edge.dst := by unfold succ; rw [hel]; rfl
    have hfold : (l.map fun e => (e.weight.getD 0, child e.dst)).foldl (fun s wv => Event.union s wv.2) (child e.dst) =
        (l.map fun e => child e.dst).foldl Event.union (child e.dst) := by
      rw [List.foldl_map, List.foldl_map]
    obtain ⟨h1, h2⟩ := foldl_union_good (sym := sym) (V := sc n) (l.map fun e => child e.dst) (child e.dst)
      (by rw [← hs.sum n hk e.dst (by rw [hsucc]; simp)]; exact (hc _ (by rw [hsucc]; simp)).2.1)
      (by
        intro b hb
        obtain ⟨e', he', rfl⟩ := List.mem_map.1 hb
        have hm : e'.dst ∈ g.succ n := by rw [hsucc]; exact List.mem_cons_of_mem _ (List.mem_map.2 ⟨e', he', rfl⟩)
        rw [← hs.sum n hk e'.dst hm]; exact (hc _ hm).2.1)
    refine ⟨_, .sum child hk (fun c h => (hc c h).1) (hwt n hk) (by rw [hel, List.map_cons]; rfl), ?_, ?_⟩
    · rw [hfold]; exact h1
    · intro x
      rw [hfold, h2, hS.sum n hk, (hc e.dst (by rw [hsucc]; simp)).2.2, hsucc]
      simp only [List.mem_map, List.mem_cons]
      constructor
      · rintro (h | ⟨b, ⟨e', he', rfl⟩, h⟩)
        · exact ⟨e.dst, .inl rfl, h⟩
        · have hm : e'.dst ∈ g.succ n := by rw [hsucc]; exact List.mem_cons_of_mem _ (List.mem_map.2 ⟨e', he', rfl⟩)
          exact ⟨e'.dst, .inr ⟨e', he', rfl⟩, ((hc _ hm).2.2 x).1 h⟩
      · rintro ⟨c, rfl | ⟨e', he', rfl⟩, h⟩
        · exact .inl h
        · have hm : e'.dst ∈ g.succ n := by rw [hsucc]; exact List.mem_cons_of_mem _ (List.mem_map.2 ⟨e', he', rfl⟩)
          exact .inr ⟨_, ⟨e', he', rfl⟩, ((hc _ hm).2.2 x).2 h⟩
  | prod =>
    have hne := hp n hk
    obtain ⟨a, l, hal⟩ := List.exists_cons_of_ne_nil hne
    have hsub : ∀ c ∈ g.succ n, sc c ⊆ sc n := fun c h v hv => (hs.prod n hk v).2 ⟨c, h, hv⟩
    obtain ⟨h1, h2⟩ := foldl_inter_good (sym := sym) (V := sc n) (l.map child) (child a)
      ((hc a (by rw [hal]; simp)).2.1.mono (hsub a (by rw [hal]; simp)))
      (by
        intro b hb
        obtain ⟨c, hcl, rfl⟩ := List.mem_map.1 hb
        have hm : c ∈ g.succ n := by rw [hal]; exact List.mem_cons_of_mem _ hcl
        exact (hc c hm).2.1.mono (hsub c hm))
    refine ⟨_, .prod child hk (fun c h => (hc c h).1) (by rw [hal, List.map_cons]; rfl), h1, ?_⟩
    intro x
    rw [h2, hS.prod n hk, hal]
    simp only [List.forall_mem_map, List.forall_mem_cons]
    rw [(hc a (by rw [hal]; simp)).2.2]
    refine and_congr_right fun _ => forall_congr' fun c => imp_congr_right fun hcl => ?_
    exact (hc c (by rw [hal]; exact List.mem_cons_of_mem _ hcl)).2.2 x

end PM.Graph
