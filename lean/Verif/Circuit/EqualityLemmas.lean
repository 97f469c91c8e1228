import Verif.Spec.Equality
import Verif.Circuit.ValueLemmas
import Verif.Circuit.Json

namespace PM
open Classical Spec

namespace Graph

theorem listEq_decide {α : Type} {eq : α → α → Except PyErr Bool} {P : α → α → Prop} : ∀ as bs : List α,
    (∀ a ∈ as, ∀ b ∈ bs, eq a b = .ok (decide (P a b))) → listEq eq as bs = .ok (decide (List.Forall₂ P as bs))
  | [], [], _ => by simp [listEq, pure, Except.pure]
  | [], b :: bs, _ => by simp [listEq, pure, Except.pure]
  | a :: as, [], _ => by simp [listEq, pure, Except.pure]
  | a :: as, b :: bs, h => by
    simp only [listEq, h a (by simp) b (by simp), bind, Except.bind, pure, Except.pure]
    rw [listEq_decide as bs fun x hx y hy => h x (List.mem_cons_of_mem _ hx) y (List.mem_cons_of_mem _ hy)]
    by_cases hl : as.length = bs.length
    · simp only [hl, if_true, List.forall₂_cons]
      by_cases hP : P a b <;> simp [hP]
    · have : ¬ List.Forall₂ P as bs := fun hf => hl hf.length_eq
      simp [hl, this]

theorem _root_.PM.unitClass_eq (d e : Leaf) : d.unitClass = e.unitClass ↔ (OverContinuous d ↔ OverContinuous e) := by
  cases d <;> cases e <;> simp [Leaf.unitClass, OverContinuous]

theorem samePlace_trans {D : Type} {g h : Graph D} {r s n m c d : Node} (h1 : SamePlace g h r s n m)
    (h2 : SamePlace g h n m c d) : SamePlace g h r s c d := by
  induction h2 with
  | here => exact h1
  | child _ hc hd ih => exact .child ih hc hd

theorem samePlace_cases {D : Type} {g h : Graph D} {r s n m : Node} (hp : SamePlace g h r s n m) :
    (n = r ∧ m = s) ∨ ∃ (i : ℕ) (c d : Node), (g.succ r)[i]? = some c ∧ (h.succ s)[i]? = some d ∧ SamePlace g h c d n m := by
  induction hp with
  | here => exact .inl ⟨rfl, rfl⟩
  | child hp hc hd ih =>
    rcases ih with ⟨rfl, rfl⟩ | ⟨i, c, d, h1, h2, h3⟩
    · exact .inr ⟨_, _, _, hc, hd, .here⟩
    · exact .inr ⟨i, c, d, h1, h2, .child h3 hc hd⟩

theorem sameShape_iff {g h : Circuit} {r s : Node} :
    SameShape g h r s ↔ Alike g h r s ∧ List.Forall₂ (SameShape g h) (g.succ r) (h.succ s) := by
  constructor
  · intro hs
    obtain ⟨h1, h2⟩ := hs r s .here
    refine ⟨h1, List.forall₂_iff_get.2 ⟨h2, fun i hi hj => ?_⟩⟩
    intro n m hp
    exact hs n m (samePlace_trans (.child .here (List.getElem?_eq_getElem hi) (List.getElem?_eq_getElem hj)) hp)
  · rintro ⟨ha, hf⟩ n m hp
    obtain ⟨hl, hf'⟩ := List.forall₂_iff_get.1 hf
    rcases samePlace_cases hp with ⟨rfl, rfl⟩ | ⟨i, c, d, hc, hd, hp'⟩
    · exact ⟨ha, hl⟩
    · obtain ⟨hi, rfl⟩ := List.getElem?_eq_some_iff.1 hc
      obtain ⟨hj, rfl⟩ := List.getElem?_eq_some_iff.1 hd
      exact hf' i hi hj n m hp'

theorem logWeightedSubcircuits_ok {D : Type} {g : Graph D} {n : Node} (h : ∀ e ∈ g.outEdges n, e.weight.isSome) :
    g.logWeightedSubcircuits n = .ok ((g.outEdges n).map fun e => (e.weight.getD 0, e.dst)) := by
  unfold logWeightedSubcircuits
  rw [mapM_readWeight_ok h]
  simp only [bind, Except.bind, pure, Except.pure]
  have := zip_map_out g n (fun c : Node => c)
  rw [List.map_id'] at this
  rw [this]

theorem forall₂_weighted {P : Node → Node → Prop} : ∀ a b : List Edge, (∀ e ∈ a, e.weight.isSome) → (∀ e ∈ b, e.weight.isSome) →
    (List.Forall₂ (fun x y : LogP × Node => x.1 = y.1 ∧ P x.2 y.2) (a.map fun e => (e.weight.getD 0, e.dst))
      (b.map fun e => (e.weight.getD 0, e.dst)) ↔ a.map Edge.weight = b.map Edge.weight ∧ List.Forall₂ P (a.map Edge.dst) (b.map Edge.dst))
  | [], [], _, _ => by simp
  | [], b :: bs, _, _ => by simp
  | a :: as, [], _, _ => by simp
  | a :: as, b :: bs, ha, hb => by
    have ih := forall₂_weighted (P := P) as bs (fun e he => ha e (List.mem_cons_of_mem _ he)) (fun e he => hb e (List.mem_cons_of_mem _ he))
    simp only [List.map_cons, List.forall₂_cons, List.cons.injEq, ih]
    have h1 := ha a (by simp)
    have h2 := hb b (by simp)
    have : a.weight.getD 0 = b.weight.getD 0 ↔ a.weight = b.weight := by
      rcases ha : a.weight with _ | x <;> rcases hb : b.weight with _ | y <;> simp_all
    rw [this]
    tauto

theorem unitEq_decide {g h : Circuit} (hg : g.WF) (hh : h.WF) (wg : Weighted g) (wh : Weighted h) (lg : g.LeafTerminal)
    (lh : h.LeafTerminal) {rank : Node → ℕ} (hr : ∀ e ∈ g.edges, rank e.dst < rank e.src) :
    ∀ k n m, rank n < k → n ∈ g.ids → m ∈ h.ids → g.unitEq h k n m = .ok (decide (SameShape g h n m)) := by
  intro k
  induction k with
  | zero => intro n m h; omega
  | succ k ih =>
    intro n m hn hng hmh
    have hch : ∀ c ∈ g.succ n, ∀ d ∈ h.succ m, g.unitEq h k c d = .ok (decide (SameShape g h c d)) := by
      intro c hc d hd
      obtain ⟨e, he, hs, hdd⟩ := mem_succ.1 hc
      have := hr e he
      rw [hs, hdd] at this
      exact ih c d (by omega) (succ_mem_ids hg hc) (succ_mem_ids hh hd)
    obtain ⟨kn, hkn⟩ := exists_kind? hng
    obtain ⟨km, hkm⟩ := exists_kind? hmh
    have key : ∀ b : Bool, (b = true ↔ SameShape g h n m) → Except.ok b = (Except.ok (decide (SameShape g h n m)) : Except PyErr Bool) := by
      intro b hb
      congr 1
      by_cases hS : SameShape g h n m
      · simp [hS, hb.2 hS]
      · simp only [hS, decide_false]
        cases b
        · rfl
        · exact absurd (hb.1 rfl) hS
    have no : (¬ Alike g h n m) → Except.ok false = (Except.ok (decide (SameShape g h n m)) : Except PyErr Bool) := by
      intro hna
      refine key _ ⟨fun h => by simp at h, fun hS => absurd (sameShape_iff.1 hS).1 hna⟩
    rcases kn with d | _ | _ <;> rcases km with e | _ | _ <;> simp only [unitEq, hkn, hkm]
    · refine key _ ?_
      rw [decide_eq_true_iff, unitClass_eq, sameShape_iff, lg _ _ hkn, lh _ _ hkm]
      refine ⟨fun hc => ⟨.leaf d e hkn hkm hc, .nil⟩, ?_⟩
      rintro ⟨ha, -⟩
      rcases ha with ⟨d', e', h1, h2, h3⟩ | ⟨h1, h2⟩ | ⟨h1, h2, h3⟩
      · rw [hkn] at h1; rw [hkm] at h2; cases h1; cases h2; exact h3
      · rw [hkn] at h1; cases h1
      · rw [hkn] at h1; cases h1
    · exact no fun ha => by rcases ha with ⟨d', e', h1, h2, h3⟩ | ⟨h1, h2⟩ | ⟨h1, h2, h3⟩ <;> simp_all
    · exact no fun ha => by rcases ha with ⟨d', e', h1, h2, h3⟩ | ⟨h1, h2⟩ | ⟨h1, h2, h3⟩ <;> simp_all
    · exact no fun ha => by rcases ha with ⟨d', e', h1, h2, h3⟩ | ⟨h1, h2⟩ | ⟨h1, h2, h3⟩ <;> simp_all
    · rw [logWeightedSubcircuits_ok (wg n hkn), logWeightedSubcircuits_ok (wh m hkm)]
      simp only [bind, Except.bind]
      rw [listEq_decide (P := fun x y : LogP × Node => x.1 = y.1 ∧ SameShape g h x.2 y.2)]
      · refine key _ (Iff.trans (@decide_eq_true_iff _ (_)) ?_)
        rw [forall₂_weighted _ _ (wg n hkn) (wh m hkm), sameShape_iff]
        refine ⟨fun ⟨h1, h2⟩ => ⟨.sum hkn hkm h1, h2⟩, ?_⟩
        rintro ⟨ha, h4⟩
        refine ⟨?_, h4⟩
        rcases ha with ⟨d', e', h1, h2, h3⟩ | ⟨h1, h2⟩ | ⟨h1, h2, h3⟩
        · rw [hkn] at h1; cases h1
        · rw [hkn] at h1; cases h1
        · exact h3
      · intro x hx y hy
        obtain ⟨e, he, rfl⟩ := List.mem_map.1 hx
        obtain ⟨e', he', rfl⟩ := List.mem_map.1 hy
        unfold weightedEq
        simp only [hch e.dst (dst_mem_succ he) e'.dst (dst_mem_succ he')]
        by_cases hE : e.weight.getD 0 = e'.weight.getD 0 <;> simp [hE, pure, Except.pure]
    · exact no fun ha => by rcases ha with ⟨d', e', h1, h2, h3⟩ | ⟨h1, h2⟩ | ⟨h1, h2, h3⟩ <;> simp_all
    · exact no fun ha => by rcases ha with ⟨d', e', h1, h2, h3⟩ | ⟨h1, h2⟩ | ⟨h1, h2, h3⟩ <;> simp_all
    · exact no fun ha => by rcases ha with ⟨d', e', h1, h2, h3⟩ | ⟨h1, h2⟩ | ⟨h1, h2, h3⟩ <;> simp_all
    · rw [listEq_decide _ _ hch]
      refine key _ ?_
      rw [decide_eq_true_iff, sameShape_iff]
      exact ⟨fun hf => ⟨.prod hkn hkm, hf⟩, fun hf => hf.2⟩

theorem leavesMatch_child {P : Leaf → Leaf → Prop} {g h : Circuit} {r s : Node} (hm : LeavesMatch P g h r s) {i : ℕ} {c d : Node}
    (hc : (g.succ r)[i]? = some c) (hd : (h.succ s)[i]? = some d) : LeavesMatch P g h c d :=
  fun _ _ _ _ hp => hm _ _ _ _ (samePlace_trans (.child .here hc hd) hp)

theorem map_eq_of_forall₂ {α β γ : Type} {R : α → β → Prop} {f : α → γ} {f' : β → γ} : ∀ {as : List α} {bs : List β},
    List.Forall₂ R as bs → (∀ a b, R a b → f a = f' b) → as.map f = bs.map f'
  | _, _, .nil, _ => rfl
  | _, _, .cons h t, hf => by rw [List.map_cons, List.map_cons, hf _ _ h, map_eq_of_forall₂ t hf]

theorem forall₂_and_mem {α β : Type} {R : α → β → Prop} {as : List α} {bs : List β} (h : List.Forall₂ R as bs) :
    List.Forall₂ (fun a b => R a b ∧ ∃ i : ℕ, as[i]? = some a ∧ bs[i]? = some b) as bs := by
  obtain ⟨hl, hg⟩ := List.forall₂_iff_get.1 h
  exact List.forall₂_iff_get.2 ⟨hl, fun i hi hj => ⟨hg i hi hj, i, List.getElem?_eq_getElem hi, List.getElem?_eq_getElem hj⟩⟩

theorem weighted_eq {V : Type} {f f' : Node → V} : ∀ {a b : List Edge}, a.map Edge.weight = b.map Edge.weight →
    (a.map Edge.dst).map f = (b.map Edge.dst).map f' →
    a.map (fun e => (e.weight.getD 0, f e.dst)) = b.map fun e => (e.weight.getD 0, f' e.dst)
  | [], [], _, _ => rfl
  | [], b :: bs, h, _ => by simp at h
  | a :: as, [], h, _ => by simp at h
  | a :: as, b :: bs, h, h' => by
    simp only [List.map_cons, List.cons.injEq] at h h' ⊢
    exact ⟨by rw [h.1, h'.1], weighted_eq h.2 h'.2⟩

theorem eval_same {g h : Circuit} {P : Leaf → Leaf → Prop} {V : Type} {A : Alg Leaf V}
    (hA : ∀ d e, P d e → A.leaf d = A.leaf e) {n : Node} {v : V} (hE : Eval g A n v) :
    ∀ m, SameShape g h n m → LeavesMatch P g h n m → Eval h A m v := by
  have children : ∀ (n : Node) (child : Node → V), (∀ c ∈ g.succ n, Eval g A c (child c)) →
      (∀ c ∈ g.succ n, ∀ m, SameShape g h c m → LeavesMatch P g h c m → Eval h A m (child c)) →
      ∀ m, SameShape g h n m → LeavesMatch P g h n m →
      ∃ child' : Node → V, (∀ d ∈ h.succ m, Eval h A d (child' d)) ∧ (g.succ n).map child = (h.succ m).map child' := by
    intro n child _ ih m hS hL
    have hf := forall₂_and_mem (sameShape_iff.1 hS).2
    have hev : ∀ c d, (SameShape g h c d ∧ ∃ i : ℕ, (g.succ n)[i]? = some c ∧ (h.succ m)[i]? = some d) → Eval h A d (child c) := by
      rintro c d ⟨hs, i, hc, hd⟩
      exact ih c (List.mem_of_getElem? hc) d hs (leavesMatch_child hL hc hd)
    have hex : ∀ d ∈ h.succ m, ∃ v, Eval h A d v := by
      intro d hd
      obtain ⟨i, hi, rfl⟩ := List.getElem_of_mem hd
      have hl := hf.length_eq
      exact ⟨_, hev _ _ ((List.forall₂_iff_get.1 hf).2 i (hl ▸ hi) hi)⟩
    have hV : g.succ n = [] ∨ Nonempty V := by
      cases hg : g.succ n with
      | nil => exact .inl rfl
      | cons c cs => exact .inr ⟨child c⟩
    rcases hV with h0 | hV
    · have hm0 : h.succ m = [] := by
        have := hf.length_eq
        rw [h0] at this
        exact List.length_eq_zero_iff.1 this.symm
      exact ⟨child, by simp [hm0], by simp [h0, hm0]⟩
    · have := Classical.inhabited_of_nonempty hV
      let child' : Node → V := fun d => if hd : ∃ v, Eval h A d v then hd.choose else default
      have hch' : ∀ d ∈ h.succ m, Eval h A d (child' d) := by
        intro d hd
        have := hex d hd
        simp only [child', dif_pos this]
        exact this.choose_spec
      refine ⟨child', hch', map_eq_of_forall₂ hf fun c d hcd => ?_⟩
      exact Graph.Eval.det (hev c d hcd) (hch' d (List.mem_of_getElem? hcd.2.choose_spec.2))
  induction hE with
  | @leaf n d v hk hv =>
    intro m hS hL
    rcases (hS n m .here).1 with ⟨d', e, h1, h2, -⟩ | ⟨h1, -⟩ | ⟨h1, -, -⟩
    · rw [hk] at h1; cases h1
      exact .leaf h2 (by rw [← hA d e (hL n m d e .here hk h2)]; exact hv)
    · rw [hk] at h1; cases h1
    · rw [hk] at h1; cases h1
  | @sum n v child hk hc hw hv ih =>
    intro m hS hL
    obtain ⟨child', hc', hmap⟩ := children n child hc ih m hS hL
    rcases (hS n m .here).1 with ⟨d', e, h1, h2, -⟩ | ⟨h1, -⟩ | ⟨h1, h2, h3⟩
    · rw [hk] at h1; cases h1
    · rw [hk] at h1; cases h1
    · refine .sum child' h2 hc' ?_ ?_
      · intro e he
        have : e.weight ∈ (g.outEdges n).map Edge.weight := h3 ▸ List.mem_map_of_mem he
        obtain ⟨e', he', hee⟩ := List.mem_map.1 this
        rw [← hee]
        exact hw e' he'
      · rw [← weighted_eq h3 hmap]
        exact hv
  | @prod n v child hk hc hv ih =>
    intro m hS hL
    obtain ⟨child', hc', hmap⟩ := children n child hc ih m hS hL
    rcases (hS n m .here).1 with ⟨d', e, h1, h2, -⟩ | ⟨h1, h2⟩ | ⟨h1, h2, h3⟩
    · rw [hk] at h1; cases h1
    · exact .prod child' h2 hc' (by rw [← hmap]; exact hv)
    · rw [hk] at h1; cases h1

theorem mapM_forall₂ {α β : Type} {F G : α → Except PyErr β} : ∀ {as bs : List α},
    List.Forall₂ (fun a b => F a = G b) as bs → as.mapM F = bs.mapM G
  | _, _, .nil => rfl
  | _, _, .cons h t => by rw [List.mapM_cons, List.mapM_cons, h, mapM_forall₂ t]

theorem varsOf_same {g h : Circuit} {P : Leaf → Leaf → Prop} (hP : ∀ d e, P d e → d.var = e.var)
    {rank : Node → ℕ} (hr : ∀ e ∈ g.edges, rank e.dst < rank e.src) {rank' : Node → ℕ} (hr' : ∀ e ∈ h.edges, rank' e.dst < rank' e.src) :
    ∀ k k' n m, rank n < k → rank' m < k' → SameShape g h n m → LeavesMatch P g h n m → g.varsOf k n = h.varsOf k' m := by
  intro k
  induction k with
  | zero => intro k' n m h; omega
  | succ k ih =>
    intro k' n m hn hm hS hL
    cases k' with
    | zero => omega
    | succ k' =>
    have hf : List.Forall₂ (fun c d => g.varsOf k c = h.varsOf k' d) (g.succ n) (h.succ m) := by
      refine (forall₂_and_mem (sameShape_iff.1 hS).2).imp ?_
      rintro c d ⟨hs, i, hc, hd⟩
      obtain ⟨e, he, hs1, hd1⟩ := mem_succ.1 (List.mem_of_getElem? hc)
      obtain ⟨e', he', hs2, hd2⟩ := mem_succ.1 (List.mem_of_getElem? hd)
      have r1 := hr e he
      have r2 := hr' e' he'
      rw [hs1, hd1] at r1
      rw [hs2, hd2] at r2
      exact ih k' c d (by omega) (by omega) hs (leavesMatch_child hL hc hd)
    rcases (hS n m .here).1 with ⟨d', e, h1, h2, -⟩ | ⟨h1, h2⟩ | ⟨h1, h2, h3⟩
    · simp only [varsOf, h1, h2, hP _ _ (hL n m d' e .here h1 h2)]
    · simp only [varsOf, h1, h2, mapM_forall₂ hf]
    · simp only [varsOf, h1, h2]
      revert hf
      cases g.succ n <;> cases h.succ m <;> intro hf
      · rfl
      · cases hf
      · cases hf
      · exact (List.forall₂_cons.1 hf).1

end Graph

theorem dictEq_perm {p q : List (ℤ × ℝ)} (hp : (p.map Prod.fst).Nodup) (h : dictEq p q = true) : p.Perm q := by
  simp only [dictEq, decide_eq_true_iff] at h
  obtain ⟨hl, h⟩ := h
  have hsub : p ⊆ q := by
    intro kv hkv
    have := h kv hkv
    rw [Option.map_eq_some_iff] at this
    obtain ⟨e, he, hv⟩ := this
    have hk := List.find?_some he
    have hm := List.mem_of_find?_eq_some he
    have : e = kv := Prod.ext (by simpa using hk) hv
    exact this ▸ hm
  exact ((List.Nodup.of_map _ hp).subperm hsub).perm_of_length_le (by omega)

theorem find?_key_of_mem {p : List (ℤ × ℝ)} (hp : (p.map Prod.fst).Nodup) {kv : ℤ × ℝ} (h : kv ∈ p) :
    p.find? (fun e => e.1 == kv.1) = some kv := by
  induction p with
  | nil => simp at h
  | cons a p ih =>
    rw [List.map_cons, List.nodup_cons] at hp
    rcases List.mem_cons.1 h with rfl | h
    · simp
    · have : a.1 ≠ kv.1 := fun hc => hp.1 (hc ▸ List.mem_map_of_mem h)
      rw [List.find?_cons_of_neg (by simpa using this)]
      exact ih hp.2 h

theorem dictEq_of_perm {p q : List (ℤ × ℝ)} (hp : (p.map Prod.fst).Nodup) (h : p.Perm q) : dictEq p q = true := by
  simp only [dictEq, decide_eq_true_iff]
  refine ⟨h.length_eq, fun kv hkv => ?_⟩
  rw [find?_key_of_mem ((h.map _).nodup_iff.1 hp) (h.subset hkv)]
  rfl

theorem lookup_perm {p q : List (ℤ × ℝ)} (hp : (p.map Prod.fst).Nodup) (h : p.Perm q) (k : ℤ) : Leaf.lookup p k = Leaf.lookup q k := by
  have hq := (h.map Prod.fst).nodup_iff.1 hp
  unfold Leaf.lookup
  by_cases hk : ∃ kv ∈ p, kv.1 = k
  · obtain ⟨kv, hkv, rfl⟩ := hk
    rw [find?_key_of_mem hp hkv, find?_key_of_mem hq (h.subset hkv)]
  · push Not at hk
    rw [List.find?_eq_none.2 fun kv hkv => by simpa using hk kv hkv,
      List.find?_eq_none.2 fun kv hkv => by simpa using hk kv (h.mem_iff.2 hkv)]

theorem discreteLogLik_perm {p q : List (ℤ × ℝ)} (hp : (p.map Prod.fst).Nodup) (h : p.Perm q) (x : ℝ) :
    Leaf.discreteLogLik p x = Leaf.discreteLogLik q x := by
  unfold Leaf.discreteLogLik
  have hq := (h.map Prod.fst).nodup_iff.1 hp
  have key : ∀ (l : List (ℤ × ℝ)) (a : LogP), (l.map Prod.fst).Nodup →
      (∀ kv ∈ l, (kv.1 : ℝ) = x → l.foldl (fun acc kp => if x = (kp.1 : ℝ) then LogP.log kp.2 else acc) a = LogP.log kv.2) ∧
      ((∀ kv ∈ l, (kv.1 : ℝ) ≠ x) → l.foldl (fun acc kp => if x = (kp.1 : ℝ) then LogP.log kp.2 else acc) a = a) := by
    intro l
    induction l with
    | nil => simp
    | cons e l ih =>
      intro a hn
      rw [List.map_cons, List.nodup_cons] at hn
      simp only [List.foldl_cons]
      constructor
      · intro kv hkv hx
        rcases List.mem_cons.1 hkv with rfl | hkv
        · rw [if_pos hx.symm]
          refine (ih _ hn.2).2 fun kv' hkv' hx' => hn.1 ?_
          have : kv'.1 = kv.1 := by exact_mod_cast hx'.trans hx.symm
          exact this ▸ List.mem_map_of_mem hkv'
        · exact (ih _ hn.2).1 kv hkv hx
      · intro hne
        rw [if_neg fun hx => hne e (by simp) hx.symm]
        exact (ih _ hn.2).2 fun kv hkv => hne kv (List.mem_cons_of_mem _ hkv)
  by_cases hk : ∃ kv ∈ p, (kv.1 : ℝ) = x
  · obtain ⟨kv, hkv, hx⟩ := hk
    rw [(key p _ hp).1 kv hkv hx, (key q _ hq).1 kv (h.subset hkv) hx]
  · push Not at hk
    rw [(key p _ hp).2 hk, (key q _ hq).2 fun kv hkv => hk kv (h.mem_iff.2 hkv)]

end PM
