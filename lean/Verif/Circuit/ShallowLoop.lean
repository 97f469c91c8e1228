import Verif.Circuit.ShallowMain

/-! Helper lemmas: the loop over the subcircuits in `shallowing`. -/

namespace PM.Graph

open Spec

variable {D : Type}

/-- After the subcircuits `L` (with the flat parts they became), before the subcircuits `cs`. -/
structure Inv (s0 : Fresh D) (K0 : Node → Option (Kind D)) (O0 : Outs) (n : Node) (L : List ((Option LogP × UTree D) × Flat D))
    (cs : List (Option LogP × UTree D)) (s : Fresh D) (K : Node → Option (Kind D)) (O : Outs) : Prop where
  view : View s.g K O
  low : ∀ u : ℕ, K u ≠ none → u < s.next
  next : s0.next ≤ s.next
  kn : K n = K0 n
  outn : O n = (L.filter fun x => x.1.2.isSum).map (fun x => (x.2.m, x.1.1)) ++
    (cs.map (fun c => (c.2.root, c.1)) ++ (L.filter fun x => !x.1.2.isSum).map fun x => (x.2.m, x.1.1))
  flat : ∀ x ∈ L, RepFlat K O x.2
  shape : ∀ x ∈ L, x.2.prods.map (fun q => (q.1, q.2.2)) = flatten x.1.2
  loc : ∀ x ∈ L, ∀ v ∈ x.2.ids, v ∈ x.1.2.inn ∨ s0.next ≤ v
  ploc : ∀ x ∈ L, ∀ q ∈ x.2.pids, s0.next ≤ q
  nodup : (L.flatMap fun x => x.2.ids).Nodup
  notn : n ∉ L.flatMap fun x => x.2.ids
  inM : ∀ x ∈ L, ∀ u, To O u x.2.m → u = n
  inP : ∀ x ∈ L, ∀ q ∈ x.2.pids, ∀ u, To O u q → u = x.2.m
  rep : ∀ c ∈ cs, Rep K O c.2
  own : ∀ c ∈ cs, ∀ v ∈ c.2.inn, ∀ u, To O u v → u ∈ c.2.inn ∨ (v = c.2.root ∧ u = n)
  frame : ∀ u : ℕ, u < s0.next → (u ∉ L.flatMap fun x => x.1.2.inn) → u ≠ n → K u = K0 u ∧ O u = O0 u
  clean : ∀ u : ℕ, (u ∈ L.flatMap fun x => x.1.2.inn) ∨ s0.next ≤ u → (u ∈ L.flatMap fun x => x.2.ids) ∨ (K u = none ∧ O u = [])

section
variable {s0 s s' : Fresh D} {K0 K K' : Node → Option (Kind D)} {O0 O O' : Outs} {n : Node}
  {L : List ((Option LogP × UTree D) × Flat D)} {c : Option LogP × UTree D} {cs : List (Option LogP × UTree D)} {F : Flat D}

theorem Inv.pre (h : Inv s0 K0 O0 n L (c :: cs) s K O)
    (hnd : ((L.flatMap fun x => x.1.2.inn) ++ (c :: cs).flatMap fun c => c.2.inn).Nodup)
    (hn : n ∉ (c :: cs).flatMap fun c => c.2.inn) (hb : WellBuilt c.2) : Pre s K O c.2 (some n) c.1 where
  view := h.view
  rep := h.rep c (by simp)
  nodup := by
    have := (List.nodup_append.1 hnd).2.1
    rw [List.flatMap_cons] at this
    exact (List.nodup_append.1 this).1
  low := h.low
  own := fun v hv u ht => by
    rcases h.own c (by simp) v hv u ht with e | ⟨e, e'⟩
    · exact .inl e
    · exact .inr ⟨e, by rw [e']⟩
  par := fun q hq => by
    rw [Option.some.injEq] at hq
    subst hq
    refine ⟨by rw [h.outn]; simp, fun hc => hn ?_⟩
    rw [List.flatMap_cons, List.mem_append]
    exact .inl hc
  built := hb

theorem filter_ne_of_nodup {α β : Type} [DecidableEq α] {A B : List (α × β)} {a : α × β} (h : ((A ++ a :: B).map Prod.fst).Nodup) :
    (A ++ a :: B).filter (fun x => decide (x.1 ≠ a.1)) = A ++ B := by
  rw [List.map_append, List.map_cons, List.nodup_append] at h
  obtain ⟨h1, h2, h3⟩ := h
  have hA : ∀ x ∈ A, x.1 ≠ a.1 := fun x hx => h3 x.1 (List.mem_map.2 ⟨x, hx, rfl⟩) a.1 (by simp)
  have hB : ∀ x ∈ B, x.1 ≠ a.1 := fun x hx e => (List.nodup_cons.1 h2).1 (List.mem_map.2 ⟨x, hx, e⟩)
  rw [List.filter_append, List.filter_cons_of_neg (by simp), List.filter_eq_self.2 fun x hx => by simpa using hA x hx,
    List.filter_eq_self.2 fun x hx => by simpa using hB x hx]

theorem Inv.step (h : Inv s0 K0 O0 n L (c :: cs) s K O)
    (hnd : ((L.flatMap fun x => x.1.2.inn) ++ (c :: cs).flatMap fun c => c.2.inn).Nodup)
    (hn : n ∉ (c :: cs).flatMap fun c => c.2.inn) (hb : WellBuilt c.2)
    (hlow : ∀ u ∈ c.2.inn, u < s0.next) (hkn : K0 n ≠ none) (hkl : ∀ d, K0 n ≠ some (.leaf d))
    (hp : Post s K O c.2 (some n) c.1 s' K' O' F) : Inv s0 K0 O0 n (L ++ [(c, F)]) cs s' K' O' := by
  have hpre := h.pre hnd hn hb
  rw [List.flatMap_cons] at hnd hn
  rw [List.mem_append, not_or] at hn
  obtain ⟨hnd1, hnd2, hnd3⟩ := List.nodup_append.1 hnd
  obtain ⟨hnd4, hnd5, hnd6⟩ := List.nodup_append.1 hnd2
  have hnn : n < s.next := h.low n (by rw [h.kn]; exact hkn)
  -- earlier flat parts are outside
  have hids : ∀ x ∈ L, ∀ v ∈ x.2.ids, v < s.next ∧ v ∉ c.2.inn ∧ v ≠ n := by
    intro x hx v hv
    refine ⟨h.low v ((h.flat x hx).kind_ne hv), fun hc => ?_, fun e => h.notn (List.mem_flatMap.2 ⟨x, hx, e ▸ hv⟩)⟩
    rcases h.loc x hx v hv with e | e
    · exact hnd3 v (List.mem_flatMap.2 ⟨x, hx, e⟩) v (List.mem_append.2 (.inl hc)) rfl
    · exact absurd (hlow v hc) (not_lt.2 e)
  have hleaf : ∀ u d, K u = some (.leaf d) → O u = [] → K' u = K u ∧ O' u = O u := by
    intro u d hu ho
    have h1 : u < s.next := h.low u (by rw [hu]; simp)
    have h2 : u ∉ c.2.inn := hpre.rep.kind_leaf hu
    have h3 : u ≠ n := fun e => by rw [e, h.kn] at hu; exact hkl d hu
    exact ⟨hp.frameK u h1 h2, hp.frameO u h1 h2 (by simpa using Ne.symm h3)⟩
  have hcs : ∀ c' ∈ cs, ∀ v ∈ c'.2.inn, v < s.next ∧ v ∉ c.2.inn ∧ v ≠ n := by
    intro c' hc' v hv
    refine ⟨h.low v ((h.rep c' (by simp [hc'])).kind_ne hv), fun hc => ?_, fun e => hn.2 (List.mem_flatMap.2 ⟨c', hc', e ▸ hv⟩)⟩
    exact hnd6 v hc v (List.mem_flatMap.2 ⟨c', hc', hv⟩) rfl
  have hmemL : ∀ x, x ∈ L ++ [(c, F)] → x ∈ L ∨ x = (c, F) := fun x hx => by simpa using hx
  refine ⟨hp.view, hp.low, h.next.trans hp.next, ?_, ?_, ?_, ?_, ?_, ?_, ?_, ?_, ?_, ?_, ?_, ?_, ?_, ?_⟩
  · rw [hp.frameK n hnn hn.1, h.kn]
  · have hpar := hp.parent n rfl
    rw [hpar, List.filter_append, List.filter_append]
    have hnO := h.view.nodup n
    rcases hp.m with ⟨hs, hm⟩ | ⟨hs, hm⟩
    · rw [if_pos hs, h.outn, List.filter_cons_of_pos (by simpa using hs), List.filter_cons_of_neg (by simpa using hs)]
      simp [hm]
    · rw [if_neg (by simp [hs]), List.filter_cons_of_neg (by simp [hs]), List.filter_cons_of_pos (by simp [hs])]
      rw [h.outn] at hnO ⊢
      rw [List.map_cons, List.cons_append] at hnO ⊢
      rw [filter_ne_of_nodup (a := (c.2.root, c.1)) hnO]
      simp
  · intro x hx
    rcases hmemL x hx with hx | rfl
    · exact (h.flat x hx).congr (fun u hu => by
        obtain ⟨h1, h2, h3⟩ := hids x hx u hu
        exact ⟨hp.frameK u h1 h2, hp.frameO u h1 h2 (by simpa using Ne.symm h3)⟩) hleaf
    · exact hp.flat
  · intro x hx
    rcases hmemL x hx with hx | rfl
    · exact h.shape x hx
    · exact hp.shape
  · intro x hx v hv
    rcases hmemL x hx with hx | rfl
    · exact h.loc x hx v hv
    · rcases hp.loc hpre v hv with e | e
      · exact .inl e
      · exact .inr (h.next.trans e)
  · intro x hx q hq
    rcases hmemL x hx with hx | rfl
    · exact h.ploc x hx q hq
    · exact h.next.trans (hp.pids q hq)
  · rw [List.flatMap_append, List.nodup_append]
    refine ⟨h.nodup, by simpa using hp.nd, fun a ha b hb e => ?_⟩
    obtain ⟨x, hx, ha⟩ := List.mem_flatMap.1 ha
    obtain ⟨h1, h2, h3⟩ := hids x hx a ha
    have hb : b ∈ F.ids := by simpa using hb
    rcases hp.loc hpre b hb with e' | e'
    · exact h2 (e ▸ e')
    · rw [e] at h1
      exact absurd h1 (not_lt.2 e')
  · rw [List.flatMap_append, List.mem_append, not_or]
    refine ⟨h.notn, fun hc => ?_⟩
    have hc : n ∈ F.ids := by simpa using hc
    rcases hp.loc hpre n hc with e' | e'
    · exact hn.1 e'
    · exact absurd hnn (not_lt.2 e')
  · intro x hx u ht
    rcases hmemL x hx with hx | rfl
    · have hm : x.2.m ∈ x.2.ids := by simp [Flat.ids]
      exact h.inM x hx u (hp.to_old hpre (hids x hx _ hm).2.1 ((h.flat x hx).kind_ne hm) ((h.flat x hx).kind_leaf hm) ht)
    · have := hp.inM hpre ht
      rw [Option.some.injEq] at this
      exact this.symm
  · intro x hx q hq u ht
    rcases hmemL x hx with hx | rfl
    · have hm : q ∈ x.2.ids := by simp [Flat.ids, hq]
      exact h.inP x hx q hq u (hp.to_old hpre (hids x hx _ hm).2.1 ((h.flat x hx).kind_ne hm) ((h.flat x hx).kind_leaf hm) ht)
    · exact hp.inP hpre hq ht
  · intro c' hc'
    refine (h.rep c' (by simp [hc'])).congr hleaf fun u hu => ?_
    obtain ⟨h1, h2, h3⟩ := hcs c' hc' u hu
    exact ⟨hp.frameK u h1 h2, hp.frameO u h1 h2 (by simpa using Ne.symm h3)⟩
  · intro c' hc' v hv u ht
    have hr := h.rep c' (by simp [hc'])
    exact h.own c' (by simp [hc']) v hv u (hp.to_old hpre (hcs c' hc' v hv).2.1 (hr.kind_ne hv)
      (fun d hd => hr.kind_leaf hd hv) ht)
  · intro u hu hui hne
    rw [List.flatMap_append, List.mem_append, not_or] at hui
    have hui2 : u ∉ c.2.inn := by simpa using hui.2
    obtain ⟨h1, h2⟩ := h.frame u hu hui.1 hne
    have hus : u < s.next := lt_of_lt_of_le hu h.next
    rw [← h1, ← h2]
    exact ⟨hp.frameK u hus hui2, hp.frameO u hus hui2 (by simpa using Ne.symm hne)⟩
  · intro u hu
    rw [List.flatMap_append, List.mem_append] at hu ⊢
    by_cases hc : u ∈ c.2.inn ∨ s.next ≤ u
    · rcases hp.clean u hc with e | e
      · exact .inl (.inr (by simpa using e))
      · exact .inr e
    · have hu' : (u ∈ L.flatMap fun x => x.1.2.inn) ∨ s0.next ≤ u := by
        rcases hu with (hu | hu) | hu
        · exact .inl hu
        · exact absurd (.inl (by simpa using hu)) hc
        · exact .inr hu
      have hus : u < s.next := by
        by_contra h'
        exact hc (.inr (by omega))
      have hui : u ∉ c.2.inn := fun h' => hc (.inl h')
      rcases h.clean u hu' with e | ⟨e1, e2⟩
      · exact .inl (.inl e)
      · right
        have hne : n ≠ u := fun e => hkn (by rw [← h.kn, e, e1])
        rw [hp.frameK u hus hui, hp.frameO u hus hui (by simpa using hne)]
        exact ⟨e1, e2⟩

/-- The whole loop. -/
theorem Inv.loop {f : Fresh D → Node → Except PyErr (Fresh D)} (hkn : K0 n ≠ none) (hkl : ∀ d, K0 n ≠ some (.leaf d)) :
    ∀ (cs : List (Option LogP × UTree D)) {s : Fresh D} {K : Node → Option (Kind D)} {O : Outs}
      {L : List ((Option LogP × UTree D) × Flat D)}, Inv s0 K0 O0 n L cs s K O →
      (∀ c ∈ cs, ∀ {s : Fresh D} {K : Node → Option (Kind D)} {O : Outs}, Pre s K O c.2 (some n) c.1 →
        ∃ s' K' O' F, f s c.2.root = .ok s' ∧ Post s K O c.2 (some n) c.1 s' K' O' F) →
      ((L.flatMap fun x => x.1.2.inn) ++ cs.flatMap fun c => c.2.inn).Nodup → (n ∉ cs.flatMap fun c => c.2.inn) →
      (∀ c ∈ cs, WellBuilt c.2) → (∀ c ∈ cs, ∀ u ∈ c.2.inn, u < s0.next) →
      ∃ s' K' O' L', (cs.map fun c => c.2.root).foldlM f s = .ok s' ∧ L'.map Prod.fst = L.map Prod.fst ++ cs ∧
        Inv s0 K0 O0 n L' [] s' K' O'
  | [], s, K, O, L, h, _, _, _, _, _ => ⟨s, K, O, L, rfl, by simp, h⟩
  | c :: cs, s, K, O, L, h, hf, hnd, hn, hb, hlow => by
    obtain ⟨s1, K1, O1, F, h1, h2⟩ := hf c (by simp) (h.pre hnd hn (hb c (by simp)))
    have h3 := h.step hnd hn (hb c (by simp)) (hlow c (by simp)) hkn hkl h2
    obtain ⟨s2, K2, O2, L2, h4, h5, h6⟩ := Inv.loop (f := f) hkn hkl cs h3 (fun c' hc' => hf c' (by simp [hc'])) (by
      rw [List.flatMap_append, List.append_assoc]
      simpa using hnd) (by
      rw [List.flatMap_cons, List.mem_append, not_or] at hn
      exact hn.2) (fun c' hc' => hb c' (by simp [hc'])) fun c' hc' => hlow c' (by simp [hc'])
    refine ⟨s2, K2, O2, L2, ?_, by simp [h5], h6⟩
    rw [List.map_cons, List.foldlM_cons, h1]
    exact h4

end

/-- The start of the loop. -/
theorem Inv.init {s : Fresh D} {K : Node → Option (Kind D)} {O : Outs} {n : Node} {b : Bool} {cs : List (Option LogP × UTree D)}
    {p : Option Node} {w : Option LogP} (h : Pre s K O (.inner n b cs) p w) : Inv s K O n [] cs s K O := by
  have hrep := h.rep
  have hnd := h.nodup
  rw [inn_inner] at hnd
  obtain ⟨hn1, hn2⟩ := List.nodup_cons.1 hnd
  cases hrep with
  | inner h1 h2 h3 =>
    refine ⟨h.view, h.low, le_rfl, rfl, by simp [h2], by simp, by simp, by simp, by simp, by simp, by simp, by simp, by simp, h3, ?_,
      fun _ _ _ _ => ⟨rfl, rfl⟩, fun u hu => ?_⟩
    · intro c hc v hv u ht
      have hvn : v ≠ n := fun e => hn1 (e ▸ List.mem_flatMap.2 ⟨c, hc, hv⟩)
      have hvl : ∀ d, K v ≠ some (.leaf d) := fun d hd => (h3 c hc).kind_leaf hd hv
      rcases h.own v (mem_inn_child hc hv) u ht with hu | ⟨e, _⟩
      · rw [inn_inner] at hu
        rcases List.mem_cons.1 hu with e | hu
        · right
          refine ⟨?_, e⟩
          rw [To, e, h2, List.map_map] at ht
          obtain ⟨c', hc', e'⟩ := List.mem_map.1 ht
          have e' : c'.2.root = v := e'
          have : v ∈ c'.2.inn := by
            rw [← e']
            exact (h3 c' hc').root_mem (by rw [e']; exact hvl)
          rw [eq_of_flatMap_nodup hn2 hc hc' hv this, e']
        · left
          obtain ⟨c', hc', hu'⟩ := List.mem_flatMap.1 hu
          have := innBelow_sub ((h3 c' hc').to_below u hu' v ht hvl)
          rwa [eq_of_flatMap_nodup hn2 hc hc' hv this]
      · exact absurd e hvn
    · right
      have hu : s.next ≤ u := by simpa using hu
      have hK : K u = none := by
        by_contra hc
        have := h.low u hc
        omega
      refine ⟨hK, ?_⟩
      by_contra hc
      obtain ⟨a, ha⟩ := List.exists_mem_of_ne_nil _ hc
      exact h.view.src (u := u) (v := a.1) (List.mem_map.2 ⟨a, ha, rfl⟩) hK

/-- The subcircuits in the order they have afterwards. -/
def arrange (L : List ((Option LogP × UTree D) × Flat D)) : List (Option LogP × Flat D) :=
  ((L.filter fun x => x.1.2.isSum) ++ L.filter fun x => !x.1.2.isSum).map fun x => (x.1.1, x.2)

theorem arrange_perm (L : List ((Option LogP × UTree D) × Flat D)) : (arrange L).Perm (L.map fun x => (x.1.1, x.2)) :=
  (List.filter_append_perm _ L).map _

theorem mem_arrange {L : List ((Option LogP × UTree D) × Flat D)} {c : Option LogP × Flat D} :
    c ∈ arrange L ↔ ∃ x ∈ L, (x.1.1, x.2) = c := by
  rw [(arrange_perm L).mem_iff, List.mem_map]

theorem mem_arrange_ids {L : List ((Option LogP × UTree D) × Flat D)} {u : Node} :
    (u ∈ (arrange L).flatMap fun c => c.2.ids) ↔ u ∈ L.flatMap fun x => x.2.ids := by
  rw [((arrange_perm L).flatMap_right _).mem_iff, List.flatMap_map]

theorem Inv.kids {s0 s : Fresh D} {K0 K : Node → Option (Kind D)} {O0 O : Outs} {n : Node}
    {L : List ((Option LogP × UTree D) × Flat D)} (h : Inv s0 K0 O0 n L [] s K O) : Kids K O n (arrange L) where
  out := by rw [h.outn, arrange, List.map_map, List.map_append]; simp [Function.comp_def]
  flat := fun c hc => by
    obtain ⟨x, hx, rfl⟩ := mem_arrange.1 hc
    exact h.flat x hx
  nodup := by
    rw [((arrange_perm L).flatMap_right _).nodup_iff, List.flatMap_map]
    exact h.nodup
  notn := by
    rw [mem_arrange_ids]
    exact h.notn
  inM := fun c hc => by
    obtain ⟨x, hx, rfl⟩ := mem_arrange.1 hc
    exact h.inM x hx
  inP := fun c hc => by
    obtain ⟨x, hx, rfl⟩ := mem_arrange.1 hc
    exact h.inP x hx

end PM.Graph
