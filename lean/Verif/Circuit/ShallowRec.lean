import Verif.Circuit.ShallowLoop

/-! Helper lemmas: `shallowing` on every tree. -/

namespace PM.Graph

open Spec

variable {D : Type}

theorem flatten_leaf (n : Node) (d : D) : flatten (.leaf n d) = [(0, [(n, d)])] := by rw [flatten]

theorem out_eq_nil {g : Graph D} {K : Node → Option (Kind D)} {O : Outs} (h : View g K O) {u : Node} (hu : K u = none) : O u = [] := by
  by_contra hc
  obtain ⟨a, ha⟩ := List.exists_mem_of_ne_nil _ hc
  exact h.src (u := u) (v := a.1) (List.mem_map.2 ⟨a, ha, rfl⟩) hu

theorem leaf_step {s : Fresh D} {K : Node → Option (Kind D)} {O : Outs} {n : ℕ} {d : D} {p : Option Node} {w : Option LogP}
    (h : Pre s K O (.leaf n d) p w) :
    ∃ s' K' O' F, shallowLeaf s n p = .ok s' ∧ Post s K O (.leaf n d) p w s' K' O' F := by
  have hrep := h.rep
  cases hrep with
  | leaf hK hO =>
  have hN : ∀ u : ℕ, s.next ≤ u → K u = none := fun u hu => by
    by_contra hc
    have := h.low u hc
    omega
  have hnlt : n < s.next := h.low n (by rw [hK]; simp)
  have x1 : s.next + 1 ≠ s.next := by omega
  have x2 : s.next ≠ s.next + 1 := by omega
  have x3 : s.next ≠ n := by omega
  have h1 := h.view.addNode (hN s.next le_rfl) .sum
  have h2 := h1.addNode (n := s.next + 1) (by rw [Function.update_of_ne x1]; exact hN _ (by omega)) .prod
  set K2 := Function.update (Function.update K s.next (some .sum)) (s.next + 1) (some (.prod : Kind D)) with hK2
  have e1 : K2 s.next = some .sum := by
    rw [hK2, Function.update_of_ne x2, Function.update_self]
  have e2 : K2 (s.next + 1) = some .prod := by rw [hK2, Function.update_self]
  have e3 : ∀ u : ℕ, u ≠ s.next → u ≠ s.next + 1 → K2 u = K u := fun u a b => by
    rw [hK2, Function.update_of_ne b, Function.update_of_ne a]
  have hO1 : O s.next = [] := out_eq_nil h.view (hN _ le_rfl)
  have hO2 : O (s.next + 1) = [] := out_eq_nil h.view (hN _ (by omega))
  have h3 := h2.addEdge (u := s.next + 1) (v := n) none (by rw [e2]; simp) (by rw [e3 n (by omega) (by omega), hK]; simp)
    (by rw [To, hO2]; simp)
  have h4 := h3.addEdge (u := s.next) (v := s.next + 1) (some 0) (by rw [e1]; simp) (by rw [e2]; simp)
    (by rw [To, Function.update_of_ne x2, hO1]; simp)
  rw [Function.update_of_ne x2, hO1, hO2] at h4
  set O4 : Outs := Function.update (Function.update O (s.next + 1) ([] ++ [(n, none)])) s.next ([] ++ [(s.next + 1, some 0)]) with hO4
  have f1 : O4 s.next = [(s.next + 1, some 0)] := by rw [hO4, Function.update_self]; rfl
  have f2 : O4 (s.next + 1) = [(n, none)] := by
    rw [hO4, Function.update_of_ne x1, Function.update_self]; rfl
  have f3 : ∀ u : ℕ, u ≠ s.next → u ≠ s.next + 1 → O4 u = O u := fun u a b => by
    rw [hO4, Function.update_of_ne a, Function.update_of_ne b]
  have hgoal : ∀ {g' : Graph D} {O' : Outs}, View g' K2 O' → (∀ u : ℕ, p ≠ some u → O' u = O4 u) →
      (∀ q, p = some q → O' q = (O q).filter (fun a => decide (a.1 ≠ n)) ++ [(s.next, w)]) →
      Post s K O (.leaf n d) p w ⟨g', s.next + 2⟩ K2 O' ⟨s.next, [(0, s.next + 1, [(n, d)])]⟩ := by
    intro g' O' hv hO' hq'
    have hpl : ∀ u : ℕ, p = some u → u < s.next ∧ u ≠ n := by
      intro u hu
      have hm := (h.par u hu).1
      refine ⟨h.low u (h.view.src (v := n) (List.mem_map.2 ⟨_, hm, rfl⟩)), fun e => ?_⟩
      rw [e, hO] at hm; simp at hm
    have hpn : ∀ u : ℕ, s.next ≤ u ∨ u = n → p ≠ some u := fun u hu e => by
      have := hpl u e
      omega
    refine ⟨hv, ⟨e1, ?_, ?_, ?_, ?_, ?_⟩, by simp [flatten_leaf], by simp, ?_, .inr ⟨rfl, le_rfl⟩, ?_, ?_, ?_, ?_, ?_, ?_⟩
    · rw [hO' _ (hpn _ (.inl le_rfl)), f1]; rfl
    · intro q hq; rw [List.mem_singleton.1 hq]; exact e2
    · intro q hq; rw [List.mem_singleton.1 hq, hO' _ (hpn _ (.inl (by simp))), f2]; rfl
    · intro q hq l hl
      rw [List.mem_singleton.1 hq] at hl
      rw [List.mem_singleton.1 hl]
      rw [e3 n (by omega) (by omega), hK]
    · intro q hq l hl
      rw [List.mem_singleton.1 hq] at hl
      rw [List.mem_singleton.1 hl]
      rw [hO' _ (hpn _ (.inr rfl)), f3 n (by omega) (by omega), hO]
    · intro u hu
      by_cases a : u = s.next
      · subst a; simp
      · by_cases b : u = s.next + 1
        · subst b; simp
        · rw [e3 u a b] at hu
          exact lt_of_lt_of_le (h.low u hu) (by simp)
    · intro q hq; simp [Flat.pids] at hq; rw [hq]; simp
    · exact List.nodup_cons.2 ⟨fun hc => x2 (List.mem_singleton.1 hc), List.nodup_singleton _⟩
    · intro u hu _; exact e3 u (by omega) (by omega)
    · intro u hu _ hpu; rw [hO' u hpu]; exact f3 u (by omega) (by omega)
    · intro q hq
      rw [hq' q hq, if_neg (by simp [UTree.isSum])]
      rfl
    · intro u hu
      have hu : s.next ≤ u := by rw [UTree.inn] at hu; simpa using hu
      by_cases a : u = s.next
      · left; simp [Flat.ids, a]
      · by_cases b : u = s.next + 1
        · left; simp [Flat.ids, Flat.pids, b]
        · right
          rw [e3 u a b, hO' u (hpn u (.inl hu)), f3 u a b]
          exact ⟨hN u hu, out_eq_nil h.view (hN u hu)⟩
  cases p with
  | none => exact ⟨_, _, _, _, rfl, hgoal h4 (fun _ _ => rfl) (by simp)⟩
  | some q =>
    obtain ⟨hm, _⟩ := h.par q rfl
    have hm : (n, w) ∈ O q := hm
    have hq : (q : ℕ) < s.next := h.low q (h.view.src (v := n) (List.mem_map.2 ⟨_, hm, rfl⟩))
    have hq1 : q ≠ s.next := ne_of_lt hq
    have hq2 : q ≠ s.next + 1 := ne_of_lt (Nat.lt_succ_of_lt hq)
    have hO4q : O4 q = O q := f3 q hq1 hq2
    have h5 := h4.addEdge (u := q) (v := s.next) w (by
        rw [e3 q hq1 hq2]
        exact h.view.src (v := n) (List.mem_map.2 ⟨_, hm, rfl⟩)) (by rw [e1]; simp) (by
        rw [To, hO4q]
        intro hc
        exact h.view.dst (u := q) hc (hN _ le_rfl))
    have h6 := h5.removeEdge q n
    rw [Function.update_self, Function.update_idem, List.filter_append, List.filter_cons_of_pos (by simpa using x3),
      List.filter_nil, hO4q] at h6
    have hd := h4.edgeData (u := q) (v := n) (w := w) (by rw [hO4q]; exact hm)
    refine ⟨_, _, _, _, ?_, hgoal h6 (fun u hu => ?_) fun u hu => ?_⟩
    · simp only [shallowLeaf, redirect, hd, bind, Except.bind, pure, Except.pure]
    · rw [Function.update_of_ne fun e => hu (by rw [e])]
    · rw [Option.some.injEq] at hu
      rw [← hu, Function.update_self]

theorem flatten_inner_sum (n : Node) (cs : List (Option LogP × UTree D)) (L : List ((Option LogP × UTree D) × Flat D))
    (hL : L.map Prod.fst = cs) (hs : ∀ x ∈ L, x.2.prods.map (fun q => (q.1, q.2.2)) = flatten x.1.2) :
    flatten (.inner n true cs) = (arrange L).flatMap fun c => c.2.prods.map fun q => (c.1.getD 0 + .fin weightKey, q.2.2) := by
  rw [flatten]
  subst hL
  simp only [List.map_map, arrange, List.flatMap_map]
  rw [List.filter_map, List.filter_map, ← List.map_append, List.flatMap_map]
  refine List.flatMap_congr fun x hx => ?_
  have hx : x ∈ L := by
    rcases List.mem_append.1 hx with hx | hx
    · exact (List.mem_filter.1 hx).1
    · exact (List.mem_filter.1 hx).1
  simp only [Function.comp_apply, ← hs x hx, List.map_map]
  rfl

theorem flatten_inner_prod (n : Node) (cs : List (Option LogP × UTree D)) (L : List ((Option LogP × UTree D) × Flat D))
    (hL : L.map Prod.fst = cs) (hs : ∀ x ∈ L, x.2.prods.map (fun q => (q.1, q.2.2)) = flatten x.1.2) :
    flatten (.inner n false cs) = (combinations ((arrange L).map fun c => c.2.prods)).map fun cb => (.fin 1, cb.flatMap fun q => q.2.2) := by
  rw [flatten]
  subst hL
  simp only [List.map_map, arrange]
  rw [List.filter_map, List.filter_map, ← List.map_append, List.map_map]
  have : ((List.filter ((fun f : Option LogP × Bool × List (LogP × List (Node × D)) => f.2.1) ∘
        ((fun c : Option LogP × UTree D => (c.1, c.2.isSum, flatten c.2)) ∘ Prod.fst)) L ++
      List.filter ((fun f : Option LogP × Bool × List (LogP × List (Node × D)) => !f.2.1) ∘
        ((fun c : Option LogP × UTree D => (c.1, c.2.isSum, flatten c.2)) ∘ Prod.fst)) L).map
      ((fun f : Option LogP × Bool × List (LogP × List (Node × D)) => f.2.2) ∘
        ((fun c : Option LogP × UTree D => (c.1, c.2.isSum, flatten c.2)) ∘ Prod.fst))) =
      (((L.filter fun x => x.1.2.isSum) ++ L.filter fun x => !x.1.2.isSum).map ((fun c : Option LogP × Flat D => c.2.prods) ∘
        fun x : (Option LogP × UTree D) × Flat D => (x.1.1, x.2))).map fun l => l.map fun q => (q.1, q.2.2) := by
    rw [List.map_map]
    refine List.map_congr_left fun x hx => ?_
    have hx : x ∈ L := by
      rcases List.mem_append.1 hx with hx | hx
      · exact (List.mem_filter.1 hx).1
      · exact (List.mem_filter.1 hx).1
    simp only [Function.comp_apply, hs x hx]
  rw [this, combinations_map, List.map_map]
  refine List.map_congr_left fun cb _ => ?_
  simp [List.flatMap_map]

theorem sum_step {s s1 : Fresh D} {K K1 : Node → Option (Kind D)} {O O1 : Outs} {n : ℕ} {cs : List (Option LogP × UTree D)}
    {p : Option Node} {w : Option LogP} {L : List ((Option LogP × UTree D) × Flat D)}
    (h : Pre s K O (.inner n true cs) p w) (hi : Inv s K O n L [] s1 K1 O1) (hL : L.map Prod.fst = cs) :
    ∃ g' K' O' F, (s1.g.succ n).foldlM (liftChild n) s1.g = .ok g' ∧ Post s K O (.inner n true cs) p w ⟨g', s1.next⟩ K' O' F := by
  have hk := hi.kids
  have hKn : K n = some .sum := by
    have hr := h.rep
    cases hr with
    | inner h1 h2 h3 => simpa using h1
  have hKn1 : K1 n = some .sum := by rw [hi.kn, hKn]
  obtain ⟨g', hg', hv'⟩ := liftLoop (n := n) (arrange L) (A := []) hi.view hKn1 (by rw [hk.out, List.append_nil]) hk.flat hk.nodup hk.notn
    hk.inM hk.inP (by simp)
  have hsucc : s1.g.succ n = (arrange L).map fun c => c.2.m := by
    rw [hi.view.succ, hk.out, List.map_map]; rfl
  have hinn : ∀ u, u ∈ (UTree.inner n true cs).inn ↔ u = n ∨ u ∈ L.flatMap fun x => x.1.2.inn := by
    intro u
    rw [inn_inner, List.mem_cons, ← hL, List.flatMap_map]
  have hms : ∀ u ∈ (arrange L).map (fun c => c.2.m), u ∈ L.flatMap fun x => x.2.ids := by
    intro u hu
    obtain ⟨c, hc, rfl⟩ := List.mem_map.1 hu
    rw [← mem_arrange_ids]
    exact List.mem_flatMap.2 ⟨c, hc, by simp [Flat.ids]⟩
  have hnm : n ∉ (arrange L).map (fun c => c.2.m) := fun hc => hi.notn (hms n hc)
  have hpm : ∀ c ∈ arrange L, ∀ q ∈ c.2.pids, q ∉ (arrange L).map fun c => c.2.m := by
    intro c hc q hq hcon
    obtain ⟨c', hc', e⟩ := List.mem_map.1 hcon
    have := eq_of_flatMap_nodup hk.nodup hc hc' (x := q) (by simp [Flat.ids, hq]) (by rw [← e]; simp [Flat.ids])
    subst this
    have hnd := (List.nodup_flatMap.1 hk.nodup).1 c hc
    exact (List.nodup_cons.1 hnd).1 (by rw [e]; exact hq)
  have hpn : ∀ c ∈ arrange L, ∀ q ∈ c.2.pids, q ≠ n := by
    intro c hc q hq e
    exact hk.notn (List.mem_flatMap.2 ⟨c, hc, by rw [← e]; simp [Flat.ids, hq]⟩)
  have hlm : ∀ u d, K1 u = some (.leaf d) → (u ∉ (arrange L).map fun c => c.2.m) ∧ u ≠ n := by
    intro u d hu
    refine ⟨fun hc => ?_, fun e => by rw [e, hKn1] at hu; simp at hu⟩
    obtain ⟨c, hc, e⟩ := List.mem_map.1 hc
    rw [← e, (hk.flat c hc).sum] at hu
    simp at hu
  set P : List (LogP × Node × List (Node × D)) :=
    (arrange L).flatMap fun c => c.2.prods.map fun q => (c.1.getD 0 + .fin weightKey, q.2) with hP
  have hPq : ∀ q ∈ P, ∃ c ∈ arrange L, ∃ q' ∈ c.2.prods, q.2 = q'.2 := by
    intro q hq
    obtain ⟨c, hc, hq⟩ := List.mem_flatMap.1 hq
    obtain ⟨q', hq', rfl⟩ := List.mem_map.1 hq
    exact ⟨c, hc, q', hq', rfl⟩
  have hpids : (Flat.mk n P).pids = (arrange L).flatMap fun c => c.2.pids := by
    simp only [Flat.pids, hP, List.map_flatMap, List.map_map]
    rfl
  have hppid : ∀ (c : Option LogP × Flat D), ∀ q' ∈ c.2.prods, q'.2.1 ∈ c.2.pids := fun c q' hq' => List.mem_map.2 ⟨q', hq', rfl⟩
  refine ⟨g', _, _, ⟨n, P⟩, by rw [hsucc]; exact hg', hv', ⟨?_, ?_, ?_, ?_, ?_, ?_⟩, ?_, hi.next, ?_, .inl ⟨rfl, rfl⟩, ?_, ?_, ?_, ?_, ?_, ?_⟩
  · simp only; rw [if_neg hnm]; exact hKn1
  · simp only; simp [hP, List.map_flatMap, Function.comp_def]
  · intro q hq
    obtain ⟨c, hc, q', hq', e⟩ := hPq q hq
    rw [e, if_neg (hpm c hc _ (hppid c q' hq'))]
    exact (hk.flat c hc).prod q' hq'
  · intro q hq
    obtain ⟨c, hc, q', hq', e⟩ := hPq q hq
    rw [e, if_neg (hpn c hc _ (hppid c q' hq')), if_neg (hpm c hc _ (hppid c q' hq'))]
    exact (hk.flat c hc).pout q' hq'
  · intro q hq l hl
    obtain ⟨c, hc, q', hq', e⟩ := hPq q hq
    rw [e] at hl
    have hkl := (hk.flat c hc).leaf q' hq' l hl
    rw [if_neg (hlm _ _ hkl).1, hkl]
  · intro q hq l hl
    obtain ⟨c, hc, q', hq', e⟩ := hPq q hq
    rw [e] at hl
    have hkl := (hk.flat c hc).leaf q' hq' l hl
    rw [if_neg (hlm _ _ hkl).2, if_neg (hlm _ _ hkl).1]
    exact (hk.flat c hc).lout q' hq' l hl
  · rw [flatten_inner_sum n cs L hL hi.shape]
    simp only [hP, List.map_flatMap, List.map_map]
    rfl
  · intro u hu
    split_ifs at hu with hc
    · simp at hu
    · exact hi.low u hu
  · intro q hq
    rw [hpids] at hq
    obtain ⟨c, hc, hq⟩ := List.mem_flatMap.1 hq
    obtain ⟨x, hx, rfl⟩ := mem_arrange.1 hc
    exact hi.ploc x hx q hq
  · rw [Flat.ids, hpids, List.nodup_cons]
    refine ⟨fun hc => ?_, ?_⟩
    · obtain ⟨c, hc, hq⟩ := List.mem_flatMap.1 hc
      exact hpn c hc n hq rfl
    · have hn := hk.nodup
      rw [List.nodup_flatMap] at hn ⊢
      refine ⟨fun c hc => (List.nodup_cons.1 (hn.1 c hc)).2, hn.2.imp fun {a b} hab x hxa hxb => ?_⟩
      exact hab (a := x) (by simp [Flat.ids, hxa]) (by simp [Flat.ids, hxb])
  · intro u hu hui
    rw [hinn, not_or] at hui
    have hnm' : u ∉ (arrange L).map fun c => c.2.m := by
      intro hc
      obtain ⟨x, hx, hux⟩ := List.mem_flatMap.1 (hms u hc)
      rcases hi.loc x hx u hux with e | e
      · exact hui.2 (List.mem_flatMap.2 ⟨x, hx, e⟩)
      · exact absurd hu (not_lt.2 e)
    rw [if_neg hnm', (hi.frame u hu hui.2 hui.1).1]
  · intro u hu hui hpu
    rw [hinn, not_or] at hui
    have hnm' : u ∉ (arrange L).map fun c => c.2.m := by
      intro hc
      obtain ⟨x, hx, hux⟩ := List.mem_flatMap.1 (hms u hc)
      rcases hi.loc x hx u hux with e | e
      · exact hui.2 (List.mem_flatMap.2 ⟨x, hx, e⟩)
      · exact absurd hu (not_lt.2 e)
    rw [if_neg hui.1, if_neg hnm', (hi.frame u hu hui.2 hui.1).2]
  · intro q hq
    obtain ⟨hpe, hpi⟩ := h.par q hq
    rw [hinn, not_or] at hpi
    have hqlt : (q : ℕ) < s.next := h.low q (h.view.src (v := n) (List.mem_map.2 ⟨_, hpe, rfl⟩))
    have hnm' : q ∉ (arrange L).map fun c => c.2.m := by
      intro hc
      obtain ⟨x, hx, hux⟩ := List.mem_flatMap.1 (hms q hc)
      rcases hi.loc x hx q hux with e | e
      · exact hpi.2 (List.mem_flatMap.2 ⟨x, hx, e⟩)
      · exact absurd hqlt (not_lt.2 e)
    simp only
    rw [if_neg hpi.1, if_neg hnm', (hi.frame q hqlt hpi.2 hpi.1).2]
    simp [UTree.isSum]
  · intro u hu
    rw [hinn] at hu
    by_cases hun : u = n
    · left; rw [hun]; simp [Flat.ids]
    · have hu' : (u ∈ L.flatMap fun x => x.1.2.inn) ∨ s.next ≤ u := by tauto
      rcases hi.clean u hu' with e | ⟨e1, e2⟩
      · by_cases hm : u ∈ (arrange L).map fun c => c.2.m
        · right; rw [if_pos hm, if_neg hun, if_pos hm]; exact ⟨rfl, rfl⟩
        · left
          rw [Flat.ids, hpids]
          rw [← mem_arrange_ids] at e
          obtain ⟨c, hc, hq⟩ := List.mem_flatMap.1 e
          rcases List.mem_cons.1 hq with e' | e'
          · exact absurd (List.mem_map.2 ⟨c, hc, e'.symm⟩) hm
          · exact List.mem_cons_of_mem _ (List.mem_flatMap.2 ⟨c, hc, e'⟩)
      · by_cases hm : u ∈ (arrange L).map fun c => c.2.m
        · right; rw [if_pos hm, if_neg hun, if_pos hm]; exact ⟨rfl, rfl⟩
        · right; rw [if_neg hm, if_neg hun, if_neg hm]; exact ⟨e1, e2⟩

theorem foldr_max_le {l : List ℕ} {a : ℕ} (h : a ∈ l) : a ≤ l.foldr max 0 := by
  induction l with
  | nil => simp at h
  | cons b l ih =>
    rcases List.mem_cons.1 h with rfl | h
    · exact le_max_left _ _
    · exact (ih h).trans (le_max_right _ _)

theorem height_child {n : Node} {b : Bool} {cs : List (Option LogP × UTree D)} {c : Option LogP × UTree D} (hc : c ∈ cs) :
    c.2.height < (UTree.inner n b cs).height := by
  rw [UTree.height]
  exact Nat.lt_succ_of_le (foldr_max_le (List.mem_map.2 ⟨c, hc, rfl⟩))

theorem combinations_ne_nil {α : Type} {ls : List (List α)} (h : ∀ l ∈ ls, l ≠ []) : combinations ls ≠ [] := by
  obtain ⟨cb, hcb⟩ := exists_combination h
  exact List.ne_nil_of_mem hcb

theorem flatten_ne_nil {t : UTree D} (h : WellBuilt t) : flatten t ≠ [] := by
  induction h with
  | leaf => simp [flatten_leaf]
  | @sum n cs h1 h2 h3 ih =>
    rw [flatten]
    obtain ⟨c, hc⟩ := List.exists_mem_of_ne_nil _ h1
    obtain ⟨q, hq⟩ := List.exists_mem_of_ne_nil _ (ih c hc)
    refine List.ne_nil_of_mem (a := (c.1.getD 0 + .fin weightKey, q.2)) (List.mem_flatMap.2 ⟨(c.1, c.2.isSum, flatten c.2), ?_, List.mem_map.2 ⟨q, hq, rfl⟩⟩)
    rw [(List.filter_append_perm _ _).mem_iff]
    exact List.mem_map.2 ⟨c, hc, rfl⟩
  | @prod n cs h1 h2 h3 ih =>
    rw [flatten]
    rw [ne_eq, List.map_eq_nil_iff]
    refine combinations_ne_nil fun l hl => ?_
    obtain ⟨f, hf, rfl⟩ := List.mem_map.1 hl
    rw [(List.filter_append_perm _ _).mem_iff] at hf
    obtain ⟨c, hc, rfl⟩ := List.mem_map.1 hf
    exact ih c hc

theorem mem_of_mem_combinations {α : Type} {ls : List (List α)} {cb : List α} (h : cb ∈ combinations ls) {a : α} (ha : a ∈ cb) :
    ∃ l ∈ ls, a ∈ l := by
  have hf := mem_combinations.1 h
  obtain ⟨i, hi, hqi⟩ := List.mem_iff_getElem.1 ha
  have hmem := (List.forall₂_iff_get.1 hf).2 i hi (by rw [← hf.length_eq]; exact hi)
  simp only [List.get_eq_getElem, hqi] at hmem
  exact ⟨_, List.getElem_mem _, hmem⟩

theorem lvs_inner {n : Node} {b : Bool} {cs : List (Option LogP × UTree D)} :
    (UTree.inner n b cs).lvs = cs.flatMap fun c => c.2.lvs := by
  rw [UTree.lvs]

theorem flatten_lvs {t : UTree D} (h : WellBuilt t) : ∀ q ∈ flatten t, ∀ l ∈ q.2, l ∈ t.lvs := by
  induction h with
  | @leaf n d =>
    intro q hq l hl
    rw [flatten_leaf, List.mem_singleton] at hq
    rw [hq] at hl
    rw [UTree.lvs]
    exact hl
  | @sum n cs h1 h2 h3 ih =>
    intro q hq l hl
    rw [flatten] at hq
    obtain ⟨f, hf, hq⟩ := List.mem_flatMap.1 hq
    rw [(List.filter_append_perm _ _).mem_iff] at hf
    obtain ⟨c, hc, rfl⟩ := List.mem_map.1 hf
    obtain ⟨q', hq', rfl⟩ := List.mem_map.1 hq
    rw [lvs_inner]
    exact List.mem_flatMap.2 ⟨c, hc, ih c hc q' hq' l hl⟩
  | @prod n cs h1 h2 h3 ih =>
    intro q hq l hl
    rw [flatten] at hq
    obtain ⟨cb, hcb, rfl⟩ := List.mem_map.1 hq
    obtain ⟨q', hq', hl⟩ := List.mem_flatMap.1 hl
    obtain ⟨f, hf, hq'⟩ := mem_of_mem_combinations hcb hq'
    obtain ⟨f', hf', rfl⟩ := List.mem_map.1 hf
    rw [(List.filter_append_perm _ _).mem_iff] at hf'
    obtain ⟨c, hc, rfl⟩ := List.mem_map.1 hf'
    rw [lvs_inner]
    exact List.mem_flatMap.2 ⟨c, hc, ih c hc q' hq' l hl⟩

theorem prod_step {s s1 : Fresh D} {K K1 : Node → Option (Kind D)} {O O1 : Outs} {n : ℕ} {cs : List (Option LogP × UTree D)}
    {p : Option Node} {w : Option LogP} {L : List ((Option LogP × UTree D) × Flat D)}
    (h : Pre s K O (.inner n false cs) p w) (hi : Inv s K O n L [] s1 K1 O1) (hL : L.map Prod.fst = cs) :
    ∃ s' K' O' F, shallowProduct s1 n p = .ok s' ∧ Post s K O (.inner n false cs) p w s' K' O' F := by
  have hk := hi.kids
  have hrep := h.rep
  have hKn : K n = some .prod := by
    cases hrep with
    | inner h1 h2 h3 => simpa using h1
  have hKn1 : K1 n = some .prod := by rw [hi.kn, hKn]
  have hinn : ∀ u, u ∈ (UTree.inner n false cs).inn ↔ u = n ∨ u ∈ L.flatMap fun x => x.1.2.inn := by
    intro u
    rw [inn_inner, List.mem_cons, ← hL, List.flatMap_map]
  have hb : ∀ c ∈ cs, WellBuilt c.2 := by
    have := h.built
    cases this with
    | prod h1 h2 h3 => exact h3
  have hpwL : L.Pairwise fun a b => ∀ l ∈ a.1.2.lvs, ∀ l' ∈ b.1.2.lvs, l.1 ≠ l'.1 := by
    have := h.built
    cases this with
    | prod h1 h2 h3 =>
      rw [← hL, List.pairwise_map] at h1
      exact h1
  have hlv : ∀ x ∈ L, ∀ q ∈ x.2.prods, ∀ l ∈ q.2.2, l ∈ x.1.2.lvs := by
    intro x hx q hq l hl
    refine flatten_lvs (hb x.1 (by rw [← hL]; exact List.mem_map.2 ⟨x, hx, rfl⟩)) (q.1, q.2.2) ?_ l hl
    rw [← hi.shape x hx]
    exact List.mem_map.2 ⟨q, hq, rfl⟩
  have hout : ∀ u : ℕ, u < s.next → u ∉ (UTree.inner n false cs).inn → (u ∉ (arrange L).flatMap fun c => c.2.ids) := by
    intro u hu hui hc
    rw [mem_arrange_ids] at hc
    obtain ⟨x, hx, hux⟩ := List.mem_flatMap.1 hc
    rw [hinn, not_or] at hui
    rcases hi.loc x hx u hux with e | e
    · exact hui.2 (List.mem_flatMap.2 ⟨x, hx, e⟩)
    · exact absurd hu (not_lt.2 e)
  have hpar : ∀ q : ℕ, p = some q → q < s.next ∧ O1 q = O q := by
    intro q hq
    obtain ⟨hpe, hpi⟩ := h.par q hq
    have hqlt : (q : ℕ) < s.next := h.low q (h.view.src (v := n) (List.mem_map.2 ⟨_, hpe, rfl⟩))
    rw [hinn, not_or] at hpi
    exact ⟨hqlt, (hi.frame q hqlt hpi.2 hpi.1).2⟩
  obtain ⟨s', hs', hnext, hv'⟩ := product_step (p := p) (w := w) hi.view hi.low hKn1 hk (by
      intro c hc hcon
      obtain ⟨x, hx, rfl⟩ := mem_arrange.1 hc
      have := hi.shape x hx
      simp only at hcon
      rw [hcon] at this
      exact flatten_ne_nil (hb x.1 (by rw [← hL]; exact List.mem_map.2 ⟨x, hx, rfl⟩)) this.symm) (by
      have hpl : (L.map fun x => (x.1.1, x.2)).Pairwise fun a b => ∀ q ∈ a.2.prods, ∀ l ∈ q.2.2, ∀ q' ∈ b.2.prods, ∀ l' ∈ q'.2.2, l.1 ≠ l'.1 := by
        rw [List.pairwise_map]
        refine hpwL.imp_of_mem fun {a b} ha hb hab q hq l hl q' hq' l' hl' => ?_
        exact hab l (hlv a ha q hq l hl) l' (hlv b hb q' hq' l' hl')
      refine (List.Perm.pairwise_iff ?_ (arrange_perm L)).2 hpl
      intro a b hab q hq l hl q' hq' l' hl'
      exact (hab q' hq' l' hl' q hq l hl).symm) (by
      intro u ht
      by_cases hun : u = n
      · exfalso
        rw [To, hun, hk.out, List.map_map] at ht
        obtain ⟨c, hc, e⟩ := List.mem_map.1 ht
        exact hk.notn (List.mem_flatMap.2 ⟨c, hc, by rw [← e]; simp [Flat.ids]⟩)
      · by_cases hu : (u ∈ L.flatMap fun x => x.1.2.inn) ∨ s.next ≤ u
        · exfalso
          rcases hi.clean u hu with e | ⟨_, e⟩
          · obtain ⟨x, hx, hux⟩ := List.mem_flatMap.1 e
            rcases (hi.flat x hx).to hux ht with ⟨_, e⟩ | ⟨d, e⟩
            · exact hi.notn (List.mem_flatMap.2 ⟨x, hx, by simp [Flat.ids, e]⟩)
            · rw [hKn1] at e; simp at e
          · rw [To, e] at ht; simp at ht
        · rw [not_or] at hu
          rw [To, (hi.frame u (not_le.1 hu.2) hu.1 hun).2] at ht
          have hni : n ∈ (UTree.inner n false cs).inn := by rw [inn_inner]; simp
          rcases h.own n hni u ht with e | ⟨_, e⟩
          · rw [hinn] at e
            rcases e with e | e
            · exact absurd e hun
            · exact absurd e hu.1
          · exact e) (by
      intro q hq
      rw [(hpar q hq).2]
      exact (h.par q hq).1)
  set cbs := combinations ((arrange L).map fun c => c.2.prods) with hcbs
  set N := s1.next with hN
  have hN0 : s.next ≤ N := hi.next
  have hK1N : ∀ u : ℕ, N ≤ u → K1 u = none := fun u hu => by
    by_contra hc
    have := hi.low u hc
    omega
  have hidlt : ∀ u : ℕ, (u ∈ (arrange L).flatMap fun c => c.2.ids) → u < N := fun u hu => by
    obtain ⟨c, hc, hu⟩ := List.mem_flatMap.1 hu
    exact hi.low u ((hk.flat c hc).kind_ne hu)
  have hnN : n < N := hi.low n (by rw [hKn1]; simp)
  have hfresh : ∀ u : ℕ, N ≤ u → ¬ (u = n ∨ u ∈ (arrange L).flatMap fun c => c.2.ids) := by
    rintro u hu (e | e)
    · omega
    · have := hidlt u e; omega
  set P : List (LogP × Node × List (Node × D)) :=
    (cbs.zipIdx (N + 1)).map fun z => (.fin 1, z.2, z.1.flatMap fun q => q.2.2) with hP
  have hPz : ∀ q ∈ P, ∃ z ∈ cbs.zipIdx (N + 1), q = (.fin 1, z.2, z.1.flatMap fun q => q.2.2) := by
    intro q hq
    obtain ⟨z, hz, e⟩ := List.mem_map.1 hq
    exact ⟨z, hz, e.symm⟩
  have hz : ∀ z ∈ cbs.zipIdx (N + 1), (N + 1 ≤ z.2 ∧ z.2 < N + 1 + cbs.length) ∧ cbs.getD (z.2 - (N + 1)) [] = z.1 ∧ z.1 ∈ cbs := by
    rintro ⟨a, i⟩ hz
    obtain ⟨h1, h2, h3⟩ := List.mem_zipIdx hz
    refine ⟨⟨h1, h2⟩, ?_, ?_⟩
    · rw [List.getD_eq_getElem _ _ (by omega), h3]
    · rw [h3]; exact List.getElem_mem _
  have hpids : (Flat.mk N P).pids = List.range' (N + 1) cbs.length := by
    simp only [Flat.pids, hP, List.map_map]
    exact List.zipIdx_map_snd _ _
  have hleafz : ∀ cb ∈ cbs, ∀ q ∈ cb, ∀ l ∈ q.2.2, K1 l.1 = some (.leaf l.2) ∧ O1 l.1 = [] := by
    intro cb hcb q hq l hl
    obtain ⟨f, hf, hqf⟩ := mem_of_mem_combinations hcb hq
    obtain ⟨c, hc, rfl⟩ := List.mem_map.1 hf
    exact ⟨(hk.flat c hc).leaf q hqf l hl, (hk.flat c hc).lout q hqf l hl⟩
  have hleafout : ∀ (u : ℕ) (d : D), K1 u = some (.leaf d) → O1 u = [] →
      ¬ (u = n ∨ u ∈ (arrange L).flatMap fun c => c.2.ids) ∧ u < N ∧ p ≠ some u := by
    intro u d hu ho
    refine ⟨?_, hi.low u (by rw [hu]; simp), ?_⟩
    · rintro (e | e)
      · rw [e, hKn1] at hu; simp at hu
      · obtain ⟨c, hc, e⟩ := List.mem_flatMap.1 e
        exact (hk.flat c hc).kind_leaf e d hu
    · intro e
      have h1 := (h.par u e).1
      rw [← (hpar u e).2, ho] at h1
      simp at h1
  refine ⟨s', _, _, ⟨N, P⟩, hs', hv', ⟨?_, ?_, ?_, ?_, ?_, ?_⟩, ?_, ?_, ?_, .inr ⟨rfl, hN0⟩, ?_, ?_, ?_, ?_, ?_, ?_⟩
  · simp only; rw [if_neg (hfresh N le_rfl), if_pos trivial]
  · simp only
    rw [if_neg (hfresh N le_rfl), if_pos trivial, hP, List.map_map, ← List.zipIdx_map_snd (N + 1) cbs, List.map_map]
    rfl
  · intro q hq
    obtain ⟨z, hz', rfl⟩ := hPz q hq
    obtain ⟨⟨a1, a2⟩, b, c⟩ := hz z hz'
    simp only
    rw [if_neg (hfresh z.2 (by omega)), if_neg (by omega), if_pos ⟨a1, a2⟩]
  · intro q hq
    obtain ⟨z, hz', rfl⟩ := hPz q hq
    obtain ⟨⟨a1, a2⟩, b, c⟩ := hz z hz'
    simp only
    rw [if_neg (hfresh z.2 (by omega)), if_neg (by omega), if_pos ⟨a1, a2⟩, b, comboOut, List.map_flatMap]
  · intro q hq l hl
    obtain ⟨z, hz', rfl⟩ := hPz q hq
    obtain ⟨_, _, c⟩ := hz z hz'
    obtain ⟨q', hq', hl⟩ := List.mem_flatMap.1 hl
    obtain ⟨k1, k2⟩ := hleafz z.1 c q' hq' l hl
    obtain ⟨d1, d2, d3⟩ := hleafout l.1 l.2 k1 k2
    have d2 : (l.1 : ℕ) < N := d2
    rw [if_neg d1, if_neg (ne_of_lt d2), if_neg fun hc => absurd hc.1 (not_le.2 (Nat.lt_succ_of_lt d2)), k1]
  · intro q hq l hl
    obtain ⟨z, hz', rfl⟩ := hPz q hq
    obtain ⟨_, _, c⟩ := hz z hz'
    obtain ⟨q', hq', hl⟩ := List.mem_flatMap.1 hl
    obtain ⟨k1, k2⟩ := hleafz z.1 c q' hq' l hl
    obtain ⟨d1, d2, d3⟩ := hleafout l.1 l.2 k1 k2
    have d2 : (l.1 : ℕ) < N := d2
    rw [if_neg d1, if_neg (ne_of_lt d2), if_neg fun hc => absurd hc.1 (not_le.2 (Nat.lt_succ_of_lt d2)), if_neg d3, k2]
  · rw [flatten_inner_prod n cs L hL hi.shape, ← hcbs]
    simp only [hP, List.map_map]
    conv_rhs => rw [← List.zipIdx_map_fst (N + 1) cbs, List.map_map]
    rfl
  · rw [hnext]; omega
  · intro u hu
    rw [hnext]
    split_ifs at hu with h1 h2 h3
    · simp at hu
    · omega
    · omega
    · have := hi.low u hu; omega
  · intro q hq
    rw [hpids, List.mem_range'_1] at hq
    exact hN0.trans ((Nat.le_succ N).trans hq.1)
  · rw [Flat.ids, hpids]
    refine List.nodup_cons.2 ⟨fun hc => ?_, List.nodup_range'⟩
    have := (List.mem_range'_1.1 hc).1
    exact absurd this (Nat.not_succ_le_self N)
  · intro u hu hui
    have h1 := hout u hu hui
    have h2 := hui
    rw [hinn, not_or] at h2
    rw [if_neg (by rintro (e | e); exacts [h2.1 e, h1 e]), if_neg (by omega), if_neg (by omega), (hi.frame u hu h2.2 h2.1).1]
  · intro u hu hui hpu
    have h1 := hout u hu hui
    have h2 := hui
    rw [hinn, not_or] at h2
    rw [if_neg (by rintro (e | e); exacts [h2.1 e, h1 e]), if_neg (by omega), if_neg (by omega), if_neg hpu, (hi.frame u hu h2.2 h2.1).2]
  · intro q hq
    obtain ⟨hqlt, hq1⟩ := hpar q hq
    have hqlt : (q : ℕ) < s.next := hqlt
    have hui := (h.par q hq).2
    have h1 := hout q hqlt hui
    have h2 := hui
    rw [hinn, not_or] at h2
    simp only
    have hqN : (q : ℕ) < N := lt_of_lt_of_le hqlt hN0
    rw [if_neg (by rintro (e | e); exacts [h2.1 e, h1 e]), if_neg (ne_of_lt hqN),
      if_neg fun hc => absurd hc.1 (not_le.2 (Nat.lt_succ_of_lt hqN)), if_pos hq, hq1, if_neg (by simp [UTree.isSum])]
    rfl
  · intro u hu
    rw [hinn] at hu
    rw [Flat.ids, hpids]
    by_cases c1 : u = n ∨ u ∈ (arrange L).flatMap fun c => c.2.ids
    · right; rw [if_pos c1, if_pos c1]; exact ⟨rfl, rfl⟩
    · by_cases c2 : u = N
      · left; rw [c2]; simp
      · by_cases c3 : N + 1 ≤ u ∧ u < N + 1 + cbs.length
        · left
          exact List.mem_cons_of_mem _ (List.mem_range'_1.2 c3)
        · right
          have hpu : p ≠ some u := by
            intro e
            obtain ⟨a, _⟩ := hpar u e
            have := (h.par u e).2
            rw [hinn] at this
            rcases hu with hu | hu
            · exact this hu
            · omega
          rw [if_neg c1, if_neg c1, if_neg c2, if_neg c2, if_neg c3, if_neg c3, if_neg hpu]
          rw [not_or, mem_arrange_ids] at c1
          rcases hu with (hu | hu) | hu
          · exact absurd hu c1.1
          · exact (hi.clean u (.inl hu)).resolve_left c1.2
          · exact (hi.clean u (.inr hu)).resolve_left c1.2

/-- `shallowing` turns every tree into a flat part. -/
theorem shallowing_post : ∀ (fuel : ℕ) (t : UTree D), t.height < fuel → ∀ {s : Fresh D} {K : Node → Option (Kind D)} {O : Outs}
    {p : Option Node} {w : Option LogP}, Pre s K O t p w →
    ∃ s' K' O' F, shallowing fuel s t.root p = .ok s' ∧ Post s K O t p w s' K' O' F
  | 0, t, hf, _, _, _, _, _, _ => by omega
  | fuel + 1, .leaf n d, hf, s, K, O, p, w, h => by
    obtain ⟨s', K', O', F, h1, h2⟩ := leaf_step h
    refine ⟨s', K', O', F, ?_, h2⟩
    have hr := h.rep
    cases hr with
    | leaf hK hO => simp only [shallowing, UTree.root, h.view.kind, hK, h1]
  | fuel + 1, .inner n b cs, hf, s, K, O, p, w, h => by
    have hr := h.rep
    have hnd := h.nodup
    rw [inn_inner] at hnd
    obtain ⟨hn1, hn2⟩ := List.nodup_cons.1 hnd
    have hb : ∀ c ∈ cs, WellBuilt c.2 := by
      have := h.built
      cases this with
      | prod h1 h2 h3 => exact h3
      | sum h1 h2 h3 => exact h3
    cases hr with
    | inner hK hO hcs =>
      obtain ⟨s1, K1, O1, L, h1, h2, h3⟩ := Inv.loop (f := fun s c => shallowing fuel s c (some n)) (s0 := s) (K0 := K) (O0 := O) (n := n)
        (by rw [hK]; simp) (by rw [hK]; cases b <;> simp) cs (Inv.init h)
        (fun c hc s K O hp => shallowing_post fuel c.2 (by have := height_child (n := n) (b := b) hc; omega) hp)
        (by simpa using hn2) hn1 hb
        (fun c hc u hu => h.low u ((hcs c hc).kind_ne hu))
      have hsucc : s.g.succ n = cs.map fun c => c.2.root := by rw [h.view.succ, hO, List.map_map]; rfl
      have hL : L.map Prod.fst = cs := by simpa using h2
      cases b with
      | true =>
        obtain ⟨g', K', O', F, h4, h5⟩ := sum_step h h3 hL
        refine ⟨⟨g', s1.next⟩, K', O', F, ?_, h5⟩
        simp only [shallowing, show (UTree.inner n true cs).root = n from rfl, h.view.kind, hK, if_true, hsucc]
        rw [h1]
        simp only [bind, Except.bind, h4, pure, Except.pure]
      | false =>
        obtain ⟨s', K', O', F, h4, h5⟩ := prod_step h h3 hL
        refine ⟨s', K', O', F, ?_, h5⟩
        simp only [shallowing, show (UTree.inner n false cs).root = n from rfl, h.view.kind, hK, Bool.false_eq_true, if_false, hsucc]
        rw [h1]
        exact h4

end PM.Graph
