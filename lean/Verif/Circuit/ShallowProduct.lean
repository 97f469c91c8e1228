import Verif.Circuit.ShallowProd
import Mathlib.Data.List.GetD

/-! Helper lemmas: the product case of `shallowing`, as a whole. -/

namespace PM.Graph

open Spec

variable {D : Type}

theorem combinations_map {α β : Type} (f : α → β) : ∀ ls : List (List α),
    combinations (ls.map fun l => l.map f) = (combinations ls).map fun cb => cb.map f
  | [] => rfl
  | l :: ls => by
    rw [List.map_cons, combinations, combinations_map f ls, combinations, List.map_flatMap, List.flatMap_map]
    refine List.flatMap_congr fun a _ => ?_
    simp [List.map_map, Function.comp_def]

theorem mem_combinations {α : Type} : ∀ {ls : List (List α)} {cb : List α}, cb ∈ combinations ls ↔ List.Forall₂ (· ∈ ·) cb ls
  | [], cb => by simp [combinations]
  | l :: ls, cb => by
    rw [combinations, List.mem_flatMap]
    constructor
    · rintro ⟨a, ha, h⟩
      obtain ⟨cb', h', rfl⟩ := List.mem_map.1 h
      exact .cons ha (mem_combinations.1 h')
    · intro h
      cases h with
      | cons ha h => exact ⟨_, ha, List.mem_map.2 ⟨_, mem_combinations.2 h, rfl⟩⟩

theorem exists_combination {α : Type} : ∀ {ls : List (List α)}, (∀ l ∈ ls, l ≠ []) → ∃ cb, cb ∈ combinations ls
  | [], _ => ⟨[], by simp [combinations]⟩
  | l :: ls, h => by
    obtain ⟨cb, hcb⟩ := exists_combination fun l' hl' => h l' (List.mem_cons_of_mem _ hl')
    obtain ⟨a, ha⟩ := List.exists_mem_of_ne_nil _ (h l (by simp))
    exact ⟨a :: cb, by rw [mem_combinations]; exact .cons ha (mem_combinations.1 hcb)⟩

theorem exists_combination_with {α : Type} : ∀ {ls : List (List α)}, (∀ l ∈ ls, l ≠ []) → ∀ l ∈ ls, ∀ a ∈ l, ∃ cb ∈ combinations ls, a ∈ cb
  | [], _, l, hl, _, _ => by simp at hl
  | l :: ls, h, l', hl', a, ha => by
    rcases List.mem_cons.1 hl' with rfl | hl'
    · obtain ⟨cb, hcb⟩ := exists_combination fun l' hl' => h l' (List.mem_cons_of_mem _ hl')
      exact ⟨a :: cb, by rw [mem_combinations]; exact .cons ha (mem_combinations.1 hcb), by simp⟩
    · obtain ⟨cb, hcb, hac⟩ := exists_combination_with (fun l' hl' => h l' (List.mem_cons_of_mem _ hl')) l' hl' a ha
      obtain ⟨b, hb⟩ := List.exists_mem_of_ne_nil _ (h l (by simp))
      exact ⟨b :: cb, by rw [mem_combinations]; exact .cons hb (mem_combinations.1 hcb), by simp [hac]⟩

theorem removeLoop : ∀ (Gs : List (Option LogP × Flat D)) {g : Graph D} {K : Node → Option (Kind D)} {O : Outs}, View g K O →
    (∀ c ∈ Gs, RepFlat K O c.2) → (Gs.flatMap fun c => c.2.ids).Nodup → (∀ c ∈ Gs, ∀ u, ¬ To O u c.2.m) →
    (∀ c ∈ Gs, ∀ q ∈ c.2.pids, ∀ u, To O u q → u = c.2.m) →
    (∀ c ∈ Gs, ∀ q ∈ c.2.prods, ∀ l ∈ q.2.2, ∃ u, (u ∉ Gs.flatMap fun c => c.2.ids) ∧ To O u l.1) →
    ∃ g', (Gs.map fun c => c.2.m).foldlM removeIfOrphan g = .ok g' ∧
      View g' (fun u => if u ∈ Gs.flatMap (fun c => c.2.ids) then none else K u)
        (fun u => if u ∈ Gs.flatMap (fun c => c.2.ids) then [] else O u)
  | [], g, K, O, h, _, _, _, _, _ => ⟨g, rfl, h.congr (fun u => by simp) fun u => by simp⟩
  | c :: Gs, g, K, O, h, hF, hnd, hM, hP, hl => by
    rw [List.flatMap_cons] at hnd
    obtain ⟨hn1, hn2, hn3⟩ := List.nodup_append.1 hnd
    obtain ⟨g1, hg1, hv1⟩ := h.removeFlat (hF c (by simp)) hn1 (hM c (by simp)) (hP c (by simp)) (by
      intro q hq l hl'
      obtain ⟨u, hu, hul⟩ := hl c (by simp) q hq l hl'
      exact ⟨u, fun hc => hu (by rw [List.flatMap_cons, List.mem_append]; exact .inl hc), hul⟩)
    have hto : ∀ u v, To (fun u => if u ∈ c.2.ids then [] else O u) u v → u ∉ c.2.ids ∧ To O u v := by
      intro u v ht
      rw [To] at ht
      split_ifs at ht with hc
      · simp at ht
      · exact ⟨hc, ht⟩
    have hleaf : ∀ u d, K u = some (.leaf d) → u ∉ c.2.ids := by
      intro u d hu hc
      have hcF := hF c (by simp)
      rcases List.mem_cons.1 hc with e | e
      · rw [e, hcF.sum] at hu; simp at hu
      · obtain ⟨q, hq, e⟩ := List.mem_map.1 e
        rw [← e, hcF.prod q hq] at hu; simp at hu
    obtain ⟨g2, hg2, hv2⟩ := removeLoop Gs hv1
      (fun c' hc' => (hF c' (by simp [hc'])).congr (fun u hu => by
          have : u ∉ c.2.ids := fun hc => hn3 u hc u (List.mem_flatMap.2 ⟨c', hc', hu⟩) rfl
          simp [this])
        (fun u d hu _ => by simp [hleaf u d hu]))
      hn2 (fun c' hc' u ht => hM c' (by simp [hc']) u (hto u _ ht).2)
      (fun c' hc' q hq u ht => hP c' (by simp [hc']) q hq u (hto u _ ht).2) (by
        intro c' hc' q hq l hl'
        obtain ⟨u, hu, hul⟩ := hl c' (by simp [hc']) q hq l hl'
        rw [List.flatMap_cons, List.mem_append, not_or] at hu
        exact ⟨u, hu.2, by rw [To, if_neg hu.1]; exact hul⟩)
    refine ⟨g2, ?_, hv2.congr (fun u => ?_) fun u => ?_⟩
    · rw [List.map_cons, List.foldlM_cons, hg1]
      exact hg2
    · rw [List.flatMap_cons]
      by_cases h1 : u ∈ Gs.flatMap fun c => c.2.ids
      · rw [if_pos h1, if_pos (List.mem_append.2 (.inr h1))]
      · by_cases h2 : u ∈ c.2.ids
        · rw [if_neg h1, if_pos h2, if_pos (List.mem_append.2 (.inl h2))]
        · rw [if_neg h1, if_neg h2, if_neg (by rw [List.mem_append]; tauto)]
    · rw [List.flatMap_cons]
      by_cases h1 : u ∈ Gs.flatMap fun c => c.2.ids
      · rw [if_pos h1, if_pos (List.mem_append.2 (.inr h1))]
      · by_cases h2 : u ∈ c.2.ids
        · rw [if_neg h1, if_pos h2, if_pos (List.mem_append.2 (.inl h2))]
        · rw [if_neg h1, if_neg h2, if_neg (by rw [List.mem_append]; tauto)]

/-- The first part: the new sum unit takes the place of the product unit `n`. -/
theorem replaceStep {g : Graph D} {K : Node → Option (Kind D)} {O : Outs} {n N : ℕ} {p : Option Node} {w : Option LogP}
    (h : View g K O) (hn : K n = some .prod) (hN : K N = none) (hin : ∀ u, To O u n → p = some u)
    (hp : ∀ q, p = some q → (n, w) ∈ O q) (hloop : ¬ To O n n) :
    ∃ g', g.replaceProduct n N p = .ok g' ∧
    View g' (fun u => if u = n then none else if u = N then some .sum else K u)
      (fun u => if u = n then [] else if p = some u then (O u).filter (fun a => decide (a.1 ≠ n)) ++ [(N, w)] else O u) := by
  have hnN : n ≠ N := fun e => by rw [e, hN] at hn; simp at hn
  have h1 := h.addNode hN .sum
  cases p with
  | none =>
    have h2 := h1.removeNode (n := n) fun u hu => by simpa using hin u hu
    refine ⟨_, rfl, h2.congr (fun u => ?_) fun u => ?_⟩
    · by_cases e : u = n
      · subst e; simp
      · rw [Function.update_of_ne e, if_neg e]
        by_cases e' : u = N
        · subst e'; simp
        · rw [Function.update_of_ne e', if_neg e']
    · by_cases e : u = n
      · subst e; simp
      · rw [Function.update_of_ne e, if_neg e, if_neg (by simp)]
  | some p =>
    have hpn : p ≠ n := fun e => by
      subst e
      exact hloop (List.mem_map.2 ⟨_, hp p rfl, rfl⟩)
    have hpK : K p ≠ none := h.src (u := p) (v := n) (List.mem_map.2 ⟨_, hp p rfl, rfl⟩)
    have hpN : p ≠ N := fun e => hpK (by rw [e, hN])
    have h2 := h1.addEdge (u := p) (v := N) w (by rwa [Function.update_of_ne hpN]) (by simp)
      (fun hc => h.dst (u := p) hc hN)
    have h3 := h2.removeEdge p n
    rw [Function.update_self, Function.update_idem, List.filter_append, List.filter_cons_of_pos (by simp [Ne.symm hnN]),
      List.filter_nil] at h3
    have hd : (g.addNode N .sum).edgeData p n = some w := h1.edgeData (hp p rfl)
    have horph : ∀ u, ¬ To (Function.update O p ((O p).filter (fun a => decide (a.1 ≠ n)) ++ [(N, w)])) u n := by
      intro u hu
      by_cases e : u = p
      · subst e
        rw [To, Function.update_self] at hu
        simp at hu
        exact hnN hu
      · rw [To, Function.update_of_ne e] at hu
        have := hin u hu
        simp only [Option.some.injEq] at this
        exact e this.symm
    have h4 := h3.removeNode horph
    refine ⟨_, ?_, h4.congr (fun u => ?_) fun u => ?_⟩
    · simp only [replaceProduct, redirect, hd, bind, Except.bind]
      rw [if_pos (h3.pred_eq_nil.2 horph)]
      rfl
    · by_cases e : u = n
      · subst e; simp
      · rw [Function.update_of_ne e, if_neg e]
        by_cases e' : u = N
        · subst e'; simp
        · rw [Function.update_of_ne e', if_neg e']
    · by_cases e : u = n
      · subst e; simp
      · rw [Function.update_of_ne e, if_neg e]
        by_cases e' : u = p
        · subst e'; simp
        · rw [Function.update_of_ne e', if_neg (by simpa using Ne.symm e')]

/-- The leaves of a combination. -/
def comboOut (cb : List (LogP × Node × List (Node × D))) : List (Node × Option LogP) := cb.flatMap fun q => q.2.2.map fun l => (l.1, none)

theorem nodup_combo {K : Node → Option (Kind D)} {O : Outs} (hnd : ∀ u, ((O u).map Prod.fst).Nodup) :
    ∀ {Gs : List (Option LogP × Flat D)} {cb : List (LogP × Node × List (Node × D))}, (∀ c ∈ Gs, RepFlat K O c.2) →
    (Gs.Pairwise fun a b => ∀ q ∈ a.2.prods, ∀ l ∈ q.2.2, ∀ q' ∈ b.2.prods, ∀ l' ∈ q'.2.2, l.1 ≠ l'.1) →
    List.Forall₂ (· ∈ ·) cb (Gs.map fun c => c.2.prods) → (cb.flatMap fun q => q.2.2.map Prod.fst).Nodup
  | [], cb, _, _, h => by simp at h; simp [h]
  | c :: Gs, cb, hF, hpw, h => by
    cases h with
    | cons hq h =>
      rename_i q cb
      rw [List.flatMap_cons, List.nodup_append]
      refine ⟨?_, nodup_combo hnd (fun c' hc' => hF c' (by simp [hc'])) (List.pairwise_cons.1 hpw).2 h, ?_⟩
      · have := hnd q.2.1
        rw [(hF c (by simp)).pout q hq, List.map_map] at this
        exact this
      · intro a ha b hb e
        obtain ⟨l, hl, rfl⟩ := List.mem_map.1 ha
        obtain ⟨q', hq', hb⟩ := List.mem_flatMap.1 hb
        obtain ⟨l', hl', rfl⟩ := List.mem_map.1 hb
        obtain ⟨i, hi, hqi⟩ := List.mem_iff_getElem.1 hq'
        have hmem := (List.forall₂_iff_get.1 h).2 i hi (by rw [← h.length_eq]; exact hi)
        simp only [List.get_eq_getElem, List.getElem_map, hqi] at hmem
        exact (List.pairwise_cons.1 hpw).1 _ (List.getElem_mem _) q hq l hl q' hmem l' hl' e

theorem product_step {s : Fresh D} {K : Node → Option (Kind D)} {O : Outs} {n : ℕ} {p : Option Node} {w : Option LogP}
    {Gs : List (Option LogP × Flat D)} (h : View s.g K O) (hlow : ∀ u : ℕ, K u ≠ none → u < s.next) (hn : K n = some .prod)
    (hk : Kids K O n Gs) (hne : ∀ c ∈ Gs, c.2.prods ≠ [])
    (hpw : Gs.Pairwise fun a b => ∀ q ∈ a.2.prods, ∀ l ∈ q.2.2, ∀ q' ∈ b.2.prods, ∀ l' ∈ q'.2.2, l.1 ≠ l'.1)
    (hin : ∀ u, To O u n → p = some u) (hp : ∀ q, p = some q → (n, w) ∈ O q) :
    ∃ s', shallowProduct s n p = .ok s' ∧
      s'.next = s.next + 1 + (combinations (Gs.map fun c => c.2.prods)).length ∧
      View s'.g (fun (u : ℕ) => if u = n ∨ u ∈ Gs.flatMap (fun c => c.2.ids) then none else if u = s.next then some .sum else
          if s.next + 1 ≤ u ∧ u < s.next + 1 + (combinations (Gs.map fun c => c.2.prods)).length then some .prod else K u)
        (fun (u : ℕ) => if u = n ∨ u ∈ Gs.flatMap (fun c => c.2.ids) then [] else
          if u = s.next then (List.range' (s.next + 1) (combinations (Gs.map fun c => c.2.prods)).length).map fun i => (i, some (.fin 1)) else
          if s.next + 1 ≤ u ∧ u < s.next + 1 + (combinations (Gs.map fun c => c.2.prods)).length then
            comboOut ((combinations (Gs.map fun c => c.2.prods)).getD (u - (s.next + 1)) []) else
          if p = some u then (O u).filter (fun a => decide (a.1 ≠ n)) ++ [(s.next, w)] else O u) := by
  have hN : K s.next = none := by
    by_contra hc
    exact lt_irrefl _ (hlow _ hc)
  have hON : O s.next = [] := by
    by_contra hc
    obtain ⟨a, ha⟩ := List.exists_mem_of_ne_nil _ hc
    exact h.src (u := s.next) (v := a.1) (List.mem_map.2 ⟨a, ha, rfl⟩) hN
  have hsuccn : s.g.succ n = Gs.map fun c => c.2.m := by
    rw [h.succ, hk.out, List.map_map]; rfl
  have hmI : ∀ c ∈ Gs, c.2.m ∈ Gs.flatMap fun c => c.2.ids := fun c hc => List.mem_flatMap.2 ⟨c, hc, by simp [Flat.ids]⟩
  have hpI : ∀ c ∈ Gs, ∀ x ∈ c.2.pids, x ∈ Gs.flatMap fun c => c.2.ids := fun c hc x hx =>
    List.mem_flatMap.2 ⟨c, hc, by simp [Flat.ids, hx]⟩
  have hloop : ¬ To O n n := by
    intro ht
    rw [To, hk.out, List.map_map] at ht
    obtain ⟨c, hc, e⟩ := List.mem_map.1 ht
    exact hk.notn (by rw [← e]; exact hmI c hc)
  have hpnot : ∀ q, p = some q → q ∉ Gs.flatMap fun c => c.2.ids := by
    intro q hq hc
    have hto : To O q n := List.mem_map.2 ⟨_, hp q hq, rfl⟩
    obtain ⟨c, hc, hqc⟩ := List.mem_flatMap.1 hc
    rcases List.mem_cons.1 hqc with e | e
    · rw [To, e, (hk.flat c hc).out, List.map_map] at hto
      exact hk.notn (hpI c hc n hto)
    · obtain ⟨x, hx, e⟩ := List.mem_map.1 e
      rw [To, ← e, (hk.flat c hc).pout x hx, List.map_map] at hto
      obtain ⟨l, hl, e⟩ := List.mem_map.1 hto
      have := (hk.flat c hc).leaf x hx l hl
      rw [show l.1 = n from e, hn] at this
      simp at this
  obtain ⟨g1, hg1, hv1⟩ := replaceStep h hn hN hin hp hloop
  set K1 : Node → Option (Kind D) := fun u => if u = n then none else if u = s.next then some .sum else K u with hK1
  set O1 : Outs := fun u => if u = n then [] else if p = some u then (O u).filter (fun a => decide (a.1 ≠ n)) ++ [(s.next, w)] else O u with hO1
  have hIn : ∀ u ∈ Gs.flatMap (fun c => c.2.ids), u ≠ n ∧ u ≠ s.next ∧ p ≠ some u := by
    intro u hu
    refine ⟨fun e => hk.notn (e ▸ hu), fun e => ?_, fun e => hpnot u e hu⟩
    obtain ⟨c, hc, huc⟩ := List.mem_flatMap.1 hu
    rcases List.mem_cons.1 huc with e' | e'
    · have := (hk.flat c hc).sum
      rw [← e', e, hN] at this
      simp at this
    · obtain ⟨x, hx, e'⟩ := List.mem_map.1 e'
      have := (hk.flat c hc).prod x hx
      rw [e', e, hN] at this
      simp at this
  have hI1 : ∀ u ∈ Gs.flatMap (fun c => c.2.ids), K1 u = K u ∧ O1 u = O u := by
    intro u hu
    obtain ⟨a, b, c⟩ := hIn u hu
    exact ⟨by rw [hK1]; simp only; rw [if_neg a, if_neg b], by rw [hO1]; simp only; rw [if_neg a, if_neg c]⟩
  have hL1 : ∀ u d, K u = some (.leaf d) → O u = [] → K1 u = K u ∧ O1 u = O u := by
    intro u d hu ho
    have a : u ≠ n := fun e => by rw [e, hn] at hu; simp at hu
    have b : u ≠ s.next := fun e => by rw [e, hN] at hu; simp at hu
    have c : p ≠ some u := fun e => by have := hp u e; rw [ho] at this; simp at this
    exact ⟨by rw [hK1]; simp only; rw [if_neg a, if_neg b], by rw [hO1]; simp only; rw [if_neg a, if_neg c]⟩
  have hflat1 : ∀ c ∈ Gs, RepFlat K1 O1 c.2 := fun c hc => (hk.flat c hc).congr
    (fun u hu => hI1 u (List.mem_flatMap.2 ⟨c, hc, hu⟩)) hL1
  have hsuccm : (Gs.map fun c => c.2.m).map g1.succ = Gs.map fun c => c.2.prods.map fun q => q.2.1 := by
    rw [List.map_map]
    refine List.map_congr_left fun c hc => ?_
    rw [Function.comp_apply, hv1.succ, (hflat1 c hc).out, List.map_map]
    rfl
  have hall : ((Gs.map fun c => c.2.m).any fun c => decide (c ∉ g1.ids)) = false := by
    rw [List.any_eq_false]
    intro m hm
    obtain ⟨c, hc, rfl⟩ := List.mem_map.1 hm
    simp only [decide_eq_true_eq, not_not]
    rw [hv1.mem_ids, (hflat1 c hc).sum]
    simp
  set cbs := combinations (Gs.map fun c => c.2.prods) with hcbs
  have hcomb : combinations ((Gs.map fun c => c.2.m).map g1.succ) = cbs.map fun cb => cb.map fun q => q.2.1 := by
    rw [hsuccm, hcbs, ← combinations_map, List.map_map]
    rfl
  have hK1N : K1 s.next = some .sum := by
    simp only [hK1]
    rw [if_neg (fun e => by rw [← e, hN] at hn; simp at hn)]
    simp
  obtain ⟨hnx, hv2⟩ := combLoop (sum := s.next) cbs (s := ⟨g1, s.next + 1⟩) hv1 (by
      intro u hu
      simp only [hK1] at hu
      split_ifs at hu with e1 e2
      · simp at hu
      · rw [e2]; exact Nat.lt_succ_self _
      · exact Nat.lt_succ_of_lt (hlow u hu)) hK1N (by
      intro cb hcb
      have hf := mem_combinations.1 hcb
      refine ⟨fun q hq => ?_, nodup_combo hv1.nodup hflat1 hpw hf⟩
      obtain ⟨i, hi, hqi⟩ := List.mem_iff_getElem.1 hq
      have hmem := (List.forall₂_iff_get.1 hf).2 i hi (by rw [← hf.length_eq]; exact hi)
      simp only [List.get_eq_getElem, List.getElem_map, hqi] at hmem
      exact ⟨(hflat1 _ (List.getElem_mem _)).prod q hmem, (hflat1 _ (List.getElem_mem _)).pout q hmem⟩)
  simp only at hnx hv2
  set s2 := (cbs.map fun cb => cb.map fun q => q.2.1).foldl (addCombination s.next) ⟨g1, s.next + 1⟩ with hs2
  set K2 : Node → Option (Kind D) := fun (u : ℕ) => if s.next + 1 ≤ u ∧ u < s.next + 1 + cbs.length then some .prod else K1 u with hK2
  set O2 : Outs := fun (u : ℕ) => if u = s.next then O1 s.next ++ (List.range' (s.next + 1) cbs.length).map fun i => (i, some (.fin 1))
        else if s.next + 1 ≤ u ∧ u < s.next + 1 + cbs.length then
          (cbs.getD (u - (s.next + 1)) []).flatMap fun q => q.2.2.map fun l => (l.1, none)
        else O1 u with hO2
  have hold : ∀ u : ℕ, K u ≠ none → u ≠ s.next ∧ ¬ (s.next + 1 ≤ u ∧ u < s.next + 1 + cbs.length) := by
    intro u hu
    have := hlow u hu
    omega
  have hOld2 : ∀ u : ℕ, K u ≠ none → K2 u = K1 u ∧ O2 u = O1 u := by
    intro u hu
    obtain ⟨a, b⟩ := hold u hu
    exact ⟨by simp only [hK2]; rw [if_neg b], by simp only [hO2]; rw [if_neg a, if_neg b]⟩
  have hIK : ∀ u ∈ Gs.flatMap (fun c => c.2.ids), K u ≠ none := by
    intro u hu
    obtain ⟨c, hc, huc⟩ := List.mem_flatMap.1 hu
    rcases List.mem_cons.1 huc with e' | e'
    · rw [e', (hk.flat c hc).sum]; simp
    · obtain ⟨x, hx, e'⟩ := List.mem_map.1 e'
      rw [← e', (hk.flat c hc).prod x hx]; simp
  have hflat2 : ∀ c ∈ Gs, RepFlat K2 O2 c.2 := fun c hc => (hk.flat c hc).congr
    (fun u hu => by
      have hu' : u ∈ Gs.flatMap fun c => c.2.ids := List.mem_flatMap.2 ⟨c, hc, hu⟩
      obtain ⟨a, b⟩ := hOld2 u (hIK u hu')
      rw [a, b]; exact hI1 u hu')
    (fun u d hu ho => by
      obtain ⟨a, b⟩ := hOld2 u (by rw [hu]; simp)
      rw [a, b]; exact hL1 u d hu ho)
  -- edges after the loop
  have hto2 : ∀ u v, To O2 u v → v ∈ Gs.flatMap (fun c => c.2.ids) → To O u v ∧ u ≠ n := by
    intro u v ht hv
    have hvK := hIK v hv
    have hvlow := hlow v hvK
    simp only [To, hO2] at ht
    split_ifs at ht with e1 e2
    · exfalso
      rw [List.map_append, List.mem_append] at ht
      rcases ht with ht | ht
      · simp only [hO1] at ht
        split_ifs at ht with e3 e4
        · simp at ht
        · have := hp s.next e4
          rw [hON] at this; simp at this
        · rw [hON] at ht; simp at ht
      · rw [List.map_map] at ht
        obtain ⟨i, hi, e⟩ := List.mem_map.1 ht
        simp only [Function.comp_apply] at e
        rw [List.mem_range'_1] at hi
        have hiv : i = v := e
        omega
    · exfalso
      rw [List.map_flatMap] at ht
      obtain ⟨q, hq, hl⟩ := List.mem_flatMap.1 ht
      rw [List.map_map] at hl
      obtain ⟨l, hl, e⟩ := List.mem_map.1 hl
      simp only [Function.comp_apply] at e
      have hlt : u - (s.next + 1) < cbs.length := by
        exact Nat.sub_lt_left_of_lt_add e2.1 e2.2
      rw [List.getD_eq_getElem _ _ hlt] at hq
      have hf := mem_combinations.1 (List.getElem_mem hlt)
      obtain ⟨i, hi, hqi⟩ := List.mem_iff_getElem.1 hq
      have hmem := (List.forall₂_iff_get.1 hf).2 i hi (by rw [← hf.length_eq]; exact hi)
      simp only [List.get_eq_getElem, List.getElem_map, hqi] at hmem
      have hleaf := (hk.flat _ (List.getElem_mem _)).leaf q hmem l hl
      rw [e] at hleaf
      obtain ⟨c, hc, hvc⟩ := List.mem_flatMap.1 hv
      rcases List.mem_cons.1 hvc with e' | e'
      · rw [e', (hk.flat c hc).sum] at hleaf; simp at hleaf
      · obtain ⟨x, hx, e'⟩ := List.mem_map.1 e'
        rw [← e', (hk.flat c hc).prod x hx] at hleaf; simp at hleaf
    · simp only [hO1] at ht
      split_ifs at ht with e3 e4
      · simp at ht
      · refine ⟨?_, e3⟩
        rw [List.map_append, List.mem_append] at ht
        rcases ht with ht | ht
        · obtain ⟨a, ha, e⟩ := List.mem_map.1 ht
          exact List.mem_map.2 ⟨a, (List.mem_filter.1 ha).1, e⟩
        · simp only [List.map_cons, List.map_nil, List.mem_singleton] at ht
          have hvs : v = s.next := ht
          exact absurd hvlow (by rw [hvs]; exact lt_irrefl _)
      · exact ⟨ht, e3⟩
  obtain ⟨g3, hg3, hv3⟩ := removeLoop Gs hv2 hflat2 hk.nodup
    (fun c hc u ht => by
      obtain ⟨a, b⟩ := hto2 u _ ht (hmI c hc)
      exact b (hk.inM c hc u a))
    (fun c hc q hq u ht => hk.inP c hc q hq u (hto2 u _ ht (hpI c hc q hq)).1)
    (by
      intro c hc q hq l hl
      obtain ⟨cb, hcb, hqcb⟩ := exists_combination_with (ls := Gs.map fun c => c.2.prods) (by
        intro x hx
        obtain ⟨c, hc, rfl⟩ := List.mem_map.1 hx
        exact hne c hc) c.2.prods (List.mem_map.2 ⟨c, hc, rfl⟩) q hq
      obtain ⟨i, hi, hcbi⟩ := List.mem_iff_getElem.1 hcb
      refine ⟨s.next + 1 + i, fun hcon => ?_, ?_⟩
      · have := hlow _ (hIK _ hcon)
        omega
      · have hi : i < cbs.length := hi
        simp only [To, hO2]
        rw [if_neg (by omega), if_pos (by omega), Nat.add_sub_cancel_left, List.getD_eq_getElem _ _ hi]
        rw [List.map_flatMap]
        refine List.mem_flatMap.2 ⟨q, by rw [hcbi]; exact hqcb, ?_⟩
        rw [List.map_map]
        exact List.mem_map.2 ⟨l, hl, rfl⟩)
  have hnK : K n ≠ none := by rw [hn]; simp
  refine ⟨⟨g3, s2.next⟩, ?_, hnx, hv3.congr (fun u => ?_) fun u => ?_⟩
  · unfold shallowProduct
    simp only [hsuccn]
    simp only [hg1, bind, Except.bind, hall, Bool.false_eq_true, if_false, pure, Except.pure, hcomb, ← hs2, hg3]
  · by_cases e1 : u ∈ Gs.flatMap fun c => c.2.ids
    · rw [if_pos e1, if_pos (.inr e1)]
    · rw [if_neg e1]
      by_cases e2 : u = n
      · subst e2
        rw [if_pos (.inl rfl), (hOld2 u hnK).1]
        simp [hK1]
      · rw [if_neg (by tauto)]
        simp only [hK2]
        by_cases e3 : u = s.next
        · subst e3
          rw [if_neg (by omega), if_pos rfl, hK1N]
        · rw [if_neg e3]
          by_cases e4 : s.next + 1 ≤ u ∧ u < s.next + 1 + cbs.length
          · rw [if_pos e4, if_pos e4]
          · rw [if_neg e4, if_neg e4]
            simp only [hK1]
            rw [if_neg e2, if_neg e3]
  · by_cases e1 : u ∈ Gs.flatMap fun c => c.2.ids
    · rw [if_pos e1, if_pos (.inr e1)]
    · rw [if_neg e1]
      by_cases e2 : u = n
      · subst e2
        rw [if_pos (.inl rfl), (hOld2 u hnK).2]
        simp [hO1]
      · rw [if_neg (by tauto)]
        simp only [hO2]
        by_cases e3 : u = s.next
        · subst e3
          rw [if_pos rfl, if_pos rfl]
          have : O1 s.next = [] := by
            simp only [hO1]
            rw [if_neg e2, if_neg, hON]
            intro e
            have := hp s.next e
            rw [hON] at this; simp at this
          rw [this, List.nil_append]
        · rw [if_neg e3, if_neg e3]
          by_cases e4 : s.next + 1 ≤ u ∧ u < s.next + 1 + cbs.length
          · rw [if_pos e4, if_pos e4]; rfl
          · rw [if_neg e4, if_neg e4]
            simp only [hO1]
            rw [if_neg e2]

end PM.Graph
