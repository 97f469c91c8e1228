import Verif.Circuit.ShallowSum

/-! Helper lemmas: the product case of `shallowing`. -/

namespace PM.Graph

open Spec

variable {D : Type}

/-- The edges from a new product unit to the leaves of one of the old ones. -/
theorem View.addUnder {K : Node → Option (Kind D)} {p under : Node} (hne : under ≠ p) (hp : K p ≠ none) :
    ∀ {ls : List Node} {g : Graph D} {O : Outs}, View g K O → (∀ l ∈ ls, (l, none) ∈ O under) → ls.Nodup → (∀ l ∈ ls, ¬ To O p l) →
    View (ls.foldl (fun g leaf => g.addEdge p leaf ((g.edgeData under leaf).join)) g) K
      (Function.update O p (O p ++ ls.map fun l => (l, none)))
  | [], g, O, h, _, _, _ => by simpa using h
  | l :: ls, g, O, h, hl, hn, ht => by
    have hd : (g.edgeData under l).join = none := by rw [h.edgeData (hl l (by simp))]; rfl
    have h1 := h.addEdge none hp (h.dst (u := under) (List.mem_map.2 ⟨_, hl l (by simp), rfl⟩)) (ht l (by simp))
    have h2 := View.addUnder hne hp h1 (ls := ls) (fun l' hl' => by
        rw [Function.update_of_ne hne]; exact hl l' (by simp [hl'])) (List.nodup_cons.1 hn).2 (by
      intro d' hd' hc
      simp only [To, Function.update_self, List.map_append, List.mem_append, List.map_cons, List.map_nil, List.mem_singleton] at hc
      rcases hc with hc | rfl
      · exact ht d' (by simp [hd']) hc
      · exact (List.nodup_cons.1 hn).1 hd')
    simp only [List.foldl_cons, hd]
    simpa using h2

/-- All edges of a new product unit. -/
theorem View.addUnders {K : Node → Option (Kind D)} {p : Node} (hp : K p ≠ none) :
    ∀ {cb : List (LogP × Node × List (Node × D))} {g : Graph D} {O : Outs}, View g K O →
    (∀ q ∈ cb, q.2.1 ≠ p ∧ O q.2.1 = q.2.2.map fun l => (l.1, none)) → ((cb.flatMap fun q => q.2.2.map Prod.fst)).Nodup →
    (∀ l ∈ cb.flatMap fun q => q.2.2.map Prod.fst, ¬ To O p l) →
    View ((cb.map fun q => q.2.1).foldl (fun g under => (g.succ under).foldl
      (fun g leaf => g.addEdge p leaf ((g.edgeData under leaf).join)) g) g) K
      (Function.update O p (O p ++ cb.flatMap fun q => q.2.2.map fun l => (l.1, none)))
  | [], g, O, h, _, _, _ => by simpa using h
  | q :: cb, g, O, h, hq, hn, ht => by
    have hqq := hq q (by simp)
    have hs : g.succ q.2.1 = q.2.2.map Prod.fst := by
      rw [h.succ, hqq.2, List.map_map]; rfl
    simp only [List.flatMap_cons] at hn ht
    have h1 := h.addUnder hqq.1 hp (ls := q.2.2.map Prod.fst) (fun l hl => by
        rw [hqq.2]
        obtain ⟨a, ha, rfl⟩ := List.mem_map.1 hl
        exact List.mem_map.2 ⟨a, ha, rfl⟩) (List.nodup_append.1 hn).1 fun l hl => ht l (by simp only [List.mem_append]; exact .inl hl)
    have h2 := View.addUnders hp h1 (cb := cb) (fun q' hq' => by
        have := hq q' (by simp [hq'])
        exact ⟨this.1, by rw [Function.update_of_ne this.1, this.2]⟩) (List.nodup_append.1 hn).2.1 (by
      intro l hl hc
      rw [To, Function.update_self, List.map_append, List.mem_append] at hc
      rcases hc with hc | hc
      · exact ht l (by simp only [List.mem_append]; exact .inr hl) hc
      · rw [List.map_map] at hc
        have hc : l ∈ q.2.2.map Prod.fst := by simpa using hc
        exact (List.nodup_append.1 hn).2.2 l hc l hl rfl)
    simp only [List.map_cons, List.foldl_cons, hs]
    refine h2.congr (fun _ => rfl) fun u => ?_
    by_cases hu : u = p
    · subst hu
      simp
    · simp [hu]

theorem prod_weightKey {α : Type} (l : List α) : (l.map fun _ => weightKey).prod = 1 := by
  induction l with
  | nil => rfl
  | cons a l ih => simp [weightKey]

/-- The product units of all combinations. -/
theorem combLoop {sum : ℕ} : ∀ (cbs : List (List (LogP × Node × List (Node × D)))) {s : Fresh D} {K : Node → Option (Kind D)}
    {O : Outs}, View s.g K O → (∀ u : ℕ, K u ≠ none → u < s.next) → K sum = some .sum →
    (∀ cb ∈ cbs, (∀ q ∈ cb, K q.2.1 = some .prod ∧ O q.2.1 = q.2.2.map fun l => (l.1, none)) ∧
      (cb.flatMap fun q => q.2.2.map Prod.fst).Nodup) →
    ((cbs.map fun cb => cb.map fun q => q.2.1).foldl (addCombination sum) s).next = s.next + cbs.length ∧
    View ((cbs.map fun cb => cb.map fun q => q.2.1).foldl (addCombination sum) s).g
      (fun (u : ℕ) => if s.next ≤ u ∧ u < s.next + cbs.length then some .prod else K u)
      (fun (u : ℕ) => if u = sum then O sum ++ (List.range' s.next cbs.length).map fun i => (i, some (.fin 1))
        else if s.next ≤ u ∧ u < s.next + cbs.length then (cbs.getD (u - s.next) []).flatMap fun q => q.2.2.map fun l => (l.1, none)
        else O u)
  | [], s, K, O, h, hlow, hsum, _ => by
    refine ⟨rfl, h.congr (fun u => ?_) fun u => ?_⟩
    · rw [if_neg (by simp)]
    · by_cases hu : u = sum
      · subst hu; simp
      · rw [if_neg hu, if_neg (by simp)]
  | cb :: cbs, s, K, O, h, hlow, hsum, hcb => by
    have hKn : K s.next = none := by
      by_contra hc
      exact lt_irrefl _ (hlow _ hc)
    have hsn : sum < s.next := hlow sum (by rw [hsum]; simp)
    have hOn : O s.next = [] := by
      by_contra hc
      obtain ⟨a, ha⟩ := List.exists_mem_of_ne_nil _ hc
      exact h.src (u := s.next) (v := a.1) (List.mem_map.2 ⟨a, ha, rfl⟩) hKn
    obtain ⟨hcb1, hcb2⟩ := hcb cb (by simp)
    have h1 := h.addNode hKn .prod
    set K1 := Function.update K s.next (some (Kind.prod : Kind D)) with hK1
    have hK1u : ∀ u, u ≠ s.next → K1 u = K u := fun u hu => by rw [hK1, Function.update_of_ne hu]
    have h2 := h1.addUnders (p := s.next) (cb := cb) (by rw [hK1, Function.update_self]; simp)
      (fun q hq => ⟨fun e => by rw [← e, (hcb1 q hq).1] at hKn; simp at hKn, (hcb1 q hq).2⟩) hcb2
      (fun l _ hc => by rw [To, hOn] at hc; simp at hc)
    have hne : sum ≠ s.next := hsn.ne
    have h3 := h2.addEdge (u := sum) (v := s.next) (some (.fin 1)) (by rw [hK1u _ hne, hsum]; simp)
      (by rw [hK1, Function.update_self]; simp) (by
        rw [To, Function.update_of_ne hne]
        intro hc
        exact h.dst (u := sum) hc hKn)
    have hs1 : addCombination sum s (cb.map fun q => q.2.1) =
        ⟨(((cb.map fun q => q.2.1).foldl (fun g under => (g.succ under).foldl
      (fun g leaf => g.addEdge s.next leaf ((g.edgeData under leaf).join)) g) (s.g.addNode s.next .prod)).addEdge sum s.next (some (.fin 1))),
        s.next + 1⟩ := by
      simp only [addCombination, prod_weightKey]
    rw [Function.update_of_ne hne, hOn, List.nil_append] at h3
    set s1 := addCombination sum s (cb.map fun q => q.2.1) with hs1'
    set O1 : Outs := Function.update (Function.update O s.next (cb.flatMap fun q => q.2.2.map fun l => (l.1, none))) sum
      (O sum ++ [(s.next, some (.fin 1))]) with hO1
    have h4 : View s1.g K1 O1 := by rw [hs1]; exact h3
    have hn1 : s1.next = s.next + 1 := by rw [hs1]
    have hO1u : ∀ u, u ≠ s.next → u ≠ sum → O1 u = O u := fun u h1 h2 => by
      rw [hO1, Function.update_of_ne h2, Function.update_of_ne h1]
    obtain ⟨hnx, hv⟩ := combLoop cbs h4 (by
        intro u hu
        rw [hn1]
        by_cases e : u = s.next
        · omega
        · rw [hK1u u e] at hu; have := hlow u hu; omega) (by rw [hK1u _ hne, hsum]) (by
        intro cb' hcb'
        obtain ⟨ha, hb⟩ := hcb cb' (by simp [hcb'])
        refine ⟨fun q hq => ?_, hb⟩
        have h5 : q.2.1 ≠ s.next := fun e => by have := (ha q hq).1; rw [e, hKn] at this; simp at this
        have h6 : q.2.1 ≠ sum := fun e => by have := (ha q hq).1; rw [e, hsum] at this; simp at this
        exact ⟨by rw [hK1u _ h5, (ha q hq).1], by rw [hO1u _ h5 h6, (ha q hq).2]⟩)
    rw [List.map_cons, List.foldl_cons, ← hs1']
    refine ⟨by rw [hnx, hn1, List.length_cons]; omega, hv.congr (fun u => ?_) fun u => ?_⟩
    · rw [hn1, List.length_cons]
      by_cases e : u = s.next
      · subst e
        rw [if_neg (by omega), if_pos (by omega), hK1, Function.update_self]
      · rw [hK1u u e]
        by_cases h7 : s.next + 1 ≤ u ∧ u < s.next + 1 + cbs.length
        · rw [if_pos h7, if_pos (by omega)]
        · rw [if_neg h7, if_neg (by omega)]
    · rw [hn1, List.length_cons]
      by_cases e : u = sum
      · subst e
        rw [if_pos rfl, if_pos rfl, hO1, Function.update_self, List.range'_succ, List.map_cons, List.append_assoc]
        rfl
      · rw [if_neg e, if_neg e]
        by_cases e' : u = s.next
        · subst e'
          rw [if_neg (by omega), if_pos (by omega), hO1, Function.update_of_ne e, Function.update_self]
          simp
        · rw [hO1u u e' e]
          by_cases h7 : s.next + 1 ≤ u ∧ u < s.next + 1 + cbs.length
          · rw [if_pos h7, if_pos (by omega)]
            have : u - s.next = (u - (s.next + 1)) + 1 := by omega
            rw [this, List.getD_cons_succ]
          · rw [if_neg h7, if_neg (by omega)]

/-- The removal of a shallow sum unit nobody refers to; its leaves are still needed. -/
theorem View.removeFlat {g : Graph D} {K : Node → Option (Kind D)} {O : Outs} {F : Flat D} (h : View g K O) (hF : RepFlat K O F)
    (hn : F.ids.Nodup) (hM : ∀ u, ¬ To O u F.m) (hP : ∀ q ∈ F.pids, ∀ u, To O u q → u = F.m)
    (hl : ∀ q ∈ F.prods, ∀ l ∈ q.2.2, ∃ u, u ∉ F.ids ∧ To O u l.1) :
    ∃ g', removeIfOrphan g F.m = .ok g' ∧ View g' (fun u => if u ∈ F.ids then none else K u) (fun u => if u ∈ F.ids then [] else O u) := by
  have hKm : K F.m ≠ none := by rw [hF.sum]; simp
  have hsucc : g.succ F.m = F.pids := by
    rw [h.succ, hF.out, List.map_map]; rfl
  have h1 := h.removeNode hM
  have key : ∀ (fuel : ℕ) (ps done : List Node) (g : Graph D), (F.m :: done ++ ps).Nodup → (∀ u, u ∈ F.m :: done ++ ps ↔ u ∈ F.ids) →
      View g (fun u => if u ∈ F.m :: done then none else K u) (fun u => if u ∈ F.m :: done then [] else O u) →
      ∃ g', ps.foldlM (fun g s =>
        if s ∈ g.ids then (if g.pred s = [] then removeStructure (fuel + 1) g s else .ok g)
        else .error .networkXError) g = .ok g' ∧
        View g' (fun u => if u ∈ F.ids then none else K u) (fun u => if u ∈ F.ids then [] else O u) := by
    intro fuel ps
    induction ps with
    | nil =>
      intro done g _ hid hv
      exact ⟨g, rfl, hv.congr (fun u => by simp only [← hid u, List.append_nil]) fun u => by simp only [← hid u, List.append_nil]⟩
    | cons p ps ih =>
      intro done g hnd hid hv
      have hpF : p ∈ F.ids := (hid p).1 (by simp)
      have hpd : p ∉ F.m :: done := by
        rw [List.nodup_append] at hnd
        exact fun hc => hnd.2.2 p hc p (by simp) rfl
      have hpm : p ≠ F.m := fun e => hpd (by simp [e])
      have hpp : p ∈ F.pids := by
        rcases List.mem_cons.1 hpF with e | e
        · exact absurd e hpm
        · exact e
      obtain ⟨q, hq, hqp⟩ := List.mem_map.1 hpp
      have hKp : K p = some .prod := by rw [← hqp]; exact hF.prod q hq
      have horph : ∀ u, ¬ To (fun u => if u ∈ F.m :: done then [] else O u) u p := by
        intro u hu
        rw [To] at hu
        split_ifs at hu with hc
        · simp at hu
        · exact hc (by rw [hP p hpp u hu]; simp)
      have hkind : (if p ∈ F.m :: done then none else K p) ≠ none := by
        rw [if_neg hpd, hKp]; simp
      have hrs := hv.removeStructure_root (n := p) hkind horph (by
        intro s hs
        rw [if_neg hpd, ← hqp, hF.pout q hq, List.map_map] at hs
        obtain ⟨l, hl', hls⟩ := List.mem_map.1 hs
        simp only [Function.comp_apply] at hls
        subst hls
        obtain ⟨u, hu, hul⟩ := hl q hq l hl'
        have hne : l.1 ≠ p := fun e => by
          have := hF.leaf q hq l hl'
          rw [e, hKp] at this
          simp at this
        refine ⟨hne, u, fun e => hu (e ▸ hpF), ?_⟩
        rw [To, if_neg]
        · exact hul
        · exact fun hc => hu ((hid u).1 (by rw [List.mem_append]; exact .inl hc))) fuel
      have hv2 := hv.removeNode horph
      obtain ⟨g', hg', hvg'⟩ := ih (done ++ [p]) (g.removeNode p) (by simpa using hnd) (by simpa using hid) (hv2.congr
        (fun u => by
          by_cases e : u = p
          · subst e; simp
          · rw [Function.update_of_ne e]; simp [e])
        (fun u => by
          by_cases e : u = p
          · subst e; simp
          · rw [Function.update_of_ne e]; simp [e]))
      refine ⟨g', ?_, hvg'⟩
      rw [List.foldlM_cons, if_pos (hv.mem_ids.2 hkind), if_pos (hv.pred_eq_nil.2 horph), hrs]
      exact hg'
  have hv1 : View (g.removeNode F.m) (fun u => if u ∈ F.m :: [] then none else K u) (fun u => if u ∈ F.m :: [] then [] else O u) := h1.congr
      (fun u => by
        by_cases e : u = F.m
        · subst e; simp
        · rw [Function.update_of_ne e]; simp [e])
      (fun u => by
        by_cases e : u = F.m
        · subst e; simp
        · rw [Function.update_of_ne e]; simp [e])
  rw [removeIfOrphan, if_pos (h.mem_ids.2 hKm), if_pos (h.pred_eq_nil.2 hM)]
  obtain ⟨f, hf⟩ := h.length_pos hKm
  by_cases hne : F.pids = []
  · rw [hf, removeStructure, if_pos (h.mem_ids.2 hKm), hsucc, hne]
    refine ⟨_, rfl, hv1.congr (fun u => ?_) fun u => ?_⟩ <;> simp [Flat.ids, hne]
  · obtain ⟨p, hp⟩ := List.exists_mem_of_ne_nil _ hne
    obtain ⟨q, hq, hqp⟩ := List.mem_map.1 hp
    have hKp : K p = some .prod := by rw [← hqp]; exact hF.prod q hq
    have hpm : p ≠ F.m := fun e => by rw [e, hF.sum] at hKp; simp at hKp
    obtain ⟨f', hf'⟩ := hv1.length_pos (n := p) (by simp [hpm, hKp])
    have hlen : (g.removeNode F.m).nodes.length < g.nodes.length := by
      have hmem := h.mem_ids.2 hKm
      obtain ⟨x, hx, hxm⟩ := List.mem_map.1 hmem
      unfold Graph.removeNode
      simp only
      rw [List.length_filter_lt_length_iff_exists]
      exact ⟨x, hx, by simp [hxm]⟩
    obtain ⟨f'', rfl⟩ : ∃ f'', f = f'' + 1 := ⟨f - 1, by omega⟩
    rw [hf, removeStructure, if_pos (h.mem_ids.2 hKm), hsucc]
    exact key f'' F.pids [] _ (by simpa [Flat.ids] using hn) (by simp [Flat.ids]) hv1

end PM.Graph
