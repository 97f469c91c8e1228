import Verif.Circuit.ShallowTree

/-! Helper lemmas: the sum case of `shallowing`. -/

namespace PM.Graph

open Spec

variable {D : Type}

theorem View.congr {g : Graph D} {K K' : Node → Option (Kind D)} {O O' : Outs} (h : View g K O) (hK : ∀ u : ℕ, K u = K' u)
    (hO : ∀ u : ℕ, O u = O' u) : View g K' O' := by
  rwa [← show K = K' from funext hK, ← show O = O' from funext hO]

theorem RepFlat.congr {K K' : Node → Option (Kind D)} {O O' : Outs} {F : Flat D} (h : RepFlat K O F)
    (hm : ∀ u ∈ F.ids, K' u = K u ∧ O' u = O u)
    (hl : ∀ u d, K u = some (.leaf d) → O u = [] → K' u = K u ∧ O' u = O u) : RepFlat K' O' F := by
  have hp : ∀ q ∈ F.prods, q.2.1 ∈ F.ids := fun q hq => by
    simp only [Flat.ids, Flat.pids, List.mem_cons, List.mem_map]
    exact .inr ⟨q, hq, rfl⟩
  have h0 := hm F.m (by simp [Flat.ids])
  refine ⟨by rw [h0.1, h.sum], by rw [h0.2, h.out], fun q hq => ?_, fun q hq => ?_, fun q hq l hl' => ?_, fun q hq l hl' => ?_⟩
  · rw [(hm _ (hp q hq)).1, h.prod q hq]
  · rw [(hm _ (hp q hq)).2, h.pout q hq]
  · rw [(hl _ _ (h.leaf q hq l hl') (h.lout q hq l hl')).1, h.leaf q hq l hl']
  · rw [(hl _ _ (h.leaf q hq l hl') (h.lout q hq l hl')).2, h.lout q hq l hl']

theorem liftLoop {n : Node} : ∀ (Gs : List (Option LogP × Flat D)) {g : Graph D} {K : Node → Option (Kind D)} {O : Outs}
    {A : List (Node × Option LogP)}, View g K O → K n = some .sum → O n = Gs.map (fun c => (c.2.m, c.1)) ++ A →
    (∀ c ∈ Gs, RepFlat K O c.2) → (Gs.flatMap fun c => c.2.ids).Nodup → (n ∉ Gs.flatMap fun c => c.2.ids) →
    (∀ c ∈ Gs, ∀ u, To O u c.2.m → u = n) → (∀ c ∈ Gs, ∀ q ∈ c.2.pids, ∀ u, To O u q → u = c.2.m) →
    (∀ a ∈ A, a.1 ∉ Gs.flatMap fun c => c.2.ids) →
    ∃ g', (Gs.map fun c => c.2.m).foldlM (liftChild n) g = .ok g' ∧
      View g' (fun u => if u ∈ Gs.map (fun c => c.2.m) then none else K u)
        (fun u => if u = n then A ++ Gs.flatMap fun c => c.2.prods.map fun q => (q.2.1, some (c.1.getD 0 + .fin weightKey))
          else if u ∈ Gs.map (fun c => c.2.m) then [] else O u)
  | [], g, K, O, A, h, _, hO, _, _, _, _, _, _ => by
    refine ⟨g, rfl, h.congr (fun u => by simp) fun u => ?_⟩
    by_cases hu : u = n
    · subst hu; simp [hO]
    · simp [hu]
  | c :: Gs, g, K, O, A, h, hn, hO, hF, hnd, hnn, hM, hP, hA => by
    have hc := hF c (by simp)
    simp only [List.flatMap_cons, Flat.ids, List.cons_append, List.nodup_cons, List.mem_append, not_or] at hnd
    obtain ⟨⟨hcp, hcG⟩, hnd⟩ := hnd
    have hndP : c.2.pids.Nodup := (List.nodup_append.1 hnd).1
    have hndG : (Gs.flatMap fun c => c.2.ids).Nodup := by
      have := (List.nodup_append.1 hnd).2.1
      simpa [Flat.ids] using this
    have hdis : ∀ p ∈ c.2.pids, p ∉ Gs.flatMap fun c => c.2.ids := by
      intro p hp hp'
      have := (List.nodup_append.1 hnd).2.2 p hp p
      exact this (by simpa [Flat.ids] using hp') rfl
    have hcG : c.2.m ∉ Gs.flatMap fun c => c.2.ids := by simpa [Flat.ids] using hcG
    have hnm : n ≠ c.2.m := fun e => hnn (by simp [Flat.ids, e])
    have hnp : ∀ p ∈ c.2.pids, n ≠ p := fun p hp e => hnn (by simp [Flat.ids, e, hp])
    have hnG : n ∉ Gs.flatMap fun c => c.2.ids := fun e => hnn (by
      rw [List.flatMap_cons, List.mem_append]; exact .inr e)
    have hmG : ∀ c' ∈ Gs, c'.2.m ∈ Gs.flatMap fun c => c.2.ids := fun c' hc' =>
      List.mem_flatMap.2 ⟨c', hc', by simp [Flat.ids]⟩
    have hpG : ∀ c' ∈ Gs, ∀ p ∈ c'.2.pids, p ∈ Gs.flatMap fun c => c.2.ids := fun c' hc' p hp =>
      List.mem_flatMap.2 ⟨c', hc', by simp [Flat.ids, hp]⟩
    set w : Option LogP := some (c.1.getD 0 + .fin weightKey) with hw
    have hsucc : (O c.2.m).map Prod.fst = c.2.pids := by
      rw [hc.out, List.map_map]; rfl
    have hKp : ∀ p ∈ c.2.pids, K p ≠ none := by
      intro p hp
      obtain ⟨q, hq, rfl⟩ := List.mem_map.1 hp
      rw [hc.prod q hq]; simp
    have h1 := h.addEdges w (u := n) (ds := c.2.pids) (by rw [hn]; simp) hKp hndP
      (fun p hp ht => hcp (by rw [← (hP c (by simp) p hp n ht)] at hnm; exact absurd rfl hnm))
    have h2 := h1.removeEdge n c.2.m
    simp only [Function.update_self, Function.update_idem] at h2
    have hfil : (O n ++ c.2.pids.map fun d => (d, w)).filter (fun p => decide (p.1 ≠ c.2.m)) =
        Gs.map (fun c => (c.2.m, c.1)) ++ (A ++ c.2.pids.map fun d => (d, w)) := by
      rw [hO, List.map_cons, List.cons_append, List.cons_append, List.filter_cons_of_neg (by simp), List.append_assoc,
        List.filter_eq_self]
      intro a ha
      simp only [ne_eq, decide_eq_true_eq]
      simp only [List.mem_append, List.mem_map] at ha
      rcases ha with ⟨c', hc', rfl⟩ | ha | ⟨p, hp, rfl⟩
      · exact fun e => hcG (e ▸ hmG c' hc')
      · exact fun e => hA a ha (by rw [e]; simp [Flat.ids])
      · exact fun e => hcp (e ▸ hp)
    rw [hfil] at h2
    set O2 : Outs := Function.update O n (Gs.map (fun c => (c.2.m, c.1)) ++ (A ++ c.2.pids.map fun d => (d, w))) with hO2
    have hO2n : O2 n = Gs.map (fun c => (c.2.m, c.1)) ++ (A ++ c.2.pids.map fun d => (d, w)) := by rw [hO2, Function.update_self]
    have hO2u : ∀ u, u ≠ n → O2 u = O u := fun u hu => by rw [hO2, Function.update_of_ne hu]
    have horph : ∀ u, ¬ To O2 u c.2.m := by
      intro u ht
      by_cases hu : u = n
      · subst hu
        rw [To, hO2n, ← hfil] at ht
        simp at ht
      · rw [To, hO2u u hu] at ht
        exact hu (hM c (by simp) u ht)
    have hKm : K c.2.m ≠ none := by rw [hc.sum]; simp
    have h3 := h2.removeNode horph
    set g1 := (c.2.pids.foldl (fun g d => g.addEdge n d w) g).removeEdge n c.2.m with hg1
    have hstep : liftChild n g c.2.m = .ok (g1.removeNode c.2.m) := by
      have hdata : g.edgeData n c.2.m = some c.1 := h.edgeData (by rw [hO]; simp)
      rw [liftChild, if_pos (h.mem_ids.2 hKm)]
      simp only [hdata, Option.join_some, h.succ, hsucc, ← hw, ← hg1]
      rw [removeIfOrphan, if_pos (h2.mem_ids.2 hKm), if_pos (h2.pred_eq_nil.2 horph)]
      obtain ⟨f, hf⟩ := h2.length_pos hKm
      rw [hf]
      refine h2.removeStructure_root hKm horph (fun s hs => ?_) f
      rw [hO2u _ (Ne.symm hnm), hsucc] at hs
      refine ⟨fun e => hcp (e ▸ hs), n, hnm, ?_⟩
      rw [To, hO2n]
      simp [hs]
    have hK3 : ∀ u, u ≠ c.2.m → Function.update K c.2.m none u = K u := fun u hu => Function.update_of_ne hu _ _
    have hO3 : ∀ u, u ≠ c.2.m → Function.update O2 c.2.m [] u = O2 u := fun u hu => Function.update_of_ne hu _ _
    obtain ⟨g', hg', hv'⟩ := liftLoop Gs (A := A ++ c.2.pids.map fun d => (d, w)) h3 (by rw [hK3 n hnm, hn])
      (by rw [hO3 n hnm, hO2n])
      (fun c' hc' => (hF c' (by simp [hc'])).congr
        (fun u hu => by
          have hu' : u ∈ Gs.flatMap fun c => c.2.ids := List.mem_flatMap.2 ⟨c', hc', hu⟩
          have h4 : u ≠ c.2.m := fun e => hcG (e ▸ hu')
          have h5 : u ≠ n := fun e => hnG (e ▸ hu')
          exact ⟨hK3 u h4, by rw [hO3 u h4, hO2u u h5]⟩)
        (fun u d hu hu' => by
          have h4 : u ≠ c.2.m := fun e => by rw [e, hc.sum] at hu; simp at hu
          have h5 : u ≠ n := fun e => by rw [e, hn] at hu; simp at hu
          exact ⟨hK3 u h4, by rw [hO3 u h4, hO2u u h5]⟩))
      hndG hnG
      (fun c' hc' u ht => by
        by_cases hu : u = c.2.m
        · rw [To, hu, Function.update_self] at ht; simp at ht
        · by_cases hu' : u = n
          · exact hu'
          · rw [To, hO3 u hu, hO2u u hu'] at ht
            exact hM c' (by simp [hc']) u ht)
      (fun c' hc' q hq u ht => by
        by_cases hu : u = c.2.m
        · rw [To, hu, Function.update_self] at ht; simp at ht
        · by_cases hu' : u = n
          · subst hu'
            rw [To, hO3 u hu, hO2n] at ht
            simp only [List.map_append, List.map_map, List.mem_append, List.mem_map, Function.comp_apply] at ht
            rcases ht with ⟨c'', hc'', e⟩ | ⟨a, ha, e⟩ | ⟨p, hp, e⟩
            · exfalso
              have hx := hP c' (by simp [hc']) q hq u (by
                rw [To, hO, ← e]
                simp only [List.map_append, List.map_map, List.mem_append, List.mem_map]
                exact .inl ⟨c'', by simp [hc''], rfl⟩)
              exact hnG (hx ▸ hmG c' hc')
            · exfalso
              refine hA a ha ?_
              rw [e, List.flatMap_cons, List.mem_append]
              exact .inr (hpG c' hc' q hq)
            · exact absurd (hpG c' hc' q hq) (by rw [← e]; exact hdis p hp)
          · rw [To, hO3 u hu, hO2u u hu'] at ht
            exact hP c' (by simp [hc']) q hq u ht)
      (fun a ha hc' => by
        rcases List.mem_append.1 ha with ha | ha
        · exact hA a ha (by rw [List.flatMap_cons, List.mem_append]; exact .inr hc')
        · obtain ⟨p, hp, rfl⟩ := List.mem_map.1 ha
          exact hdis p hp hc')
    refine ⟨g', ?_, hv'.congr (fun u => ?_) fun u => ?_⟩
    · rw [List.map_cons, List.foldlM_cons, hstep]
      exact hg'
    · by_cases hu : u = c.2.m
      · subst hu; simp
      · simp only [hK3 u hu, List.map_cons, List.mem_cons, hu, false_or]
    · by_cases hu : u = n
      · subst hu
        simp only [if_true, List.flatMap_cons, ← List.append_assoc]
        congr 2
        rw [Flat.pids, List.map_map]
        rfl
      · by_cases hu' : u = c.2.m
        · subst hu'; simp [hu]
        · simp only [hu, hO3 u hu', hO2u u hu, List.map_cons, List.mem_cons, hu', false_or, if_false]

end PM.Graph
