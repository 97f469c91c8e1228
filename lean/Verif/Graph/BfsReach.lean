import Verif.Graph.Bfs

/-! Breadth-first search visits everything reachable, in any graph. -/

namespace PM.Graph

variable {D : Type}

theorem bfsLoop_closed {g : Graph D} (hw : g.WF) : ∀ (fuel : Nat) (v l : List Node),
    v.Nodup → (∀ n ∈ v, n ∈ g.ids) → (∀ n ∈ l, n ∈ v) → (∀ n ∈ v, n ∉ l → ∀ c ∈ g.succ n, c ∈ v) →
    g.ids.length < fuel + v.length →
    ∀ n, (n ∈ v ∨ n ∈ (g.bfsLoop fuel v l).flatten) → ∀ c ∈ g.succ n, c ∈ v ∨ c ∈ (g.bfsLoop fuel v l).flatten := by
  intro fuel
  induction fuel with
  | zero =>
    intro v l hn hv _ _ hf
    have := (hn.subperm hv).length_le
    omega
  | succ f ih =>
    intro v l hn hv hl hc hf n hnm c hcm
    cases l with
    | nil =>
      simp only [bfsLoop, List.flatten_nil, List.not_mem_nil, or_false] at hnm ⊢
      exact hc n hnm (by simp) c hcm
    | cons a l =>
      simp only [bfsLoop, bfsNext_eq] at hnm ⊢
      set nw := discover v ((a :: l).flatMap g.succ) with hnw
      have hsub : ∀ k ∈ a :: l, ∀ c ∈ g.succ k, c ∈ v ++ nw := by
        intro k hk c hc
        by_cases h : c ∈ v
        · exact List.mem_append_left _ h
        · exact List.mem_append_right _ (mem_discover.2 ⟨List.mem_flatMap.2 ⟨k, hk, hc⟩, h⟩)
      have hclosed : ∀ k ∈ v ++ nw, k ∉ nw → ∀ c ∈ g.succ k, c ∈ v ++ nw := by
        intro k hk hk2 c hc'
        have hkv : k ∈ v := by
          rcases List.mem_append.1 hk with h | h
          · exact h
          · exact absurd h hk2
        by_cases hkl : k ∈ a :: l
        · exact hsub k hkl c hc'
        · exact List.mem_append_left _ (hc k hkv hkl c hc')
      have hlv : ∀ k ∈ a :: l, k ∈ v := hl
      rw [List.flatten_cons, List.mem_append] at hnm ⊢
      have hnm' : n ∈ v ++ nw ∨ n ∈ (g.bfsLoop f (v ++ nw) nw).flatten := by
        rcases hnm with h | h | h
        · exact .inl (List.mem_append_left _ h)
        · exact .inl (List.mem_append_left _ (hlv n h))
        · exact .inr h
      by_cases he : nw = []
      · have hb : g.bfsLoop f (v ++ nw) nw = [] := by rw [he]; cases f <;> rfl
        rw [hb] at hnm' ⊢
        rw [he, List.append_nil] at hnm' hclosed
        simp only [List.flatten_nil, List.not_mem_nil, or_false] at hnm' ⊢
        exact .inl (hclosed n hnm' (by simp) c hcm)
      · have hlen : 0 < nw.length := List.length_pos_iff.2 he
        have := ih (v ++ nw) nw (List.nodup_append.2 ⟨hn, nodup_discover, by
            intro a ha b hb hab
            subst hab
            exact (mem_discover.1 hb).2 ha⟩)
          (by
            intro k hk
            rcases List.mem_append.1 hk with h | h
            · exact hv k h
            · obtain ⟨p, _, hp⟩ := List.mem_flatMap.1 (mem_discover.1 h).1
              obtain ⟨e, he, _, rfl⟩ := mem_succ.1 hp
              exact hw.dstMem e he)
          (fun k hk => List.mem_append_right _ hk) hclosed
          (by rw [List.length_append]; omega) n hnm' c hcm
        rcases this with h | h
        · rcases List.mem_append.1 h with h | h
          · exact .inl h
          · refine .inr (.inr ?_)
            cases f with
            | zero =>
              have := ((List.nodup_append.2 ⟨hn, nodup_discover, by
                intro a ha b hb hab
                subst hab
                exact (mem_discover.1 hb).2 ha⟩ : (v ++ nw).Nodup).subperm (l₂ := g.ids) (by
                  intro k hk
                  rcases List.mem_append.1 hk with h | h
                  · exact hv k h
                  · obtain ⟨p, _, hp⟩ := List.mem_flatMap.1 (mem_discover.1 h).1
                    obtain ⟨e, he, _, rfl⟩ := mem_succ.1 hp
                    exact hw.dstMem e he)).length_le
              rw [List.length_append] at this
              omega
            | succ f =>
              cases hq : nw with
              | nil => exact absurd hq he
              | cons b nw' =>
                rw [bfsLoop, List.flatten_cons]
                exact List.mem_append_left _ (hq ▸ h)
        · exact .inr (.inr h)

/-- The units that a breadth-first search from `r` visits are those reachable from `r`. -/
theorem mem_layersFrom_iff' {g : Graph D} (hw : g.WF) {r n : Node} (hr : r ∈ g.ids) :
    n ∈ (g.layersFrom r).flatten ↔ g.Reachable r n := by
  refine ⟨mem_layersFrom_reachable g, fun h => ?_⟩
  have hpos : 0 < g.nodes.length := by
    have := List.length_pos_of_mem hr
    simpa [ids] using this
  have hr' : r ∈ (g.layersFrom r).flatten := by
    unfold layersFrom
    obtain ⟨k, hk⟩ : ∃ k, g.nodes.length = k + 1 := ⟨g.nodes.length - 1, by omega⟩
    rw [hk]
    simp [bfsLoop]
  have hcl := bfsLoop_closed hw g.nodes.length [r] [r] (by simp) (by simpa using hr) (by simp)
    (by intro n hn hn'; exact absurd hn hn') (by simp [ids])
  induction h with
  | refl => exact hr'
  | tail _ hc ih =>
    rcases hcl _ (.inr ih) _ hc with h | h
    · rw [List.mem_singleton.1 h]; exact hr'
    · exact h

end PM.Graph
