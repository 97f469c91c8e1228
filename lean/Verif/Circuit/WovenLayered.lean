import Verif.Circuit.Woven

/-! # `mount_with_interaction_terms`: the result is a circuit -/

namespace PM.Graph

open Spec

variable {D : Type} {g h : Graph D} {u o b : Node} {pc : ℕ → ℝ} {pq : ℕ → ℕ → ℝ} {G : Graph D}

/-- Every edge of the result is of one of five sorts. -/
theorem woven_edge (hh : h.WF) (hG : Woven g h u b (h.succ o).zipIdx pc pq (g.succ u).length G) {e : Edge}
    (he : e ∈ G.edges) :
    (e ∈ g.edges ∧ e.src ≠ u) ∨ e ∈ h.edges ∨ (∃ k < (g.succ u).length, e = ⟨u, b + 2 * k, some (LogP.log (pc k))⟩) ∨
      (∃ k < (g.succ u).length, e = ⟨b + 2 * k, (g.succ u).getD k 0, none⟩ ∨ e = ⟨b + 2 * k, b + 2 * k + 1, none⟩) ∨
      ∃ k < (g.succ u).length, ∃ x ∈ (h.succ o).zipIdx, pq k x.2 ≠ 0 ∧ e.src = b + 2 * k + 1 ∧ e.dst = x.1 ∧ e.weight.isSome := by
  have hm : e ∈ G.outEdges e.src := mem_outEdges.2 ⟨he, rfl⟩
  rcases (hG.ids _).1 (hG.wf.srcMem e he) with hs | ⟨k, hk, hs | hs⟩ | ⟨k, hk, x, hx, _, hr⟩
  · by_cases hsu : e.src = u
    · rw [hsu, hG.outU, List.mem_append] at hm
      rcases hm with hm | hm
      · have : (g.outEdges u).length ≤ (g.succ u).length := by simp [succ]
        rw [List.drop_eq_nil_of_le this] at hm
        cases hm
      · obtain ⟨k, hk, rfl⟩ := List.mem_map.1 hm
        exact .inr (.inr (.inl ⟨k, List.mem_range.1 hk, rfl⟩))
    · rw [hG.outG _ hs hsu] at hm
      exact .inl ⟨(mem_outEdges.1 hm).1, hsu⟩
  · rw [hs, hG.outP k hk] at hm
    simp only [List.mem_cons, List.not_mem_nil, or_false] at hm
    exact .inr (.inr (.inr (.inl ⟨k, hk, hm⟩)))
  · rw [hs, hG.outS k hk] at hm
    obtain ⟨x, hx, rfl⟩ := List.mem_map.1 hm
    obtain ⟨hx, hx0⟩ := List.mem_filter.1 hx
    exact .inr (.inr (.inr (.inr ⟨k, hk, x, hx, by simpa using hx0, rfl, rfl, rfl⟩)))
  · have hxh : x.1 ∈ h.ids := by
      refine succ_mem_ids hh (n := o) ?_
      rw [← map_fst_zipIdx (h.succ o)]
      exact List.mem_map_of_mem hx
    have hsh := reachable_mem_ids hh hxh hr
    rw [(hG.comp _ (hG.wf.srcMem e he) hsh).2] at hm
    exact .inr (.inl (mem_outEdges.1 hm).1)

/-- The sorts of units of the result. -/
theorem woven_unit (hh : h.WF) (hG : Woven g h u b (h.succ o).zipIdx pc pq (g.succ u).length G) {n : Node}
    (hn : n ∈ G.ids) : n = u ∨ (n ∈ g.ids ∧ n ≠ u) ∨ (∃ k < (g.succ u).length, n = b + 2 * k) ∨
      (∃ k < (g.succ u).length, n = b + 2 * k + 1) ∨
      (n ∈ h.ids ∧ ∃ k < (g.succ u).length, ∃ x ∈ (h.succ o).zipIdx, pq k x.2 ≠ 0 ∧ h.Reachable x.1 n) := by
  rcases (hG.ids _).1 hn with hs | ⟨k, hk, hs | hs⟩ | ⟨k, hk, x, hx, hx0, hr⟩
  · by_cases h' : n = u
    · exact .inl h'
    · exact .inr (.inl ⟨hs, h'⟩)
  · exact .inr (.inr (.inl ⟨k, hk, hs⟩))
  · exact .inr (.inr (.inr (.inl ⟨k, hk, hs⟩)))
  · have hxh : x.1 ∈ h.ids := by
      refine succ_mem_ids hh (n := o) ?_
      rw [← map_fst_zipIdx (h.succ o)]
      exact List.mem_map_of_mem hx
    exact .inr (.inr (.inr (.inr ⟨reachable_mem_ids hh hxh hr, k, hk, x, hx, hx0, hr⟩)))

theorem mem_other_zipIdx {x : Node × ℕ} (hx : x ∈ (h.succ o).zipIdx) : x.1 ∈ h.succ o := by
  rw [← map_fst_zipIdx (h.succ o)]
  exact List.mem_map_of_mem hx

theorem woven_layered (hg : Layered g u) (hh : Layered h o) (hd : DisjointIds g h) (hbg : ∀ n ∈ g.ids, n < b)
    (hbh : ∀ n ∈ h.ids, n < b) (hku : g.kind? u = some .sum)
    (hG : Woven g h u b (h.succ o).zipIdx pc pq (g.succ u).length G) : Layered G u := by
  have hu := (root_mem hg.root).1
  have hing : ∀ (k : Graph D) n, k.inEdges n = [] ↔ ∀ e ∈ k.edges, e.dst ≠ n := by
    intro k n
    unfold inEdges
    rw [List.filter_eq_nil_iff]
    simp
  have hown : ∀ k < (g.succ u).length, (g.succ u).getD k 0 ∈ g.succ u := by
    intro k hk
    rw [List.getD_eq_getElem?_getD, List.getElem?_eq_getElem hk]
    exact List.getElem_mem _
  have hroot : ∀ n, u ∉ g.succ n := by
    intro n hn
    obtain ⟨e, he, _, h2⟩ := mem_succ.1 hn
    exact (hing g u).1 (root_mem hg.root).2 e he h2
  have hcu : ∀ c ∈ g.succ u, c ≠ u := by
    rintro c hc rfl
    exact hroot _ hc
  have hin : ∀ {n : Node} {e : Edge}, e ∈ G.outEdges n → e ∈ G.edges := fun he => (mem_outEdges.1 he).1
  have hub := hbg u hu
  refine ⟨hG.wf, ?_, ?_, ?_, ?_⟩
  · obtain ⟨dg, hdg⟩ := hg.graded
    obtain ⟨dh, hdh⟩ := hh.graded
    refine ⟨fun n => if n = u then dg u + dh o else if n ∈ g.ids then dg n + 1 + dh o
      else if n ∈ h.ids then dg u + 2 + dh n else dg u + dh o + 1 + (n - b) % 2, ?_⟩
    intro e he
    rcases woven_edge hh.wf hG he with ⟨he, hne⟩ | he | ⟨k, hk, rfl⟩ | ⟨k, hk, rfl | rfl⟩ | ⟨k, hk, x, hx, _, h1, h2, _⟩
    · have hdu : e.dst ≠ u := (hing g u).1 (root_mem hg.root).2 e he
      simp only [if_neg hne, if_neg hdu, if_pos (hg.wf.srcMem e he), if_pos (hg.wf.dstMem e he), hdg e he]
      omega
    · have hs := hh.wf.srcMem e he
      have ht := hh.wf.dstMem e he
      have h1 : e.src ∉ g.ids := fun h' => hd _ h' hs
      have h2 : e.dst ∉ g.ids := fun h' => hd _ h' ht
      have h3 : e.src ≠ u := fun h' => h1 (h' ▸ hu)
      have h4 : e.dst ≠ u := fun h' => h2 (h' ▸ hu)
      simp only [if_neg h1, if_neg h2, if_neg h3, if_neg h4, if_pos hs, if_pos ht, hdh e he]
      omega
    · have h1 : b + 2 * k ∉ g.ids := fun h' => by have := hbg _ h'; nomega
      have h2 : b + 2 * k ∉ h.ids := fun h' => by have := hbh _ h'; nomega
      have h3 : b + 2 * k ≠ u := by nomega
      simp only [if_neg h1, if_neg h2, if_neg h3, if_true]
      have : (b + 2 * k - b) % 2 = 0 := by nomega
      nomega
    · have h1 : b + 2 * k ∉ g.ids := fun h' => by have := hbg _ h'; nomega
      have h2 : b + 2 * k ∉ h.ids := fun h' => by have := hbh _ h'; nomega
      have h3 : b + 2 * k ≠ u := by nomega
      have hc := hown k hk
      have h4 : (g.succ u).getD k 0 ≠ u := hcu _ hc
      have h5 := succ_mem_ids hg.wf hc
      simp only [if_neg h1, if_neg h2, if_neg h3, if_neg h4, if_pos h5]
      obtain ⟨e', he', h6, h7⟩ := mem_succ.1 hc
      have h8 := hdg e' he'
      rw [h6, h7] at h8
      rw [h8]
      have : (b + 2 * k - b) % 2 = 0 := by nomega
      nomega
    · have h1 : b + 2 * k ∉ g.ids := fun h' => by have := hbg _ h'; nomega
      have h2 : b + 2 * k ∉ h.ids := fun h' => by have := hbh _ h'; nomega
      have h3 : b + 2 * k ≠ u := by nomega
      have h4 : b + 2 * k + 1 ∉ g.ids := fun h' => by have := hbg _ h'; nomega
      have h5 : b + 2 * k + 1 ∉ h.ids := fun h' => by have := hbh _ h'; nomega
      have h6 : b + 2 * k + 1 ≠ u := by nomega
      simp only [if_neg h1, if_neg h2, if_neg h3, if_neg h4, if_neg h5, if_neg h6]
      have h7 : (b + 2 * k - b) % 2 = 0 := by nomega
      have h8 : (b + 2 * k + 1 - b) % 2 = 1 := by nomega
      nomega
    · have h4 : b + 2 * k + 1 ∉ g.ids := fun h' => by have := hbg _ h'; nomega
      have h5 : b + 2 * k + 1 ∉ h.ids := fun h' => by have := hbh _ h'; nomega
      have h6 : b + 2 * k + 1 ≠ u := by nomega
      have hxo := mem_other_zipIdx hx
      have h7 := succ_mem_ids hh.wf hxo
      have h8 : x.1 ∉ g.ids := fun h' => hd _ h' h7
      have h9 : x.1 ≠ u := fun h' => h8 (h' ▸ hu)
      rw [h1, h2]
      simp only [if_neg h4, if_neg h5, if_neg h6, if_neg h8, if_neg h9, if_pos h7]
      obtain ⟨e', he', h10, h11⟩ := mem_succ.1 hxo
      have h12 := hdh e' he'
      rw [h10, h11] at h12
      rw [h12]
      have h13 : (b + 2 * k + 1 - b) % 2 = 1 := by nomega
      nomega
  · intro n d hk
    have hn := mem_ids_of_kind? hk
    rcases woven_unit hh.wf hG hn with rfl | ⟨hng, hnu⟩ | ⟨k, hk', rfl⟩ | ⟨k, hk', rfl⟩ | ⟨hnh, _⟩
    · rw [hG.kindG _ hu, hku] at hk; cases hk
    · rw [hG.kindG n hng] at hk
      unfold succ
      rw [hG.outG n hng hnu]
      exact hg.leaves n d hk
    · rw [hG.kindP k hk'] at hk; cases hk
    · rw [hG.kindS k hk'] at hk; cases hk
    · obtain ⟨h1, h2⟩ := hG.comp n hn hnh
      rw [h1] at hk
      unfold succ
      rw [h2]
      exact hh.leaves n d hk
  · intro n hk e he
    have hn := mem_ids_of_kind? hk
    rcases woven_unit hh.wf hG hn with rfl | ⟨hng, hnu⟩ | ⟨k, hk', rfl⟩ | ⟨k, hk', rfl⟩ | ⟨hnh, _⟩
    · rw [hG.outU, List.mem_append] at he
      rcases he with he | he
      · exact hg.weighted _ hku e (List.mem_of_mem_drop he)
      · obtain ⟨k, _, rfl⟩ := List.mem_map.1 he
        rfl
    · rw [hG.kindG n hng] at hk
      rw [hG.outG n hng hnu] at he
      exact hg.weighted n hk e he
    · rw [hG.kindP k hk'] at hk; cases hk
    · rw [hG.outS k hk'] at he
      obtain ⟨x, _, rfl⟩ := List.mem_map.1 he
      rfl
    · obtain ⟨h1, h2⟩ := hG.comp n hn hnh
      rw [h1] at hk
      rw [h2] at he
      exact hh.weighted n hk e he
  · refine root_of hG.wf ((hG.ids u).2 (.inl hu)) ((hing G u).2 ?_) ?_
    · intro e he
      rcases woven_edge hh.wf hG he with ⟨he, hne⟩ | he | ⟨k, hk, rfl⟩ | ⟨k, hk, rfl | rfl⟩ |
        ⟨k, hk, x, hx, _, h1, h2, _⟩
      · exact (hing g u).1 (root_mem hg.root).2 e he
      · exact fun h' => hd u hu (h' ▸ hh.wf.dstMem e he)
      · intro h'; simp only at h'; nomega
      · exact hcu _ (hown k hk)
      · intro h'; simp only at h'; nomega
      · rw [h2]
        exact fun h' => hd u hu (h' ▸ succ_mem_ids hh.wf (mem_other_zipIdx hx))
    · intro n hn h0
      have h0' := (hing G n).1 h0
      have hP : ∀ k < (g.succ u).length, (⟨b + 2 * k, (g.succ u).getD k 0, none⟩ : Edge) ∈ G.edges ∧
          (⟨b + 2 * k, b + 2 * k + 1, none⟩ : Edge) ∈ G.edges := by
        intro k hk
        constructor <;> refine hin (n := b + 2 * k) ?_ <;> rw [hG.outP k hk] <;> simp
      rcases woven_unit hh.wf hG hn with h' | ⟨hng, hnu⟩ | ⟨k, hk', rfl⟩ | ⟨k, hk', rfl⟩ | ⟨hnh, k, hk, x, hx, hx0, hr⟩
      · exact h'
      · exfalso
        have : ∃ e ∈ g.edges, e.dst = n := by
          by_contra hcon
          push Not at hcon
          exact hnu (root_unique hg.root hng ((hing g n).2 hcon))
        obtain ⟨e, he, rfl⟩ := this
        by_cases hsu : e.src = u
        · have hc : e.dst ∈ g.succ u := mem_succ.2 ⟨e, he, hsu, rfl⟩
          obtain ⟨k, hk, hkc⟩ := List.getElem_of_mem hc
          refine h0' _ (hP k hk).1 ?_
          rw [List.getD_eq_getElem?_getD, List.getElem?_eq_getElem hk, hkc]
          rfl
        · refine h0' e (hin (n := e.src) ?_) rfl
          rw [hG.outG _ (hg.wf.srcMem e he) hsu]
          exact mem_outEdges.2 ⟨he, rfl⟩
      · exfalso
        refine h0' ⟨u, b + 2 * k, some (LogP.log (pc k))⟩ (hin (n := u) ?_) rfl
        rw [hG.outU]
        exact List.mem_append_right _ (List.mem_map.2 ⟨k, List.mem_range.2 hk', rfl⟩)
      · exact absurd rfl (h0' _ (hP k hk').2)
      · exfalso
        rcases Relation.ReflTransGen.cases_tail hr with rfl | ⟨m, hm, hmn⟩
        · refine h0' ⟨b + 2 * k + 1, x.1, some (LogP.log (pq k x.2 / pc k) - proxyTotal (h.succ o).zipIdx (pc k) (pq k))⟩
            (hin (n := b + 2 * k + 1) ?_) rfl
          rw [hG.outS k hk]
          exact List.mem_map.2 ⟨x, List.mem_filter.2 ⟨hx, by simpa using hx0⟩, rfl⟩
        · obtain ⟨e, he, h1, h2⟩ := mem_succ.1 hmn
          have hmG : m ∈ G.ids := (hG.ids m).2 (.inr (.inr ⟨k, hk, x, hx, hx0, hm⟩))
          have hmh := hh.wf.srcMem e he
          rw [h1] at hmh
          refine h0' e (hin (n := m) ?_) h2
          rw [(hG.comp m hmG hmh).2]
          exact mem_outEdges.2 ⟨he, h1⟩

end PM.Graph
