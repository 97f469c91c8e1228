import Verif.Circuit.InteractionLemmas
import Verif.Circuit.CondPass

/-! # `mount_with_interaction_terms`: the invariant of the outer loop -/

namespace PM.Graph

open Spec

variable {D : Type}

/-- The total of the weights of the `k`-th proxy sum. -/
noncomputable def proxyTotal (L : List (Node × ℕ)) (pc : ℝ) (pq : ℕ → ℝ) : LogP :=
  LogP.logsumexp ((L.filter fun x => decide (pq x.2 ≠ 0)).map fun x => LogP.log (pq x.2 / pc))

/-- The out-edges of the proxy sum `s`. -/
noncomputable def proxyEdges (s : Node) (L : List (Node × ℕ)) (pc : ℝ) (pq : ℕ → ℝ) : List Edge :=
  (L.filter fun x => decide (pq x.2 ≠ 0)).map fun x =>
    ⟨s, x.1, some (LogP.log (pq x.2 / pc) - proxyTotal L pc pq)⟩

/-- The circuit after `i` rounds of the outer loop. -/
structure Woven (g h : Graph D) (u b : Node) (L : List (Node × ℕ)) (pc : ℕ → ℝ) (pq : ℕ → ℕ → ℝ) (i : ℕ)
    (G : Graph D) : Prop where
  wf : G.WF
  comp : Compatible G h
  ids : ∀ n, n ∈ G.ids ↔ n ∈ g.ids ∨ (∃ k < i, n = b + 2 * k ∨ n = b + 2 * k + 1) ∨
    ∃ k < i, ∃ x ∈ L, pq k x.2 ≠ 0 ∧ h.Reachable x.1 n
  kindG : ∀ n ∈ g.ids, G.kind? n = g.kind? n
  outG : ∀ n ∈ g.ids, n ≠ u → G.outEdges n = g.outEdges n
  kindP : ∀ k < i, G.kind? (b + 2 * k) = some .prod
  kindS : ∀ k < i, G.kind? (b + 2 * k + 1) = some .sum
  outU : G.outEdges u = (g.outEdges u).drop i ++
    (List.range i).map fun k => ⟨u, b + 2 * k, some (LogP.log (pc k))⟩
  outP : ∀ k < i, G.outEdges (b + 2 * k) = [⟨b + 2 * k, (g.succ u).getD k 0, none⟩, ⟨b + 2 * k, b + 2 * k + 1, none⟩]
  outS : ∀ k < i, G.outEdges (b + 2 * k + 1) = proxyEdges (b + 2 * k + 1) L (pc k) (pq k)

variable {g h : Graph D} {u b : Node} {pc : ℕ → ℝ} {pq : ℕ → ℕ → ℝ} {others : List Node}

theorem woven_zero (hg : g.WF) (hd : DisjointIds g h) (L : List (Node × ℕ)) : Woven g h u b L pc pq 0 g where
  wf := hg
  comp := hd.compatible
  ids := by simp
  kindG _ _ := rfl
  outG _ _ _ := rfl
  kindP := by simp
  kindS := by simp
  outU := by simp
  outP := by simp
  outS := by simp

theorem map_fst_zipIdx (l : List Node) : l.zipIdx.map Prod.fst = l := by simp

theorem woven_step (hg : g.WF) (hh : h.WF) (hd : DisjointIds g h) (hu : u ∈ g.ids) (hbg : ∀ n ∈ g.ids, n < b)
    (hbh : ∀ n ∈ h.ids, n < b) (hoth : ∀ x ∈ others, x ∈ h.ids) (hnd : others.Nodup) {i : ℕ} {G : Graph D}
    (hG : Woven g h u b others.zipIdx pc pq i G) {c : Node} (hc : (g.succ u)[i]? = some c) (hpc : pc i ≠ 0)
    (hne : ∃ x ∈ others.zipIdx, pq i x.2 ≠ 0) :
    ∃ G', weaveStep h u b others pc pq G (c, i) = .ok G' ∧ Woven g h u b others.zipIdx pc pq (i + 1) G' := by
  set L := others.zipIdx with hL
  have hLh : ∀ x ∈ L, x.1 ∈ h.ids := by
    intro x hx
    refine hoth x.1 ?_
    rw [← map_fst_zipIdx others]
    exact List.mem_map_of_mem hx
  have hcs : c ∈ g.succ u := List.mem_of_getElem? hc
  have hcg : c ∈ g.ids := succ_mem_ids hg hcs
  set p := b + 2 * i with hp
  set s := b + 2 * i + 1 with hs
  have hlt : ∀ n ∈ G.ids, n < p := by
    intro n hn
    rcases (hG.ids n).1 hn with h' | ⟨k, hk, h'⟩ | ⟨k, _, x, hx, _, hr⟩
    · have := hbg n h'; nomega
    · rcases h' with h' | h' <;> nomega
    · have := hbh n (reachable_mem_ids hh (hLh x hx) hr); nomega
  have hpG : p ∉ G.ids := fun h' => by have := hlt p h'; nomega
  have hph : p ∉ h.ids := fun h' => by have := hbh p h'; nomega
  have hsh : s ∉ h.ids := fun h' => by have := hbh s h'; nomega
  have huG : u ∈ G.ids := (hG.ids u).2 (.inl hu)
  have hcG : c ∈ G.ids := (hG.ids c).2 (.inl hcg)
  have hup : u ≠ p := fun h' => hpG (h' ▸ huG)
  have hub := hbg u hu
  have hcb := hbg c hcg
  have hus : u ≠ s := by intro h'; rw [h'] at hub; nomega
  have hps : p ≠ s := by nomega
  -- the two new units
  obtain ⟨a1, a2, a3, a4, a5⟩ := addNode_new hG.wf hpG (.prod : Kind D)
  set G1 := G.addNode p .prod with hG1
  have hs1 : s ∉ G1.ids := by
    intro h'
    rcases (a2 s).1 h' with h' | h'
    · have := hlt s h'; nomega
    · exact hps h'.symm
  obtain ⟨b1, b2, b3, b4, b5⟩ := addNode_new a1 hs1 (.sum : Kind D)
  set G2 := G1.addNode s .sum with hG2
  have ids2 : ∀ n, n ∈ G2.ids ↔ n ∈ G.ids ∨ n = p ∨ n = s := by
    intro n; rw [b2, a2]; tauto
  have out2 : ∀ n, G2.outEdges n = G.outEdges n := fun n => (b5 n).trans (a5 n)
  have kind2 : ∀ n ∈ G.ids, G2.kind? n = G.kind? n := fun n hn => (b3 n ((a2 n).2 (.inl hn))).trans (a3 n hn)
  have kind2p : G2.kind? p = some .prod := (b3 p ((a2 p).2 (.inr rfl))).trans a4
  -- the removed edge
  have w3 := wf_removeEdge b1 u c
  set G3 := G2.removeEdge u c with hG3
  have ids3 : ∀ n, n ∈ G3.ids ↔ n ∈ G.ids ∨ n = p ∨ n = s := ids2
  have kind3 : ∀ n, G3.kind? n = G2.kind? n := fun _ => rfl
  obtain ⟨hi, hci⟩ := List.getElem?_eq_some_iff.1 hc
  have hilen : i < (g.outEdges u).length := by simpa [succ] using hi
  have hdrop : (g.outEdges u).drop i = (g.outEdges u)[i] :: (g.outEdges u).drop (i + 1) :=
    List.drop_eq_getElem_cons hilen
  have hdst : (g.outEdges u)[i].dst = c := by
    rw [← hci]
    simp [succ]
  have hndd : (((g.outEdges u).drop i).map Edge.dst).Nodup := by
    rw [List.map_drop]
    exact (List.drop_sublist i _).nodup (nodup_succ hg u)
  have out3u : G3.outEdges u = (g.outEdges u).drop (i + 1) ++
      (List.range i).map fun k => (⟨u, b + 2 * k, some (LogP.log (pc k))⟩ : Edge) := by
    rw [hG3, outEdges_removeEdge_self, out2 u, hG.outU, List.filter_append, hdrop, List.filter_cons_of_neg (by simp [hdst])]
    rw [hdrop, List.map_cons, List.nodup_cons, hdst] at hndd
    congr 1
    · rw [List.filter_eq_self]
      intro e he
      have : e.dst ≠ c := fun h' => hndd.1 (h' ▸ List.mem_map_of_mem he)
      simp [this]
    · rw [List.filter_eq_self]
      intro e he
      obtain ⟨k, _, rfl⟩ := List.mem_map.1 he
      have : b + 2 * k ≠ c := by nomega
      simp [this]
  have out3 : ∀ n, n ≠ u → G3.outEdges n = G.outEdges n := fun n hn => (outEdges_removeEdge_other hn).trans (out2 n)
  have outp0 : G.outEdges p = [] := outEdges_eq_nil hG.wf hpG
  have outs0 : G.outEdges s = [] := outEdges_eq_nil hG.wf (fun h' => by have := hlt s h'; nomega)
  -- the edge to the proxy product
  have n4 : p ∉ G3.succ u := by
    intro h'
    unfold succ at h'
    rw [out3u, List.map_append, List.mem_append] at h'
    rcases h' with h' | h'
    · obtain ⟨e, he, hep⟩ := List.mem_map.1 h'
      have := hbg _ (hg.dstMem e (mem_outEdges.1 (List.mem_of_mem_drop he)).1)
      nomega
    · rw [List.map_map] at h'
      obtain ⟨k, hk, hkp⟩ := List.mem_map.1 h'
      have := List.mem_range.1 hk
      simp only [Function.comp] at hkp
      nomega
  obtain ⟨c1, c2, c3, c4, c5⟩ := addSubcircuit_self (w := some (LogP.log (pc i))) w3 ((ids3 u).2 (.inl huG))
    ((ids3 p).2 (.inr (.inl rfl))) n4
  set G4 := G3.addSubcircuit G3 u p (some (LogP.log (pc i))) with hG4
  -- the old child below the proxy product
  have out4p : G4.outEdges p = [] := by rw [c4 p hup.symm, out3 p hup.symm, outp0]
  obtain ⟨d1, d2, d3, d4, d5⟩ := addSubcircuit_self (w := none) (o := c) c1 ((c2 p).2 ((ids3 p).2 (.inr (.inl rfl))))
    ((c2 c).2 ((ids3 c).2 (.inl hcG))) (by unfold succ; rw [out4p]; simp)
  set G5 := G4.addSubcircuit G4 p c none with hG5
  have out5p : G5.outEdges p = [⟨p, c, none⟩] := by rw [d5, out4p]; rfl
  -- the proxy sum below the proxy product
  obtain ⟨e1, e2, e3, e4, e5⟩ := addSubcircuit_self (w := none) (o := s) d1 ((d2 p).2 ((c2 p).2 ((ids3 p).2 (.inr (.inl rfl)))))
    ((d2 s).2 ((c2 s).2 ((ids3 s).2 (.inr (.inr rfl))))) (by
      unfold succ; rw [out5p]
      simp only [List.map_cons, List.map_nil, List.mem_singleton]
      nomega)
  set G6 := G5.addSubcircuit G5 p s none with hG6
  have out6p : G6.outEdges p = [⟨p, c, none⟩, ⟨p, s, none⟩] := by rw [e5, out5p]; rfl
  have ids6 : ∀ n, n ∈ G6.ids ↔ n ∈ G.ids ∨ n = p ∨ n = s := fun n => by rw [e2, d2, c2, ids3]
  have kind6 : ∀ n, G6.kind? n = G2.kind? n := fun n => by rw [e3, d3, c3]; rfl
  have out6u : G6.outEdges u = (g.outEdges u).drop (i + 1) ++
      (List.range (i + 1)).map fun k => (⟨u, b + 2 * k, some (LogP.log (pc k))⟩ : Edge) := by
    rw [e4 u hup, d4 u hup, c5, out3u, List.range_succ, List.map_append, List.append_assoc]
    rfl
  have out6 : ∀ n, n ≠ u → n ≠ p → G6.outEdges n = G.outEdges n := fun n h1 h2 => by
    rw [e4 n h2, d4 n h2, c4 n h1, out3 n h1]
  have comp6 : Compatible G6 h := by
    intro n hn hnh
    have hnp : n ≠ p := fun h' => hph (h' ▸ hnh)
    have hns : n ≠ s := fun h' => hsh (h' ▸ hnh)
    have hnu : n ≠ u := fun h' => hd u hu (h' ▸ hnh)
    have hnG : n ∈ G.ids := ((ids6 n).1 hn).resolve_right (fun h' => h'.elim hnp hns)
    rw [kind6, kind2 n hnG, out6 n hnu hnp]
    exact hG.comp n hnG hnh
  have out6s : G6.outEdges s = [] := by rw [out6 s hus.symm hps.symm, outs0]
  -- the children of the proxy sum
  obtain ⟨f1, f2, f3, f4, f5, f6⟩ := link_fold (pc := pc i) (pq := pq i) hh hsh L e1 comp6 ((ids6 s).2 (.inr (.inr rfl))) hLh
    (by rw [hL, map_fst_zipIdx]; exact hnd) (fun x _ => by unfold succ; rw [out6s]; simp)
  set G7 := L.foldl (linkOther h s (pc i) (pq i)) G6 with hG7
  rw [out6s, List.nil_append] at f6
  obtain ⟨G8, k1, k2, k3, k4, k5⟩ := normalizeUnit_view f1 (s := s) (by
    rw [f6]
    obtain ⟨x, hx, hx0⟩ := hne
    intro h'
    rw [List.map_eq_nil_iff] at h'
    have : x ∈ L.filter fun x => decide (pq i x.2 ≠ 0) := List.mem_filter.2 ⟨hx, by simpa using hx0⟩
    rw [h'] at this
    cases this) (by
    rw [f6]
    intro e he
    obtain ⟨x, _, rfl⟩ := List.mem_map.1 he
    rfl)
  have kind8 : ∀ n, G8.kind? n = G7.kind? n := fun n => by unfold kind?; rw [k3]
  have ids8' : ∀ n, n ∈ G8.ids ↔ n ∈ G7.ids := fun n => by unfold Graph.ids; rw [k3]
  have hG6G7 : ∀ n, n ∈ G.ids ∨ n = p ∨ n = s → n ∈ G7.ids := fun n hn => (f3 n).2 (.inl ((ids6 n).2 hn))
  refine ⟨G8, ?_, ?_⟩
  · unfold weaveStep
    simp only
    rw [if_neg hpc]
    exact k1
  have out8 : ∀ n ∈ G.ids, n ≠ u → G8.outEdges n = G.outEdges n := by
    intro n hn hnu
    have hnp : n ≠ p := fun h' => hpG (h' ▸ hn)
    have hns : n ≠ s := by intro h'; have := hlt n hn; nomega
    rw [k4 n hns, f5 n ((ids6 n).2 (.inl hn)) hns, out6 n hnu hnp]
  have kindG8 : ∀ n ∈ G.ids, G8.kind? n = G.kind? n := fun n hn => by
    rw [kind8, f4 n ((ids6 n).2 (.inl hn)), kind6, kind2 n hn]
  have hk_mem : ∀ k < i, b + 2 * k ∈ G.ids ∧ b + 2 * k + 1 ∈ G.ids := fun k hk =>
    ⟨(hG.ids _).2 (.inr (.inl ⟨k, hk, .inl rfl⟩)), (hG.ids _).2 (.inr (.inl ⟨k, hk, .inr rfl⟩))⟩
  refine ⟨k2, ?_, ?_, ?_, ?_, ?_, ?_, ?_, ?_, ?_⟩
  · intro n hn hnh
    have hns : n ≠ s := fun h' => hsh (h' ▸ hnh)
    rw [kind8, k4 n hns]
    exact f2 n ((ids8' n).1 hn) hnh
  · intro n
    rw [ids8', f3, ids6, hG.ids]
    constructor
    · rintro ((( h' | ⟨k, hk, h'⟩ | ⟨k, hk, h'⟩) | h' | h') | ⟨x, hx, h'⟩)
      · exact .inl h'
      · exact .inr (.inl ⟨k, by nomega, h'⟩)
      · exact .inr (.inr ⟨k, by nomega, h'⟩)
      · exact .inr (.inl ⟨i, by nomega, .inl h'⟩)
      · exact .inr (.inl ⟨i, by nomega, .inr h'⟩)
      · exact .inr (.inr ⟨i, by nomega, x, hx, h'⟩)
    · rintro (h' | ⟨k, hk, h'⟩ | ⟨k, hk, x, hx, h'⟩)
      · exact .inl (.inl (.inl h'))
      · rcases Nat.lt_succ_iff_lt_or_eq.1 hk with hk | rfl
        · exact .inl (.inl (.inr (.inl ⟨k, hk, h'⟩)))
        · exact .inl (.inr h')
      · rcases Nat.lt_succ_iff_lt_or_eq.1 hk with hk | rfl
        · exact .inl (.inl (.inr (.inr ⟨k, hk, x, hx, h'⟩)))
        · exact .inr ⟨x, hx, h'⟩
  · intro n hn
    rw [kindG8 n ((hG.ids n).2 (.inl hn)), hG.kindG n hn]
  · intro n hn hnu
    rw [out8 n ((hG.ids n).2 (.inl hn)) hnu, hG.outG n hn hnu]
  · intro k hk
    rcases Nat.lt_succ_iff_lt_or_eq.1 hk with hk | rfl
    · rw [kindG8 _ (hk_mem k hk).1, hG.kindP k hk]
    · rw [kind8, f4 p ((ids6 p).2 (.inr (.inl rfl))), kind6, kind2p]
  · intro k hk
    rcases Nat.lt_succ_iff_lt_or_eq.1 hk with hk | rfl
    · rw [kindG8 _ (hk_mem k hk).2, hG.kindS k hk]
    · rw [kind8, f4 s ((ids6 s).2 (.inr (.inr rfl))), kind6, b4]
  · rw [k4 u hus, f5 u ((ids6 u).2 (.inl huG)) hus, out6u]
  · intro k hk
    rcases Nat.lt_succ_iff_lt_or_eq.1 hk with hk | rfl
    · rw [out8 _ (hk_mem k hk).1 (fun h' => by nomega), hG.outP k hk]
    · rw [k4 p hps, f5 p ((ids6 p).2 (.inr (.inl rfl))) hps, out6p]
      rw [List.getD_eq_getElem?_getD, hc]
      rfl
  · intro k hk
    rcases Nat.lt_succ_iff_lt_or_eq.1 hk with hk | rfl
    · rw [out8 _ (hk_mem k hk).2 (fun h' => by nomega), hG.outS k hk]
    · rw [k5, f6]
      unfold proxyEdges proxyTotal
      rw [List.map_map, List.map_map]
      rfl

/-- The outer loop. -/
theorem woven_fold (hg : g.WF) (hh : h.WF) (hd : DisjointIds g h) (hu : u ∈ g.ids) (hbg : ∀ n ∈ g.ids, n < b)
    (hbh : ∀ n ∈ h.ids, n < b) (hoth : ∀ x ∈ others, x ∈ h.ids) (hnd : others.Nodup)
    (hpc : ∀ i < (g.succ u).length, pc i ≠ 0)
    (hne : ∀ i < (g.succ u).length, ∃ x ∈ others.zipIdx, pq i x.2 ≠ 0) :
    ∃ G, (g.succ u).zipIdx.foldlM (weaveStep h u b others pc pq) g = .ok G ∧
      Woven g h u b others.zipIdx pc pq (g.succ u).length G := by
  have key : ∀ (l pre : List Node), g.succ u = pre ++ l → ∀ G, Woven g h u b others.zipIdx pc pq pre.length G →
      ∃ G', (l.zipIdx pre.length).foldlM (weaveStep h u b others pc pq) G = .ok G' ∧
        Woven g h u b others.zipIdx pc pq (g.succ u).length G' := by
    intro l
    induction l with
    | nil =>
      intro pre hpre G hG
      refine ⟨G, rfl, ?_⟩
      rw [hpre, List.append_nil]
      exact hG
    | cons c l ih =>
      intro pre hpre G hG
      have hlen : pre.length < (g.succ u).length := by rw [hpre]; simp
      obtain ⟨G', h1, h2⟩ := woven_step hg hh hd hu hbg hbh hoth hnd hG (c := c)
        (by rw [hpre]; simp) (hpc _ hlen) (hne _ hlen)
      obtain ⟨G'', h3, h4⟩ := ih (pre ++ [c]) (by rw [hpre]; simp) G' (by simpa using h2)
      refine ⟨G'', ?_, h4⟩
      rw [List.zipIdx_cons, List.foldlM_cons, h1]
      rw [List.length_append] at h3
      exact h3
  exact key (g.succ u) [] rfl g (woven_zero hg hd _)

end PM.Graph
