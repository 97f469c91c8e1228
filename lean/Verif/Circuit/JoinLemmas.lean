import Verif.Circuit.Join
import Verif.Circuit.Mixture

/-! # `mount_from_bayesian_network`: the resulting circuit -/

namespace PM.Graph

open Spec

section
variable {D : Type}

/-- The circuit after `i` rounds of the loop; `W k` is the weight written in round `k`. -/
structure Joined (g h : Graph D) (u b : Node) (W : ℕ → LogP) (os : List Node) (i : ℕ) (G : Graph D) : Prop where
  wf : G.WF
  comp : Compatible G h
  ids : ∀ n, n ∈ G.ids ↔ n ∈ g.ids ∨ (∃ k < i, n = b + k) ∨ ∃ k < i, h.Reachable (os.getD k 0) n
  kindG : ∀ n ∈ g.ids, G.kind? n = g.kind? n
  outG : ∀ n ∈ g.ids, n ≠ u → G.outEdges n = g.outEdges n
  kindP : ∀ k < i, G.kind? (b + k) = some .prod
  outU : G.outEdges u = (g.outEdges u).drop i ++ (List.range i).map fun k => ⟨u, b + k, some (W k)⟩
  outP : ∀ k < i, G.outEdges (b + k) = [⟨b + k, (g.succ u).getD k 0, none⟩, ⟨b + k, os.getD k 0, none⟩]

variable {g h : Graph D} {u b : Node} {W : ℕ → LogP} {os : List Node}

theorem joined_zero (hg : g.WF) (hd : DisjointIds g h) : Joined g h u b W os 0 g where
  wf := hg
  comp := hd.compatible
  ids := by simp
  kindG _ _ := rfl
  outG _ _ _ := rfl
  kindP := by simp
  outU := by simp
  outP := by simp

theorem joined_step (hg : g.WF) (hh : h.WF) (hd : DisjointIds g h) (hu : u ∈ g.ids) (hbg : ∀ n ∈ g.ids, n < b)
    (hbh : ∀ n ∈ h.ids, n < b) (hos : ∀ k < os.length, os.getD k 0 ∈ h.ids) {i : ℕ} {G : Graph D}
    (hG : Joined g h u b W os i G) {c x : Node} (hc : (g.succ u)[i]? = some c) (hx : os[i]? = some x) :
    Joined g h u b W os (i + 1) (G.joinPair h u (b + i) c x (W i)) := by
  have hcs : c ∈ g.succ u := List.mem_of_getElem? hc
  have hcg : c ∈ g.ids := succ_mem_ids hg hcs
  have hgetx : os.getD i 0 = x := by rw [List.getD_eq_getElem?_getD, hx]; rfl
  have hilo : i < os.length := (List.getElem?_eq_some_iff.1 hx).1
  have hxh : x ∈ h.ids := hgetx ▸ hos i hilo
  set p := b + i with hp
  have hlt : ∀ n ∈ G.ids, n < p := by
    intro n hn
    rcases (hG.ids n).1 hn with h' | ⟨k, hk, h'⟩ | ⟨k, hk, hr⟩
    · have := hbg n h'; nomega
    · nomega
    · have := hbh n (reachable_mem_ids hh (hos k (by nomega)) hr); nomega
  have hpG : p ∉ G.ids := fun h' => by have := hlt p h'; nomega
  have hph : p ∉ h.ids := fun h' => by have := hbh p h'; nomega
  have huG : u ∈ G.ids := (hG.ids u).2 (.inl hu)
  have hcG : c ∈ G.ids := (hG.ids c).2 (.inl hcg)
  have hup : u ≠ p := fun h' => hpG (h' ▸ huG)
  have hub := hbg u hu
  have hcb := hbg c hcg
  -- the new unit
  obtain ⟨a1, a2, a3, a4, a5⟩ := addNode_new hG.wf hpG (.prod : Kind D)
  set G2 := G.addNode p .prod with hG2
  have ids2 : ∀ n, n ∈ G2.ids ↔ n ∈ G.ids ∨ n = p := a2
  have out2 : ∀ n, G2.outEdges n = G.outEdges n := a5
  -- the removed edge
  have w3 := wf_removeEdge a1 u c
  set G3 := G2.removeEdge u c with hG3
  have ids3 : ∀ n, n ∈ G3.ids ↔ n ∈ G.ids ∨ n = p := ids2
  obtain ⟨hi, hci⟩ := List.getElem?_eq_some_iff.1 hc
  have hilen : i < (g.outEdges u).length := by simpa [succ] using hi
  have hdrop : (g.outEdges u).drop i = (g.outEdges u)[i] :: (g.outEdges u).drop (i + 1) :=
    List.drop_eq_getElem_cons hilen
  have hdst : (g.outEdges u)[i].dst = c := by
    rw [← hci]
    simp [succ]
  have hndd : (((g.outEdges u).drop i).map Edge.dst).Nodup := by
    rw [List.map_drop]
    exact (List.drop_sublist i _).nodup (nodup_succ hg u)
  have out3u : G3.outEdges u = (g.outEdges u).drop (i + 1) ++
      (List.range i).map fun k => (⟨u, b + k, some (W k)⟩ : Edge) := by
    rw [hG3, outEdges_removeEdge_self, out2 u, hG.outU, List.filter_append, hdrop, List.filter_cons_of_neg (by simp [hdst])]
    rw [hdrop, List.map_cons, List.nodup_cons, hdst] at hndd
    congr 1
    · rw [List.filter_eq_self]
      intro e he
      have : e.dst ≠ c := fun h' => hndd.1 (h' ▸ List.mem_map_of_mem he)
      simp [this]
    · rw [List.filter_eq_self]
      intro e he
      obtain ⟨k, _, rfl⟩ := List.mem_map.1 he
      have : b + k ≠ c := by nomega
      simp [this]
  have out3 : ∀ n, n ≠ u → G3.outEdges n = G.outEdges n := fun n hn => (outEdges_removeEdge_other hn).trans (out2 n)
  have outp0 : G.outEdges p = [] := outEdges_eq_nil hG.wf hpG
  -- the edge to the proxy product
  have n4 : p ∉ G3.succ u := by
    intro h'
    unfold succ at h'
    rw [out3u, List.map_append, List.mem_append] at h'
    rcases h' with h' | h'
    · obtain ⟨e, he, hep⟩ := List.mem_map.1 h'
      have := hbg _ (hg.dstMem e (mem_outEdges.1 (List.mem_of_mem_drop he)).1)
      nomega
    · rw [List.map_map] at h'
      obtain ⟨k, hk, hkp⟩ := List.mem_map.1 h'
      have := List.mem_range.1 hk
      simp only [Function.comp] at hkp
      nomega
  obtain ⟨c1, c2, c3, c4, c5⟩ := addSubcircuit_self (w := some (W i)) w3 ((ids3 u).2 (.inl huG))
    ((ids3 p).2 (.inr rfl)) n4
  set G4 := G3.addSubcircuit G3 u p (some (W i)) with hG4
  -- the old child below the proxy product
  have out4p : G4.outEdges p = [] := by rw [c4 p hup.symm, out3 p hup.symm, outp0]
  obtain ⟨d1, d2, d3, d4, d5⟩ := addSubcircuit_self (w := none) (o := c) c1 ((c2 p).2 ((ids3 p).2 (.inr rfl)))
    ((c2 c).2 ((ids3 c).2 (.inl hcG))) (by unfold succ; rw [out4p]; simp)
  set G5 := G4.addSubcircuit G4 p c none with hG5
  have out5p : G5.outEdges p = [⟨p, c, none⟩] := by rw [d5, out4p]; rfl
  have ids5 : ∀ n, n ∈ G5.ids ↔ n ∈ G.ids ∨ n = p := fun n => by rw [d2, c2, ids3]
  have kind5 : ∀ n, G5.kind? n = G2.kind? n := fun n => by rw [d3, c3]; rfl
  have out5u : G5.outEdges u = (g.outEdges u).drop (i + 1) ++
      (List.range (i + 1)).map fun k => (⟨u, b + k, some (W k)⟩ : Edge) := by
    rw [d4 u hup, c5, out3u, List.range_succ, List.map_append, List.append_assoc]
    rfl
  have out5 : ∀ n, n ≠ u → n ≠ p → G5.outEdges n = G.outEdges n := fun n h1 h2 => by
    rw [d4 n h2, c4 n h1, out3 n h1]
  have comp5 : Compatible G5 h := by
    intro n hn hnh
    have hnp : n ≠ p := fun h' => hph (h' ▸ hnh)
    have hnu : n ≠ u := fun h' => hd u hu (h' ▸ hnh)
    have hnG : n ∈ G.ids := ((ids5 n).1 hn).resolve_right hnp
    rw [kind5, a3 n hnG, out5 n hnu hnp]
    exact hG.comp n hnG hnh
  -- the other child below the proxy product
  obtain ⟨f1, f2, f3, f4, f5, f6⟩ := link_step (w := none) d1 hh comp5 (s := p) (x := x) ((ids5 p).2 (.inr rfl)) hph hxh (by
    unfold succ; rw [out5p]
    simp only [List.map_cons, List.map_nil, List.mem_singleton]
    rintro rfl
    exact hd _ hcg hxh)
  have hres : G.joinPair h u p c x (W i) = G5.addSubcircuit (G5.circuitOf h x) p x none := rfl
  rw [hres]
  set G6 := G5.addSubcircuit (G5.circuitOf h x) p x none with hG6
  have out6 : ∀ n ∈ G.ids, n ≠ u → G6.outEdges n = G.outEdges n := by
    intro n hn hnu
    have hnp : n ≠ p := fun h' => hpG (h' ▸ hn)
    rw [f5 n ((ids5 n).2 (.inl hn)) hnp, out5 n hnu hnp]
  have kindG6 : ∀ n ∈ G.ids, G6.kind? n = G.kind? n := fun n hn => by
    rw [f4 n ((ids5 n).2 (.inl hn)), kind5, a3 n hn]
  have hk_mem : ∀ k < i, b + k ∈ G.ids := fun k hk => (hG.ids _).2 (.inr (.inl ⟨k, hk, rfl⟩))
  refine ⟨f1, f2, ?_, ?_, ?_, ?_, ?_, ?_⟩
  · intro n
    rw [f3, ids5, hG.ids]
    constructor
    · rintro (((h' | ⟨k, hk, h'⟩ | ⟨k, hk, h'⟩) | h') | h')
      · exact .inl h'
      · exact .inr (.inl ⟨k, by nomega, h'⟩)
      · exact .inr (.inr ⟨k, by nomega, h'⟩)
      · exact .inr (.inl ⟨i, by nomega, h'⟩)
      · exact .inr (.inr ⟨i, by nomega, by rw [hgetx]; exact h'⟩)
    · rintro (h' | ⟨k, hk, h'⟩ | ⟨k, hk, h'⟩)
      · exact .inl (.inl (.inl h'))
      · rcases Nat.lt_succ_iff_lt_or_eq.1 hk with hk | rfl
        · exact .inl (.inl (.inr (.inl ⟨k, hk, h'⟩)))
        · exact .inl (.inr h')
      · rcases Nat.lt_succ_iff_lt_or_eq.1 hk with hk | rfl
        · exact .inl (.inl (.inr (.inr ⟨k, hk, h'⟩)))
        · rw [hgetx] at h'; exact .inr h'
  · intro n hn
    rw [kindG6 n ((hG.ids n).2 (.inl hn)), hG.kindG n hn]
  · intro n hn hnu
    rw [out6 n ((hG.ids n).2 (.inl hn)) hnu, hG.outG n hn hnu]
  · intro k hk
    rcases Nat.lt_succ_iff_lt_or_eq.1 hk with hk | rfl
    · rw [kindG6 _ (hk_mem k hk), hG.kindP k hk]
    · rw [f4 p ((ids5 p).2 (.inr rfl)), kind5, a4]
  · rw [f5 u ((ids5 u).2 (.inl huG)) hup, out5u]
  · intro k hk
    rcases Nat.lt_succ_iff_lt_or_eq.1 hk with hk | rfl
    · rw [out6 _ (hk_mem k hk) (fun h' => by nomega), hG.outP k hk]
    · rw [f6, out5p, hgetx, List.getD_eq_getElem?_getD, hc]
      rfl

/-- The loop. -/
theorem joined_fold (hg : g.WF) (hh : h.WF) (hd : DisjointIds g h) (hu : u ∈ g.ids) (hbg : ∀ n ∈ g.ids, n < b)
    (hbh : ∀ n ∈ h.ids, n < b) (hos : ∀ x ∈ os, x ∈ h.ids) (lw : List LogP) (hl1 : lw.length = (g.succ u).length)
    (hl2 : (g.succ u).length = os.length) :
    Joined g h u b (fun k => (logOfLog (lw.getD k .negInf)).getD .negInf) os (g.succ u).length
      (((lw.zip (g.succ u)).zip os).zipIdx.foldl (joinStep h u b) (g, false)).1 ∧
    (((lw.zip (g.succ u)).zip os).zipIdx.foldl (joinStep h u b) (g, false)).2 = lw.any fun w => (logOfLog w).isNone := by
  set W : ℕ → LogP := fun k => (logOfLog (lw.getD k .negInf)).getD .negInf with hW
  have hos' : ∀ k < os.length, os.getD k 0 ∈ h.ids := fun k hk => hos _ (getD_mem hk)
  have key : ∀ (l : List ((LogP × Node) × Node)) (i : ℕ), ((lw.zip (g.succ u)).zip os).drop i = l → i ≤ lw.length →
      ∀ s : Graph D × Bool, Joined g h u b W os i s.1 →
      Joined g h u b W os (i + l.length) ((l.zipIdx i).foldl (joinStep h u b) s).1 ∧
        ((l.zipIdx i).foldl (joinStep h u b) s).2 = (s.2 || l.any fun x => (logOfLog x.1.1).isNone) := by
    intro l
    induction l with
    | nil => intro i _ _ s hs; exact ⟨hs, by simp⟩
    | cons x l ih =>
      intro i hdr hi s hs
      have hxi : ((lw.zip (g.succ u)).zip os)[i]? = some x := by
        have := congrArg (fun l => l[0]?) hdr
        simpa [List.getElem?_drop] using this
      obtain ⟨⟨w, c⟩, y⟩ := x
      rw [List.getElem?_zip_eq_some, List.getElem?_zip_eq_some] at hxi
      obtain ⟨⟨h1, h2⟩, h3⟩ := hxi
      dsimp only at h1 h2 h3
      have hstep := joined_step (W := W) hg hh hd hu hbg hbh hos' hs h2 h3
      have hWi : W i = (logOfLog w).getD .negInf := by simp only [hW]; rw [List.getD_eq_getElem?_getD, h1]; rfl
      rw [hWi] at hstep
      have hstep' : Joined g h u b W os (i + 1) (joinStep h u b s (((w, c), y), i)).1 := by
        simp only [joinStep]
        convert hstep using 2
      have hnan : (joinStep h u b s (((w, c), y), i)).2 = (s.2 || (logOfLog w).isNone) := by unfold joinStep; rfl
      rw [List.zipIdx_cons, List.foldl_cons]
      generalize joinStep h u b s (((w, c), y), i) = s' at hstep' hnan ⊢
      have hil : i < lw.length := (List.getElem?_eq_some_iff.1 h1).1
      obtain ⟨r1, r2⟩ := ih (i + 1) (by
        rw [← List.drop_drop, hdr]; rfl) hil s' hstep'
      refine ⟨?_, ?_⟩
      · rw [List.length_cons, Nat.add_comm l.length 1, ← Nat.add_assoc]
        exact r1
      · refine r2.trans ?_
        rw [List.any_cons, hnan, Bool.or_assoc]
  obtain ⟨r1, r2⟩ := key _ 0 (List.drop_zero) (Nat.zero_le _) (g, false) (joined_zero hg hd)
  refine ⟨?_, ?_⟩
  · have : 0 + ((lw.zip (g.succ u)).zip os).length = (g.succ u).length := by
      rw [List.length_zip, List.length_zip]; omega
    rw [this] at r1
    exact r1
  · rw [r2, Bool.false_or]
    have : lw = ((lw.zip (g.succ u)).zip os).map fun x => x.1.1 := by
      have e : (fun x : (LogP × Node) × Node => x.1.1) = Prod.fst ∘ Prod.fst := rfl
      rw [e, ← List.map_map, List.map_fst_zip (by rw [List.length_zip]; omega), List.map_fst_zip (by omega)]
    conv_rhs => rw [this]
    rw [List.any_map]
    rfl

variable {o : Node} {G : Graph D}

/-- Every edge of the result is of one of four sorts. -/
theorem joined_edge (hh : h.WF) (hl : (g.succ u).length = (h.succ o).length)
    (hG : Joined g h u b W (h.succ o) (g.succ u).length G) {e : Edge} (he : e ∈ G.edges) :
    (e ∈ g.edges ∧ e.src ≠ u) ∨ e ∈ h.edges ∨ (∃ k < (g.succ u).length, e = ⟨u, b + k, some (W k)⟩) ∨
      ∃ k < (g.succ u).length, e = ⟨b + k, (g.succ u).getD k 0, none⟩ ∨ e = ⟨b + k, (h.succ o).getD k 0, none⟩ := by
  have hm : e ∈ G.outEdges e.src := mem_outEdges.2 ⟨he, rfl⟩
  rcases (hG.ids _).1 (hG.wf.srcMem e he) with hs | ⟨k, hk, hs⟩ | ⟨k, hk, hr⟩
  · by_cases hsu : e.src = u
    · rw [hsu, hG.outU, List.mem_append] at hm
      rcases hm with hm | hm
      · have : (g.outEdges u).length ≤ (g.succ u).length := by simp [succ]
        rw [List.drop_eq_nil_of_le this] at hm
        cases hm
      · obtain ⟨k, hk, rfl⟩ := List.mem_map.1 hm
        exact .inr (.inr (.inl ⟨k, List.mem_range.1 hk, rfl⟩))
    · rw [hG.outG _ hs hsu] at hm
      exact .inl ⟨(mem_outEdges.1 hm).1, hsu⟩
  · rw [hs, hG.outP k hk] at hm
    simp only [List.mem_cons, List.not_mem_nil, or_false] at hm
    exact .inr (.inr (.inr ⟨k, hk, hm⟩))
  · have hsh := reachable_mem_ids hh (succ_mem_ids hh (getD_mem (hl ▸ hk))) hr
    rw [(hG.comp _ (hG.wf.srcMem e he) hsh).2] at hm
    exact .inr (.inl (mem_outEdges.1 hm).1)

/-- The sorts of units of the result. -/
theorem joined_unit (hh : h.WF) (hl : (g.succ u).length = (h.succ o).length)
    (hG : Joined g h u b W (h.succ o) (g.succ u).length G) {n : Node}
    (hn : n ∈ G.ids) : n = u ∨ (n ∈ g.ids ∧ n ≠ u) ∨ (∃ k < (g.succ u).length, n = b + k) ∨
      (n ∈ h.ids ∧ ∃ k < (g.succ u).length, h.Reachable ((h.succ o).getD k 0) n) := by
  rcases (hG.ids _).1 hn with hs | ⟨k, hk, hs⟩ | ⟨k, hk, hr⟩
  · by_cases h' : n = u
    · exact .inl h'
    · exact .inr (.inl ⟨hs, h'⟩)
  · exact .inr (.inr (.inl ⟨k, hk, hs⟩))
  · exact .inr (.inr (.inr ⟨reachable_mem_ids hh (succ_mem_ids hh (getD_mem (hl ▸ hk))) hr, k, hk, hr⟩))

theorem joined_layered (hg : Layered g u) (hh : Layered h o) (hd : DisjointIds g h) (hbg : ∀ n ∈ g.ids, n < b)
    (hbh : ∀ n ∈ h.ids, n < b) (hku : g.kind? u = some .sum) (hl : (g.succ u).length = (h.succ o).length)
    (hG : Joined g h u b W (h.succ o) (g.succ u).length G) : Layered G u := by
  have hu := (root_mem hg.root).1
  have hing : ∀ (k : Graph D) n, k.inEdges n = [] ↔ ∀ e ∈ k.edges, e.dst ≠ n := by
    intro k n
    unfold inEdges
    rw [List.filter_eq_nil_iff]
    simp
  have hown : ∀ k < (g.succ u).length, (g.succ u).getD k 0 ∈ g.succ u := fun k hk => getD_mem hk
  have hoth : ∀ k < (g.succ u).length, (h.succ o).getD k 0 ∈ h.succ o := fun k hk => getD_mem (hl ▸ hk)
  have hroot : ∀ n, u ∉ g.succ n := by
    intro n hn
    obtain ⟨e, he, _, h2⟩ := mem_succ.1 hn
    exact (hing g u).1 (root_mem hg.root).2 e he h2
  have hcu : ∀ c ∈ g.succ u, c ≠ u := by
    rintro c hc rfl
    exact hroot _ hc
  have hin : ∀ {n : Node} {e : Edge}, e ∈ G.outEdges n → e ∈ G.edges := fun he => (mem_outEdges.1 he).1
  have hub := hbg u hu
  refine ⟨hG.wf, ?_, ?_, ?_, ?_⟩
  · obtain ⟨dg, hdg⟩ := hg.graded
    obtain ⟨dh, hdh⟩ := hh.graded
    refine ⟨fun n => if n = u then dg u + dh o else if n ∈ g.ids then dg n + 1 + dh o
      else if n ∈ h.ids then dg u + 1 + dh n else dg u + dh o + 1, ?_⟩
    intro e he
    rcases joined_edge hh.wf hl hG he with ⟨he, hne⟩ | he | ⟨k, hk, rfl⟩ | ⟨k, hk, rfl | rfl⟩
    · have hdu : e.dst ≠ u := (hing g u).1 (root_mem hg.root).2 e he
      simp only [if_neg hne, if_neg hdu, if_pos (hg.wf.srcMem e he), if_pos (hg.wf.dstMem e he), hdg e he]
      omega
    · have hs := hh.wf.srcMem e he
      have ht := hh.wf.dstMem e he
      have h1 : e.src ∉ g.ids := fun h' => hd _ h' hs
      have h2 : e.dst ∉ g.ids := fun h' => hd _ h' ht
      have h3 : e.src ≠ u := fun h' => h1 (h' ▸ hu)
      have h4 : e.dst ≠ u := fun h' => h2 (h' ▸ hu)
      simp only [if_neg h1, if_neg h2, if_neg h3, if_neg h4, if_pos hs, if_pos ht, hdh e he]
      omega
    · have h1 : b + k ∉ g.ids := fun h' => by have := hbg _ h'; nomega
      have h2 : b + k ∉ h.ids := fun h' => by have := hbh _ h'; nomega
      have h3 : b + k ≠ u := by nomega
      simp only [if_neg h1, if_neg h2, if_neg h3, if_true]
    · have h1 : b + k ∉ g.ids := fun h' => by have := hbg _ h'; nomega
      have h2 : b + k ∉ h.ids := fun h' => by have := hbh _ h'; nomega
      have h3 : b + k ≠ u := by nomega
      have hc := hown k hk
      have h4 : (g.succ u).getD k 0 ≠ u := hcu _ hc
      have h5 := succ_mem_ids hg.wf hc
      simp only [if_neg h1, if_neg h2, if_neg h3, if_neg h4, if_pos h5]
      obtain ⟨e', he', h6, h7⟩ := mem_succ.1 hc
      have h8 := hdg e' he'
      rw [h6, h7] at h8
      rw [h8]
      omega
    · have h1 : b + k ∉ g.ids := fun h' => by have := hbg _ h'; nomega
      have h2 : b + k ∉ h.ids := fun h' => by have := hbh _ h'; nomega
      have h3 : b + k ≠ u := by nomega
      have hc := hoth k hk
      have h5 := succ_mem_ids hh.wf hc
      have h6 : (h.succ o).getD k 0 ∉ g.ids := fun h' => hd _ h' h5
      have h4 : (h.succ o).getD k 0 ≠ u := fun h' => h6 (h' ▸ hu)
      simp only [if_neg h1, if_neg h2, if_neg h3, if_neg h4, if_neg h6, if_pos h5]
      obtain ⟨e', he', h10, h11⟩ := mem_succ.1 hc
      have h12 := hdh e' he'
      rw [h10, h11] at h12
      rw [h12]
      omega
  · intro n d hk
    have hn := mem_ids_of_kind? hk
    rcases joined_unit hh.wf hl hG hn with rfl | ⟨hng, hnu⟩ | ⟨k, hk', rfl⟩ | ⟨hnh, _⟩
    · rw [hG.kindG _ hu, hku] at hk; cases hk
    · rw [hG.kindG n hng] at hk
      unfold succ
      rw [hG.outG n hng hnu]
      exact hg.leaves n d hk
    · rw [hG.kindP k hk'] at hk; cases hk
    · obtain ⟨h1, h2⟩ := hG.comp n hn hnh
      rw [h1] at hk
      unfold succ
      rw [h2]
      exact hh.leaves n d hk
  · intro n hk e he
    have hn := mem_ids_of_kind? hk
    rcases joined_unit hh.wf hl hG hn with rfl | ⟨hng, hnu⟩ | ⟨k, hk', rfl⟩ | ⟨hnh, _⟩
    · rw [hG.outU, List.mem_append] at he
      rcases he with he | he
      · exact hg.weighted _ hku e (List.mem_of_mem_drop he)
      · obtain ⟨k, _, rfl⟩ := List.mem_map.1 he
        rfl
    · rw [hG.kindG n hng] at hk
      rw [hG.outG n hng hnu] at he
      exact hg.weighted n hk e he
    · rw [hG.kindP k hk'] at hk; cases hk
    · obtain ⟨h1, h2⟩ := hG.comp n hn hnh
      rw [h1] at hk
      rw [h2] at he
      exact hh.weighted n hk e he
  · refine root_of hG.wf ((hG.ids u).2 (.inl hu)) ((hing G u).2 ?_) ?_
    · intro e he
      rcases joined_edge hh.wf hl hG he with ⟨he, hne⟩ | he | ⟨k, hk, rfl⟩ | ⟨k, hk, rfl | rfl⟩
      · exact (hing g u).1 (root_mem hg.root).2 e he
      · exact fun h' => hd u hu (h' ▸ hh.wf.dstMem e he)
      · intro h'; simp only at h'; nomega
      · exact hcu _ (hown k hk)
      · exact fun h' => hd u hu (h' ▸ succ_mem_ids hh.wf (hoth k hk))
    · intro n hn h0
      have h0' := (hing G n).1 h0
      have hP : ∀ k < (g.succ u).length, (⟨b + k, (g.succ u).getD k 0, none⟩ : Edge) ∈ G.edges ∧
          (⟨b + k, (h.succ o).getD k 0, none⟩ : Edge) ∈ G.edges := by
        intro k hk
        constructor <;> refine hin (n := b + k) ?_ <;> rw [hG.outP k hk] <;> simp
      rcases joined_unit hh.wf hl hG hn with h' | ⟨hng, hnu⟩ | ⟨k, hk', rfl⟩ | ⟨hnh, k, hk, hr⟩
      · exact h'
      · exfalso
        have : ∃ e ∈ g.edges, e.dst = n := by
          by_contra hcon
          push Not at hcon
          exact hnu (root_unique hg.root hng ((hing g n).2 hcon))
        obtain ⟨e, he, rfl⟩ := this
        by_cases hsu : e.src = u
        · have hc : e.dst ∈ g.succ u := mem_succ.2 ⟨e, he, hsu, rfl⟩
          obtain ⟨k, hk, hkc⟩ := List.getElem_of_mem hc
          refine h0' _ (hP k hk).1 ?_
          rw [List.getD_eq_getElem?_getD, List.getElem?_eq_getElem hk, hkc]
          rfl
        · refine h0' e (hin (n := e.src) ?_) rfl
          rw [hG.outG _ (hg.wf.srcMem e he) hsu]
          exact mem_outEdges.2 ⟨he, rfl⟩
      · exfalso
        refine h0' ⟨u, b + k, some (W k)⟩ (hin (n := u) ?_) rfl
        rw [hG.outU]
        exact List.mem_append_right _ (List.mem_map.2 ⟨k, List.mem_range.2 hk', rfl⟩)
      · exfalso
        rcases Relation.ReflTransGen.cases_tail hr with h' | ⟨m, hm, hmn⟩
        · exact h0' _ (hP k hk).2 h'.symm
        · obtain ⟨e, he, h1, h2⟩ := mem_succ.1 hmn
          have hmG : m ∈ G.ids := (hG.ids m).2 (.inr (.inr ⟨k, hk, hm⟩))
          have hmh := hh.wf.srcMem e he
          rw [h1] at hmh
          refine h0' e (hin (n := m) ?_) h2
          rw [(hG.comp m hmG hmh).2]
          exact mem_outEdges.2 ⟨he, h1⟩

end

section
variable {g h G : Circuit} {u o b : Node} {W : ℕ → LogP}

/-- The leaves of the result are leaves of the two mixtures. -/
theorem joined_leaf (hh : h.WF) (hu : u ∈ g.ids) (hku : g.kind? u = some .sum) (hl : (g.succ u).length = (h.succ o).length)
    (hG : Joined g h u b W (h.succ o) (g.succ u).length G) {n : Node}
    {d : Leaf} (hk : G.kind? n = some (.leaf d)) : g.kind? n = some (.leaf d) ∨ h.kind? n = some (.leaf d) := by
  have hn := mem_ids_of_kind? hk
  rcases joined_unit hh hl hG hn with rfl | ⟨hng, hnu⟩ | ⟨k, hk', rfl⟩ | ⟨hnh, _⟩
  · rw [hG.kindG _ hu, hku] at hk; cases hk
  · rw [hG.kindG n hng] at hk; exact .inl hk
  · rw [hG.kindP k hk'] at hk; cases hk
  · rw [(hG.comp n hn hnh).1] at hk; exact .inr hk

theorem joined_scoped (hg : Layered g u) (hh : Layered h o) (hd : DisjointIds g h) (hbg : ∀ n ∈ g.ids, n < b)
    (hbh : ∀ n ∈ h.ids, n < b) (hku : g.kind? u = some .sum) (hko : h.kind? o = some .sum)
    (hl : (g.succ u).length = (h.succ o).length) (hG : Joined g h u b W (h.succ o) (g.succ u).length G)
    {scg sch : Node → Finset Var} (hsg : Scoped g scg) (hdg : Decomposable g scg) (hsh : Scoped h sch)
    (hdh : Decomposable h sch) (hV : Disjoint (scg u) (sch o)) :
    ∃ sc, Scoped G sc ∧ Decomposable G sc ∧ sc u = scg u ∪ sch o := by
  have hu := (root_mem hg.root).1
  have hub := hbg u hu
  obtain ⟨sc, hsc⟩ : ∃ sc : Node → Finset Var, sc = fun n => if n = u then scg u ∪ sch o else if n ∈ g.ids then scg n
      else if n ∈ h.ids then sch n else scg u ∪ sch o := ⟨_, rfl⟩
  have sU : sc u = scg u ∪ sch o := by rw [hsc]; simp
  have sG : ∀ n ∈ g.ids, n ≠ u → sc n = scg n := by
    intro n hn hnu; rw [hsc]; simp only [if_neg hnu, if_pos hn]
  have sH : ∀ n ∈ h.ids, sc n = sch n := by
    intro n hn
    have h1 : n ∉ g.ids := fun h' => hd n h' hn
    have h2 : n ≠ u := fun h' => h1 (h' ▸ hu)
    rw [hsc]; simp only [if_neg h1, if_neg h2, if_pos hn]
  have sP : ∀ k, sc (b + k) = scg u ∪ sch o := by
    intro k
    have h1 : b + k ∉ g.ids := fun h' => by have := hbg _ h'; nomega
    have h2 : b + k ∉ h.ids := fun h' => by have := hbh _ h'; nomega
    have h3 : b + k ≠ u := by nomega
    rw [hsc]; simp only [if_neg h1, if_neg h2, if_neg h3]
  have hcu : ∀ n, ∀ c ∈ g.succ n, c ≠ u := by
    rintro n c hc rfl
    obtain ⟨e, he, _, h2⟩ := mem_succ.1 hc
    have : e ∈ g.inEdges c := mem_inEdges.2 ⟨he, h2⟩
    rw [(root_mem hg.root).2] at this
    cases this
  have sGc : ∀ n, ∀ c ∈ g.succ n, sc c = scg c := fun n c hc => sG c (succ_mem_ids hg.wf hc) (hcu n c hc)
  have sHc : ∀ n, ∀ c ∈ h.succ n, sc c = sch c := fun n c hc => sH c (succ_mem_ids hh.wf hc)
  have succG : ∀ n ∈ g.ids, n ≠ u → G.succ n = g.succ n := fun n hn hnu => by unfold succ; rw [hG.outG n hn hnu]
  have succH : ∀ n ∈ G.ids, n ∈ h.ids → G.succ n = h.succ n := fun n hn hnh => by
    unfold succ; rw [(hG.comp n hn hnh).2]
  have succU : G.succ u = (List.range (g.succ u).length).map fun k => b + k := by
    unfold succ
    rw [hG.outU, List.drop_eq_nil_of_le (by simp [succ]), List.nil_append, List.map_map]
    rfl
  have succP : ∀ k < (g.succ u).length, G.succ (b + k) = [(g.succ u).getD k 0, (h.succ o).getD k 0] := by
    intro k hk; unfold succ; rw [hG.outP k hk]; rfl
  have sOwn : ∀ k < (g.succ u).length, sc ((g.succ u).getD k 0) = scg u := fun k hk => by
    rw [sGc u _ (getD_mem hk)]
    exact hsg.sum u hku _ (getD_mem hk)
  have sOth : ∀ k < (g.succ u).length, sc ((h.succ o).getD k 0) = sch o := fun k hk => by
    rw [sHc o _ (getD_mem (hl ▸ hk))]
    exact hsh.sum o hko _ (getD_mem (hl ▸ hk))
  refine ⟨sc, ⟨?_, ?_, ?_, ?_⟩, ?_, sU⟩
  · intro n d hk
    have hn := mem_ids_of_kind? hk
    rcases joined_unit hh.wf hl hG hn with rfl | ⟨hng, hnu⟩ | ⟨k, hk', rfl⟩ | ⟨hnh, _⟩
    · rw [hG.kindG _ hu, hku] at hk; cases hk
    · rw [hG.kindG n hng] at hk
      rw [sG n hng hnu]; exact hsg.leaf n d hk
    · rw [hG.kindP k hk'] at hk; cases hk
    · rw [(hG.comp n hn hnh).1] at hk
      rw [sH n hnh]; exact hsh.leaf n d hk
  · intro n hk
    have hn := mem_ids_of_kind? hk
    rcases joined_unit hh.wf hl hG hn with rfl | ⟨hng, hnu⟩ | ⟨k, hk', rfl⟩ | ⟨hnh, _⟩
    · rw [succU]
      have := hsg.sumNe _ hku
      simpa using this
    · rw [hG.kindG n hng] at hk
      rw [succG n hng hnu]; exact hsg.sumNe n hk
    · rw [hG.kindP k hk'] at hk; cases hk
    · rw [(hG.comp n hn hnh).1] at hk
      rw [succH n hn hnh]; exact hsh.sumNe n hk
  · intro n hk c hc
    have hn := mem_ids_of_kind? hk
    rcases joined_unit hh.wf hl hG hn with rfl | ⟨hng, hnu⟩ | ⟨k, hk', rfl⟩ | ⟨hnh, _⟩
    · rw [succU] at hc
      obtain ⟨k, _, rfl⟩ := List.mem_map.1 hc
      rw [sP k, sU]
    · rw [hG.kindG n hng] at hk
      rw [succG n hng hnu] at hc
      rw [sGc n c hc, sG n hng hnu]; exact hsg.sum n hk c hc
    · rw [hG.kindP k hk'] at hk; cases hk
    · rw [(hG.comp n hn hnh).1] at hk
      rw [succH n hn hnh] at hc
      rw [sHc n c hc, sH n hnh]; exact hsh.sum n hk c hc
  · intro n hk v
    have hn := mem_ids_of_kind? hk
    rcases joined_unit hh.wf hl hG hn with rfl | ⟨hng, hnu⟩ | ⟨k, hk', rfl⟩ | ⟨hnh, _⟩
    · rw [hG.kindG _ hu, hku] at hk; cases hk
    · rw [hG.kindG n hng] at hk
      rw [succG n hng hnu, sG n hng hnu, hsg.prod n hk v]
      exact exists_congr fun c => and_congr_right fun hc => by rw [sGc n c hc]
    · rw [succP k hk', sP k]
      simp only [List.mem_cons, List.not_mem_nil, or_false, exists_eq_or_imp, exists_eq_left]
      rw [sOwn k hk', sOth k hk', Finset.mem_union]
    · rw [(hG.comp n hn hnh).1] at hk
      rw [succH n hn hnh, sH n hnh, hsh.prod n hk v]
      exact exists_congr fun c => and_congr_right fun hc => by rw [sHc n c hc]
  · intro n hk
    have hn := mem_ids_of_kind? hk
    rcases joined_unit hh.wf hl hG hn with rfl | ⟨hng, hnu⟩ | ⟨k, hk', rfl⟩ | ⟨hnh, _⟩
    · rw [hG.kindG _ hu, hku] at hk; cases hk
    · rw [hG.kindG n hng] at hk
      rw [succG n hng hnu]
      refine (hdg n hk).imp_of_mem fun {x y} hx hy h' => ?_
      rw [sGc n x hx, sGc n y hy]; exact h'
    · rw [succP k hk', List.pairwise_pair, sOwn k hk', sOth k hk']
      exact hV
    · rw [(hG.comp n hn hnh).1] at hk
      rw [succH n hn hnh]
      refine (hdh n hk).imp_of_mem fun {x y} hx hy h' => ?_
      rw [sHc n x hx, sHc n y hy]; exact h'

/-- The value of the root. -/
theorem joined_value (hg : Layered g u) (hh : Layered h o) (hku : g.kind? u = some .sum)
    (hl : (g.succ u).length = (h.succ o).length) (hG : Joined g h u b W (h.succ o) (g.succ u).length G)
    {ℓ : Leaf → ℝ} {fg fh f : Node → ℝ} (hfg : CircuitValue g ℓ fg) (hfh : CircuitValue h ℓ fh) (hf : CircuitValue G ℓ f) :
    f u = ∑ k ∈ Finset.range (g.succ u).length, (W k).exp * (fg ((g.succ u).getD k 0) * fh ((h.succ o).getD k 0)) := by
  have hu := (root_mem hg.root).1
  have hcu : ∀ n, ∀ c ∈ g.succ n, c ≠ u := by
    rintro n c hc rfl
    obtain ⟨e, he, _, h2⟩ := mem_succ.1 hc
    have : e ∈ g.inEdges c := mem_inEdges.2 ⟨he, h2⟩
    rw [(root_mem hg.root).2] at this
    cases this
  have key_g : ∀ n, n ∈ g.ids → n ≠ u → f n = fg n := by
    refine hg.graded.acyclic.induct (P := fun n => n ∈ g.ids → n ≠ u → f n = fg n) ?_
    intro n ih hn hnu
    have ih' : ∀ e ∈ g.outEdges n, f e.dst = fg e.dst := fun e he =>
      ih _ (dst_mem_succ he) (succ_mem_ids hg.wf (dst_mem_succ he)) (hcu n _ (dst_mem_succ he))
    obtain ⟨k, hk⟩ := exists_kind? hn
    have hk' := (hG.kindG n hn).trans hk
    cases k with
    | leaf d => rw [hf.leaf n d hk', hfg.leaf n d hk]
    | sum =>
      rw [hf.sum n hk', hfg.sum n hk, hG.outG n hn hnu]
      exact congrArg List.sum (List.map_congr_left fun e he => by rw [ih' e he])
    | prod =>
      rw [hf.prod n hk', hfg.prod n hk, hG.outG n hn hnu]
      exact congrArg List.prod (List.map_congr_left fun e he => ih' e he)
  have key_h : ∀ n, n ∈ h.ids → n ∈ G.ids → f n = fh n := by
    refine hh.graded.acyclic.induct (P := fun n => n ∈ h.ids → n ∈ G.ids → f n = fh n) ?_
    intro n ih hn hnG
    obtain ⟨c1, c2⟩ := hG.comp n hnG hn
    have ih' : ∀ e ∈ h.outEdges n, f e.dst = fh e.dst := fun e he =>
      ih _ (dst_mem_succ he) (succ_mem_ids hh.wf (dst_mem_succ he)) (by
        rw [← c2] at he
        exact succ_mem_ids hG.wf (dst_mem_succ he))
    obtain ⟨k, hk⟩ := exists_kind? hn
    have hk' := c1.trans hk
    cases k with
    | leaf d => rw [hf.leaf n d hk', hfh.leaf n d hk]
    | sum =>
      rw [hf.sum n hk', hfh.sum n hk, c2]
      exact congrArg List.sum (List.map_congr_left fun e he => by rw [ih' e he])
    | prod =>
      rw [hf.prod n hk', hfh.prod n hk, c2]
      exact congrArg List.prod (List.map_congr_left fun e he => ih' e he)
  have hp : ∀ k < (g.succ u).length, f (b + k) = fg ((g.succ u).getD k 0) * fh ((h.succ o).getD k 0) := by
    intro k hk
    rw [hf.prod _ (hG.kindP k hk), hG.outP k hk]
    simp only [List.map_cons, List.map_nil, List.prod_cons, List.prod_nil, mul_one]
    have hc := getD_mem (l := g.succ u) hk
    have hc' := getD_mem (l := h.succ o) (hl ▸ hk)
    rw [key_g _ (succ_mem_ids hg.wf hc) (hcu u _ hc), key_h _ (succ_mem_ids hh.wf hc')
      ((hG.ids _).2 (.inr (.inr ⟨k, hk, .refl⟩)))]
  rw [hf.sum u ((hG.kindG u hu).trans hku), hG.outU, List.drop_eq_nil_of_le (by simp [succ]), List.nil_append, List.map_map,
    ← sum_map_range]
  congr 1
  apply List.map_congr_left
  intro k hk
  simp only [Function.comp, linWeight]
  rw [hp k (List.mem_range.1 hk)]

end

end PM.Graph
