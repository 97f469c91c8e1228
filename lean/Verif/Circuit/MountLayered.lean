import Verif.Circuit.MountLemmas
import Verif.Spec.Mounting

/-! # `add_subcircuit`: the resulting circuit -/

namespace PM.Graph

open Spec

variable {D V : Type}

section below

variable {h : Graph D} {o : Node}

theorem below_ids (hw : h.WF) (ho : o ∈ h.ids) {n : Node} :
    n ∈ (h.removeUnreachable o).ids ↔ h.Reachable o n := by
  unfold removeUnreachable
  rw [mem_ids_induced]
  simp only [decide_eq_true_eq]
  rw [mem_layersFrom_iff' hw ho]
  exact ⟨fun h => h.2, fun hr => ⟨reachable_mem_ids hw ho hr, hr⟩⟩

theorem below_kind? (hw : h.WF) (ho : o ∈ h.ids) {n : Node} (hr : h.Reachable o n) :
    (h.removeUnreachable o).kind? n = h.kind? n := by
  unfold removeUnreachable
  rw [kind?_induced, if_pos (by simpa using (mem_layersFrom_iff' hw ho).2 hr)]

theorem below_outEdges (hw : h.WF) (ho : o ∈ h.ids) {n : Node} (hr : h.Reachable o n) :
    (h.removeUnreachable o).outEdges n = h.outEdges n := by
  unfold removeUnreachable
  rw [outEdges_induced (by simpa using (mem_layersFrom_iff' hw ho).2 hr), List.filter_eq_self]
  intro e he
  simp only [decide_eq_true_eq]
  rw [mem_layersFrom_iff' hw ho]
  exact hr.tail (List.mem_map.2 ⟨e, he, rfl⟩)

theorem below_wf (hw : h.WF) : (h.removeUnreachable o).WF := hw.induced _

end below

section step

variable {g h : Graph D} {u o : Node} {w : Option LogP}

theorem _root_.PM.Spec.Compatible.agree (hc : Compatible g h) (hw : h.WF) (ho : o ∈ h.ids) : Agree g (h.removeUnreachable o) := by
  intro n hn hs
  have hr := (below_ids hw ho).1 hs
  rw [below_kind? hw ho hr, below_outEdges hw ho hr]
  exact hc n hn (reachable_mem_ids hw ho hr)

theorem mem_ids_addSubcircuit (hh : h.WF) (ho : o ∈ h.ids) {n : Node} :
    n ∈ (g.addSubcircuit h u o w).ids ↔ n ∈ g.ids ∨ h.Reachable o n := by
  unfold addSubcircuit mount
  rw [ids_addEdge, addCircuit_ids, below_ids hh ho]

theorem kind?_addSubcircuit_left {n : Node} (hn : n ∈ g.ids) :
    (g.addSubcircuit h u o w).kind? n = g.kind? n := by
  unfold addSubcircuit mount
  rw [kind?_addEdge, addCircuit_kind?, if_pos hn]

theorem kind?_addSubcircuit_right (hc : Compatible g h) (hh : h.WF) (ho : o ∈ h.ids) {n : Node} (hr : h.Reachable o n) :
    (g.addSubcircuit h u o w).kind? n = h.kind? n := by
  unfold addSubcircuit mount
  rw [kind?_addEdge, addCircuit_kind?]
  split
  · rename_i hn; exact (hc n hn (reachable_mem_ids hh ho hr)).1
  · exact below_kind? hh ho hr

theorem outEdges_addSubcircuit_left (hc : Compatible g h) (hg : g.WF) (hh : h.WF) (ho : o ∈ h.ids) {n : Node}
    (hn : n ∈ g.ids) (hu : n ≠ u) : (g.addSubcircuit h u o w).outEdges n = g.outEdges n := by
  unfold addSubcircuit mount
  rw [outEdges_addEdge, if_neg hu, addCircuit_outEdges hg (below_wf hh) (hc.agree hh ho), if_pos hn]

theorem outEdges_addSubcircuit_right (hc : Compatible g h) (hg : g.WF) (hh : h.WF) (ho : o ∈ h.ids) {n : Node}
    (hr : h.Reachable o n) (hu : n ≠ u) : (g.addSubcircuit h u o w).outEdges n = h.outEdges n := by
  unfold addSubcircuit mount
  rw [outEdges_addEdge, if_neg hu, addCircuit_outEdges hg (below_wf hh) (hc.agree hh ho)]
  split
  · rename_i hn; exact (hc n hn (reachable_mem_ids hh ho hr)).2
  · exact below_outEdges hh ho hr

theorem outEdges_addSubcircuit_self (hc : Compatible g h) (hg : g.WF) (hh : h.WF) (ho : o ∈ h.ids)
    (hu : u ∈ g.ids) : (g.addSubcircuit h u o w).outEdges u = updOut u (g.outEdges u) o w := by
  unfold addSubcircuit mount
  rw [outEdges_addEdge, if_pos rfl, addCircuit_outEdges hg (below_wf hh) (hc.agree hh ho), if_pos hu]

theorem updOut_new {l : List Edge} (h : o ∉ l.map Edge.dst) : updOut u l o w = l ++ [⟨u, o, w⟩] := by
  unfold updOut
  rw [if_neg]
  simp only [List.any_eq_true, beq_iff_eq, not_exists, not_and]
  intro e he hd
  exact h (hd ▸ List.mem_map_of_mem he)

theorem wf_addSubcircuit (hg : g.WF) (hh : h.WF) (ho : o ∈ h.ids) (hu : u ∈ g.ids) : (g.addSubcircuit h u o w).WF := by
  unfold addSubcircuit mount
  refine wf_addEdge (wf_addCircuit hg (below_wf hh)) (addCircuit_ids.2 (.inl hu)) (addCircuit_ids.2 (.inr ?_))
  exact (below_ids hh ho).2 .refl

/-- Units of the extended circuit from which the extended unit cannot be reached keep their value. -/
theorem eval_addSubcircuit_left (hc : Compatible g h) (hg : g.WF) (hh : h.WF) (ho : o ∈ h.ids) {A : Alg D V}
    {n : Node} {v : V} (hn : n ∈ g.ids) (hr : ¬ g.Reachable n u) :
    Eval (g.addSubcircuit h u o w) A n v ↔ Eval g A n v := by
  refine eval_iff_on (S := fun n => n ∈ g.ids ∧ ¬ g.Reachable n u) ?_ ?_ ?_ ⟨hn, hr⟩
  · rintro n ⟨h1, h2⟩ c hcm
    refine ⟨?_, fun h => h2 (.head hcm h)⟩
    obtain ⟨e, he, _, rfl⟩ := mem_succ.1 hcm
    exact hg.dstMem e he
  · rintro n ⟨h1, _⟩; exact kind?_addSubcircuit_left h1
  · rintro n ⟨h1, h2⟩
    exact outEdges_addSubcircuit_left hc hg hh ho h1 (fun h => h2 (h ▸ .refl))

/-- Units of the added circuit from which the extended unit cannot be reached keep their value. -/
theorem eval_addSubcircuit_right (hc : Compatible g h) (hg : g.WF) (hh : h.WF) (ho : o ∈ h.ids) {A : Alg D V}
    {n : Node} {v : V} (hn : h.Reachable o n) (hr : ¬ h.Reachable n u) :
    Eval (g.addSubcircuit h u o w) A n v ↔ Eval h A n v := by
  refine eval_iff_on (S := fun n => h.Reachable o n ∧ ¬ h.Reachable n u) ?_ ?_ ?_ ⟨hn, hr⟩
  · rintro n ⟨h1, h2⟩ c hcm
    exact ⟨h1.tail hcm, fun h => h2 (.head hcm h)⟩
  · rintro n ⟨h1, _⟩; exact kind?_addSubcircuit_right hc hh ho h1
  · rintro n ⟨h1, h2⟩
    exact outEdges_addSubcircuit_right hc hg hh ho h1 (fun h => h2 (h ▸ .refl))

end step

theorem _root_.PM.Spec.DisjointIds.compatible {g h : Graph D} (hd : DisjointIds g h) : Compatible g h :=
  fun n h1 h2 => absurd h2 (hd n h1)

theorem _root_.PM.Spec.Compatible.refl (g : Graph D) : Compatible g g := fun _ _ _ => ⟨rfl, rfl⟩

/-- A graph that consists of two layered circuits with different units and an edge from a unit of the first, which is no leaf, to the root of
the second is a layered circuit. -/
theorem layered_join {g h k : Graph D} {r u o : Node} {w : Option LogP} (hg : Layered g r) (hh : Layered h o)
    (hd : DisjointIds g h) (hu : u ∈ g.ids) (hk : ∀ d, g.kind? u ≠ some (.leaf d))
    (hsw : g.kind? u = some .sum → w.isSome) (hwf : k.WF) (hids : ∀ n, n ∈ k.ids ↔ n ∈ g.ids ∨ n ∈ h.ids)
    (hkl : ∀ n ∈ g.ids, k.kind? n = g.kind? n) (hkr : ∀ n ∈ h.ids, k.kind? n = h.kind? n)
    (hol : ∀ n ∈ g.ids, n ≠ u → k.outEdges n = g.outEdges n) (hor : ∀ n ∈ h.ids, k.outEdges n = h.outEdges n)
    (hos : k.outEdges u = g.outEdges u ++ [⟨u, o, w⟩]) : Layered k r := by
  have ho : o ∈ h.ids := (root_mem hh.root).1
  have hedge : ∀ e ∈ k.edges, e ∈ g.edges ∨ e ∈ h.edges ∨ e = ⟨u, o, w⟩ := by
    intro e he
    have hm : e ∈ k.outEdges e.src := mem_outEdges.2 ⟨he, rfl⟩
    rcases (hids _).1 (hwf.srcMem e he) with hs | hs
    · by_cases hsu : e.src = u
      · rw [hsu, hos, List.mem_append, List.mem_singleton] at hm
        rcases hm with hm | hm
        · exact .inl (mem_outEdges.1 hm).1
        · exact .inr (.inr hm)
      · rw [hol _ hs hsu] at hm
        exact .inl (mem_outEdges.1 hm).1
    · rw [hor _ hs] at hm
      exact .inr (.inl (mem_outEdges.1 hm).1)
  have hedge' : ∀ e, e ∈ g.edges ∨ e ∈ h.edges ∨ e = ⟨u, o, w⟩ → e ∈ k.edges := by
    intro e he
    rcases he with he | he | rfl
    · have hs := hg.wf.srcMem e he
      by_cases hsu : e.src = u
      · have : e ∈ k.outEdges u := by
          rw [hos]; exact List.mem_append_left _ (mem_outEdges.2 ⟨he, hsu⟩)
        exact (mem_outEdges.1 this).1
      · have : e ∈ k.outEdges e.src := by
          rw [hol _ hs hsu]; exact mem_outEdges.2 ⟨he, rfl⟩
        exact (mem_outEdges.1 this).1
    · have : e ∈ k.outEdges e.src := by
        rw [hor _ (hh.wf.srcMem e he)]; exact mem_outEdges.2 ⟨he, rfl⟩
      exact (mem_outEdges.1 this).1
    · have : (⟨u, o, w⟩ : Edge) ∈ k.outEdges u := by
        rw [hos]; simp
      exact (mem_outEdges.1 this).1
  refine ⟨hwf, ?_, ?_, ?_, ?_⟩
  · obtain ⟨dg, hdg⟩ := hg.graded
    obtain ⟨dh, hdh⟩ := hh.graded
    refine ⟨fun n => if n ∈ g.ids then dg n + dh o else dg u + 1 + dh n, ?_⟩
    intro e he
    simp only
    rcases hedge e he with he | he | rfl
    · rw [if_pos (hg.wf.srcMem e he), if_pos (hg.wf.dstMem e he), hdg e he]; omega
    · rw [if_neg (fun hm => hd _ hm (hh.wf.srcMem e he)), if_neg (fun hm => hd _ hm (hh.wf.dstMem e he)), hdh e he]
      omega
    · rw [if_pos hu, if_neg (fun hm => hd _ hm ho)]
      show dg u + 1 + dh o = dg u + dh o + 1
      omega
  · intro n d hkn
    rcases (hids n).1 (mem_ids_of_kind? hkn) with hn | hn
    · rw [hkl n hn] at hkn
      have hnu : n ≠ u := fun h => hk d (h ▸ hkn)
      unfold succ; rw [hol n hn hnu]; exact hg.leaves n d hkn
    · rw [hkr n hn] at hkn
      unfold succ; rw [hor n hn]; exact hh.leaves n d hkn
  · intro n hkn e he
    rcases (hids n).1 (mem_ids_of_kind? hkn) with hn | hn
    · rw [hkl n hn] at hkn
      by_cases hnu : n = u
      · subst hnu
        rw [hos, List.mem_append, List.mem_singleton] at he
        rcases he with he | rfl
        · exact hg.weighted n hkn e he
        · exact hsw hkn
      · rw [hol n hn hnu] at he
        exact hg.weighted n hkn e he
    · rw [hkr n hn] at hkn
      rw [hor n hn] at he
      exact hh.weighted n hkn e he
  · have hin : ∀ n, k.inEdges n = [] ↔ ∀ e ∈ k.edges, e.dst ≠ n := by
      intro n
      unfold inEdges
      rw [List.filter_eq_nil_iff]
      simp
    have hing : ∀ (k' : Graph D) n, k'.inEdges n = [] ↔ ∀ e ∈ k'.edges, e.dst ≠ n := by
      intro k' n
      unfold inEdges
      rw [List.filter_eq_nil_iff]
      simp
    obtain ⟨hr1, hr2⟩ := root_mem hg.root
    refine root_of hwf ((hids r).2 (.inl hr1)) ((hin r).2 ?_) ?_
    · intro e he
      rcases hedge e he with he | he | rfl
      · exact (hing g r).1 hr2 e he
      · exact fun h' => hd r hr1 (h' ▸ hh.wf.dstMem e he)
      · exact fun h' => hd r hr1 (h' ▸ ho)
    · intro n hn h0
      have h0' := (hin n).1 h0
      rcases (hids n).1 hn with hn | hn
      · exact root_unique hg.root hn ((hing g n).2 fun e he => h0' e (hedge' e (.inl he)))
      · have : n = o := root_unique hh.root hn ((hing h n).2 fun e he => h0' e (hedge' e (.inr (.inl he))))
        subst this
        exact absurd rfl (h0' ⟨u, n, w⟩ (hedge' _ (.inr (.inr rfl))))

/-- Adding the root of a circuit with other units below a unit that is no leaf gives a layered circuit again. -/
theorem layered_addSubcircuit {g h : Graph D} {r u o : Node} {w : Option LogP} (hg : Layered g r) (hh : Layered h o)
    (hd : DisjointIds g h) (hu : u ∈ g.ids) (hk : ∀ d, g.kind? u ≠ some (.leaf d))
    (hsw : g.kind? u = some .sum → w.isSome) :
    Layered (g.addSubcircuit h u o w) r ∧
      (∀ n, n ∈ (g.addSubcircuit h u o w).ids ↔ n ∈ g.ids ∨ n ∈ h.ids) ∧
      (∀ n ∈ g.ids, (g.addSubcircuit h u o w).kind? n = g.kind? n) ∧
      (∀ n ∈ h.ids, (g.addSubcircuit h u o w).kind? n = h.kind? n) ∧
      (∀ n ∈ g.ids, n ≠ u → (g.addSubcircuit h u o w).outEdges n = g.outEdges n) ∧
      (∀ n ∈ h.ids, (g.addSubcircuit h u o w).outEdges n = h.outEdges n) ∧
      (g.addSubcircuit h u o w).outEdges u = g.outEdges u ++ [⟨u, o, w⟩] := by
  have ho : o ∈ h.ids := (root_mem hh.root).1
  have hc := hd.compatible
  have hreach : ∀ n, h.Reachable o n ↔ n ∈ h.ids := fun n =>
    ⟨reachable_mem_ids hh.wf ho, reachable_of_root hh.wf hh.graded.acyclic hh.root n⟩
  have hids : ∀ n, n ∈ (g.addSubcircuit h u o w).ids ↔ n ∈ g.ids ∨ n ∈ h.ids := by
    intro n; rw [mem_ids_addSubcircuit hh.wf ho, hreach]
  have hkl : ∀ n ∈ g.ids, (g.addSubcircuit h u o w).kind? n = g.kind? n := fun n hn => kind?_addSubcircuit_left hn
  have hkr : ∀ n ∈ h.ids, (g.addSubcircuit h u o w).kind? n = h.kind? n := fun n hn =>
    kind?_addSubcircuit_right hc hh.wf ho ((hreach n).2 hn)
  have hol : ∀ n ∈ g.ids, n ≠ u → (g.addSubcircuit h u o w).outEdges n = g.outEdges n := fun n hn hne =>
    outEdges_addSubcircuit_left hc hg.wf hh.wf ho hn hne
  have hor : ∀ n ∈ h.ids, (g.addSubcircuit h u o w).outEdges n = h.outEdges n := fun n hn =>
    outEdges_addSubcircuit_right hc hg.wf hh.wf ho ((hreach n).2 hn) (fun h => hd u hu (h ▸ hn))
  have hos : (g.addSubcircuit h u o w).outEdges u = g.outEdges u ++ [⟨u, o, w⟩] := by
    rw [outEdges_addSubcircuit_self hc hg.wf hh.wf ho hu, updOut_new]
    intro hm
    obtain ⟨e, he, hd'⟩ := List.mem_map.1 hm
    exact hd o (hd' ▸ hg.wf.dstMem e (mem_outEdges.1 he).1) ho
  have hwf : (g.addSubcircuit h u o w).WF := wf_addSubcircuit hg.wf hh.wf ho hu
  exact ⟨layered_join hg hh hd hu hk hsw hwf hids hkl hkr hol hor hos, hids, hkl, hkr, hol, hor, hos⟩

theorem layered_newUnit (n : Node) (k : Kind D) : Layered (newUnit n k) n where
  wf := ⟨by simp [newUnit, ids], by simp [newUnit], by simp [newUnit], by simp [newUnit]⟩
  graded := ⟨fun _ => 0, by simp [newUnit]⟩
  leaves := by intro m d _; simp [newUnit, succ, outEdges]
  weighted := by intro m _ e he; simp [newUnit, outEdges] at he
  root := by simp [newUnit, root, ids, inDegree, inEdges]

@[simp] theorem ids_newUnit (n : Node) (k : Kind D) : (newUnit n k).ids = [n] := rfl
@[simp] theorem outEdges_newUnit (n : Node) (k : Kind D) (m : Node) : (newUnit n k).outEdges m = [] := rfl
@[simp] theorem kind?_newUnit (n : Node) (k : Kind D) : (newUnit n k).kind? n = some k := by
  simp [newUnit, kind?]

/-- What a loop of `add_subcircuit` calls produces. -/
structure Assembled (g : Graph D) (u : Node) (l : List (Graph D × Node × Option LogP)) (g' : Graph D) (r : Node) :
    Prop where
  layered : Layered g' r
  ids : ∀ n, n ∈ g'.ids ↔ n ∈ g.ids ∨ ∃ x ∈ l, n ∈ x.1.ids
  kindL : ∀ n ∈ g.ids, g'.kind? n = g.kind? n
  kindR : ∀ x ∈ l, ∀ n ∈ x.1.ids, g'.kind? n = x.1.kind? n
  outL : ∀ n ∈ g.ids, n ≠ u → g'.outEdges n = g.outEdges n
  outR : ∀ x ∈ l, ∀ n ∈ x.1.ids, g'.outEdges n = x.1.outEdges n
  outU : g'.outEdges u = g.outEdges u ++ l.map fun x => ⟨u, x.2.1, x.2.2⟩

theorem assembled_addAll {u r : Node} : ∀ (l : List (Graph D × Node × Option LogP)) {g : Graph D}, Layered g r →
    u ∈ g.ids → (∀ d, g.kind? u ≠ some (.leaf d)) → (g.kind? u = some .sum → ∀ x ∈ l, x.2.2.isSome) →
    (∀ x ∈ l, Layered x.1 x.2.1) → (∀ x ∈ l, DisjointIds g x.1) → l.Pairwise (fun x y => DisjointIds x.1 y.1) →
    Assembled g u l (g.addAll u l) r := by
  intro l
  induction l with
  | nil =>
    intro g hg _ _ _ _ _ _
    exact ⟨hg, by simp [addAll], fun _ _ => rfl, by simp, fun _ _ _ => rfl, by simp, by simp [addAll]⟩
  | cons x l ih =>
    intro g hg hu hk hsw hl hd hp
    obtain ⟨h1, h2, h3, h4, h5, h6, h7⟩ := layered_addSubcircuit (w := x.2.2) hg (hl x (by simp)) (hd x (by simp)) hu hk
      (fun h => hsw h x (by simp))
    rw [List.pairwise_cons] at hp
    have hA := ih h1 ((h2 u).2 (.inl hu)) (by intro d; rw [h3 u hu]; exact hk d)
      (by rw [h3 u hu]; exact fun h y hy => hsw h y (by simp [hy])) (fun y hy => hl y (by simp [hy]))
      (by
        intro y hy n hn
        rcases (h2 n).1 hn with hn | hn
        · exact hd y (by simp [hy]) n hn
        · exact hp.1 y hy n hn) hp.2
    have hux : u ∉ x.1.ids := hd x (by simp) u hu
    refine ⟨hA.layered, ?_, ?_, ?_, ?_, ?_, ?_⟩
    · intro n
      have := hA.ids n
      rw [h2] at this
      simp only [List.mem_cons, exists_eq_or_imp]
      rw [show (g.addAll u (x :: l)) = (g.addSubcircuit x.1 u x.2.1 x.2.2).addAll u l from rfl, this]
      tauto
    · intro n hn
      exact (hA.kindL n ((h2 n).2 (.inl hn))).trans (h3 n hn)
    · intro y hy n hn
      rcases List.mem_cons.1 hy with rfl | hy
      · exact (hA.kindL n ((h2 n).2 (.inr hn))).trans (h4 n hn)
      · exact hA.kindR y hy n hn
    · intro n hn hne
      exact (hA.outL n ((h2 n).2 (.inl hn)) hne).trans (h5 n hn hne)
    · intro y hy n hn
      rcases List.mem_cons.1 hy with rfl | hy
      · exact (hA.outL n ((h2 n).2 (.inr hn)) (fun h => hux (h ▸ hn))).trans (h6 n hn)
      · exact hA.outR y hy n hn
    · have := hA.outU
      rw [h7] at this
      rw [show (g.addAll u (x :: l)) = (g.addSubcircuit x.1 u x.2.1 x.2.2).addAll u l from rfl, this]
      simp

/-- The mounted circuits keep their values. -/
theorem Assembled.eval {g g' : Graph D} {u r : Node} {l : List (Graph D × Node × Option LogP)}
    (hA : Assembled g u l g' r) {x : Graph D × Node × Option LogP} (hx : x ∈ l) (hw : x.1.WF) {A : Alg D V} {n : Node}
    {v : V} (hn : n ∈ x.1.ids) : Eval g' A n v ↔ Eval x.1 A n v := by
  refine eval_iff_on (S := fun n => n ∈ x.1.ids) ?_ (fun n hn => hA.kindR x hx n hn) (fun n hn => hA.outR x hx n hn) hn
  intro n _ c hc
  obtain ⟨e, he, _, rfl⟩ := mem_succ.1 hc
  exact hw.dstMem e he

end PM.Graph
