import Verif.Circuit.SimplifyLemmas

/-! Each step of `simplify`; helper lemmas for C11. -/

namespace PM.Graph

open Spec

/-- `g'` with root `r'` is a rewritten `g` with root `r`: units keep their class and distribution, every valuation and
every scope assignment of `g` is one of `g'`, and the roots agree. -/
structure Rewrites (g g' : Circuit) (r r' : Node) : Prop where
  kind : ∀ n k, g'.kind? n = some k → g.kind? n = some k
  value : ∀ ℓ f, g.EffValue ℓ f → g'.EffValue ℓ f ∧ f r' = f r
  scope : ∀ sc, Scoped g sc → Decomposable g sc → Scoped g' sc ∧ Decomposable g' sc ∧ sc r' = sc r
  root : g'.root = .ok r'
  tree : TreeShaped g → TreeShaped g'

theorem Rewrites.refl {g : Circuit} {r : Node} (hr : g.root = .ok r) : Rewrites g g r r :=
  ⟨fun _ _ h => h, fun _ _ h => ⟨h, rfl⟩, fun _ h h' => ⟨h, h', rfl⟩, hr, id⟩

theorem Rewrites.trans {g g' g'' : Circuit} {r r' r'' : Node} (h : Rewrites g g' r r') (h' : Rewrites g' g'' r' r'') :
    Rewrites g g'' r r'' := by
  refine ⟨fun n k hk => h.kind n k (h'.kind n k hk), ?_, ?_, h'.root, fun ht => h'.tree (h.tree ht)⟩
  · intro ℓ f hf
    obtain ⟨h1, h2⟩ := h.value ℓ f hf
    obtain ⟨h3, h4⟩ := h'.value ℓ f h1
    exact ⟨h3, h4.trans h2⟩
  · intro sc h1 h2
    obtain ⟨h3, h4, h5⟩ := h.scope sc h1 h2
    obtain ⟨h6, h7, h8⟩ := h'.scope sc h3 h4
    exact ⟨h6, h7, h8.trans h5⟩

variable {g : Circuit} {depth : Node → Nat} {r : Node}

theorem addEdge_new {D : Type} {g : Graph D} {u v : Node} {w : Option LogP}
    (h : ∀ e ∈ g.edges, ¬ (e.src = u ∧ e.dst = v)) : g.addEdge u v w = { g with edges := g.edges ++ [⟨u, v, w⟩] } := by
  unfold addEdge
  rw [if_neg]
  simp only [List.any_eq_true, Bool.and_eq_true, beq_iff_eq, not_exists, not_and]
  intro e he h1 h2
  exact h e he ⟨h1, h2⟩

theorem addEdge_none {D : Type} {g : Graph D} {u v : Node} (h : v ∈ g.succ u) : g.addEdge u v none = g := by
  unfold addEdge
  rw [if_pos]
  · have : (g.edges.map fun e => if (e.src == u && e.dst == v) = true then
        { e with weight := (none : Option LogP).or e.weight } else e) = g.edges := by
      conv_rhs => rw [← List.map_id g.edges]
      apply List.map_congr_left
      intro e _
      split <;> simp
    rw [this]
  · obtain ⟨e, he, h1, h2⟩ := mem_succ.1 h
    simp only [List.any_eq_true, Bool.and_eq_true, beq_iff_eq]
    exact ⟨e, he, h1, h2⟩

theorem foldl_addEdge_new {D : Type} (n : Node) : ∀ (ps : List (Option LogP × Node)) (g : Graph D),
    (ps.map Prod.snd).Nodup → (∀ e ∈ g.edges, e.src = n → e.dst ∉ ps.map Prod.snd) →
    ps.foldl (fun g p => g.addEdge n p.2 p.1) g = { g with edges := g.edges ++ ps.map fun p => ⟨n, p.2, p.1⟩ } := by
  intro ps
  induction ps with
  | nil => intro g _ _; simp
  | cons p ps ih =>
    intro g hnd hno
    simp only [List.map_cons, List.nodup_cons] at hnd
    rw [List.foldl_cons, addEdge_new (by
      rintro e he ⟨h1, h2⟩
      exact hno e he h1 (by simp [h2])), ih _ hnd.2]
    · simp
    · intro e he hs
      simp only [List.mem_append, List.mem_singleton] at he
      rcases he with he | rfl
      · intro h'; exact hno e he hs (by simp [h'])
      · exact hnd.1

theorem isSome_weight (hI : RwInv depth g) {n : Node} (hn : g.kind? n = some .sum) :
    ∀ e ∈ g.outEdges n, e.weight.isSome := by
  intro e he
  obtain ⟨x, hx⟩ := hI.pos n hn e he
  simp [hx]

theorem splice_rewrites (hI : RwInv depth g) (hr : g.root = .ok r) {x : Node} {ep : Edge} {h : Edge → Option LogP}
    {q : Edge → ℝ} (hP : Private g ep x) (hAB : (∃ e₀, g.outEdges x = [e₀]) ∨ g.kind? x = some .sum)
    (hq : ((g.outEdges x).map q).sum = 1)
    (hval : ∀ ℓ f, g.EffValue ℓ f → f x = ((g.outEdges x).map fun e => q e * f e.dst).sum)
    (hfin : g.kind? ep.src = some .sum → ∀ e ∈ g.outEdges x, ∃ y, h e = some (.fin y))
    (hlen : ((g.splice x ep.src h).succ ep.src).length = 1 ↔ (g.succ ep.src).length = 1)
    (hs : g.kind? ep.src = some .sum → ∀ e ∈ g.outEdges x,
      (g.splice x ep.src h).effW ⟨ep.src, e.dst, h e⟩ = g.effW ep * q e)
    (hp : g.kind? ep.src = some .prod → ∃ e₀, g.outEdges x = [e₀])
    (hsc : ∀ sc, Scoped g sc → ∀ e ∈ g.outEdges x, sc e.dst = sc x) :
    RwInv depth (g.splice x ep.src h) ∧ Rewrites g (g.splice x ep.src h) r r := by
  have hI' := splice_inv hI hP hAB hq hfin hlen hs
  refine ⟨hI', ⟨?_, ?_, ?_, splice_root hI' hP hr, ?_⟩⟩
  · intro n k hn
    rw [kind?_splice] at hn
    split at hn
    · cases hn
    · exact hn
  · intro ℓ f hf
    exact ⟨splice_value hI.wf hP hq hval hlen hs hp hf, rfl⟩
  · intro sc h1 h2
    have hne : g.outEdges x ≠ [] := by intro h0; rw [h0] at hq; simp at hq
    obtain ⟨h3, h4⟩ := splice_scopes (h := h) hP hne hp h1 h2 (hsc sc h1)
    exact ⟨h3, h4, rfl⟩
  · intro ht e he e' he' hdst
    rcases mem_edges_splice.1 he with ⟨h1, h2, h3⟩ | ⟨e1, h1, h2, rfl⟩ <;>
      rcases mem_edges_splice.1 he' with ⟨h1', h2', h3'⟩ | ⟨e1', h1', h2', rfl⟩
    · exact ht e h1 e' h1' hdst
    · exact absurd (ht e h1 e1' h1' hdst) (by rw [h2']; exact h2)
    · exact absurd (ht e1 h1 e' h1' hdst) (by rw [h2]; exact Ne.symm h2')
    · rfl

/-! ### A unit with a single child -/

/-- What a single-child inner unit passes on. -/
theorem single_child {n c : Node} (hn : g.kind? n = some .sum ∨ g.kind? n = some .prod)
    (hc : g.succ n = [c]) : ∃ e₀, g.outEdges n = [e₀] ∧ e₀.dst = c ∧ e₀ ∈ g.edges ∧ e₀.src = n ∧
      (∀ ℓ f, g.EffValue ℓ f → f n = f c) ∧ (∀ sc, Scoped g sc → sc c = sc n) := by
  unfold succ at hc
  rw [List.map_eq_singleton_iff] at hc
  obtain ⟨e₀, he₀, hd⟩ := hc
  have hmem : e₀ ∈ g.edges ∧ e₀.src = n := mem_outEdges.1 (he₀ ▸ List.mem_singleton.2 rfl)
  refine ⟨e₀, he₀, hd, hmem.1, hmem.2, ?_, ?_⟩
  · intro ℓ f hf
    rcases hn with hn | hn
    · have h1 := hf.sum n hn
      have h2 : g.effW e₀ = 1 := by
        unfold effW
        rw [if_pos]
        rw [hmem.2]; simp [succ, he₀]
      rw [he₀] at h1
      simp only [List.map_cons, List.map_nil, List.sum_cons, List.sum_nil, add_zero] at h1
      rw [h1, h2, hd, one_mul]
    · have h1 := hf.prod n hn
      rw [he₀] at h1
      simpa [hd] using h1
  · intro sc hs
    have hc : c ∈ g.succ n := by simp [succ, he₀, hd]
    rcases hn with hn | hn
    · exact hs.sum n hn c hc
    · ext v
      rw [hs.prod n hn v]
      simp [succ, he₀, hd]

theorem private_collapse (hI : RwInv depth g) {n : Node} {e₀ ep : Edge}
    (hn : g.kind? n = some .sum ∨ g.kind? n = some .prod) (ho : g.outEdges n = [e₀]) (hep : ep ∈ g.edges)
    (hd : ep.dst = n) : Private g ep n := by
  have hlen : ¬ 2 ≤ (g.succ n).length := by simp [succ, ho]
  refine ⟨hep, hd, ?_, ?_⟩
  · intro e he hdst
    by_contra hne
    have hs : e.src ≠ ep.src := fun h => hne (hI.wf.edge_ext he hep h (hdst.trans hd.symm))
    rcases (hI.shared e he ep hep (hdst.trans hd.symm) hs).2 with ⟨d, h⟩ | ⟨h, _⟩
    · rw [hdst] at h; rcases hn with h' | h' <;> rw [h'] at h <;> cases h
    · exact hlen (hdst ▸ h)
  · intro e he hsrc e' he' hdst
    by_contra hne
    have hs : e.src ≠ e'.src := fun h => hne (hI.wf.edge_ext he' he h.symm hdst)
    exact hlen (hsrc ▸ (hI.shared e he e' he' hdst.symm hs).1.1)

theorem child_private (hI : RwInv depth g) {n : Node} {e₀ : Edge} (ho : g.outEdges n = [e₀]) :
    ∀ e ∈ g.edges, e.dst = e₀.dst → e = e₀ := by
  have hlen : ¬ 2 ≤ (g.succ n).length := by simp [succ, ho]
  have he₀ := mem_outEdges.1 (show e₀ ∈ g.outEdges n by simp [ho])
  intro e he hdst
  by_contra hne
  have hs : e₀.src ≠ e.src := fun h => hne (hI.wf.edge_ext he he₀.1 h.symm hdst)
  exact hlen (he₀.2 ▸ (hI.shared e₀ he₀.1 e he hdst.symm hs).1.1)

theorem private_absorb (hI : RwInv depth g) {n s : Node} {ep : Edge} (hn : g.kind? n = some .sum)
    (hs : g.kind? s = some .sum) (hep : ep ∈ g.edges) (h1 : ep.src = n) (h2 : ep.dst = s) : Private g ep s := by
  refine ⟨hep, h2, ?_, ?_⟩
  · intro e he hdst
    by_contra hne
    have hsr : ep.src ≠ e.src := fun h => hne (hI.wf.edge_ext he hep h.symm (hdst.trans h2.symm))
    rcases (hI.shared ep hep e he (h2.trans hdst.symm) hsr).2 with ⟨d, h⟩ | ⟨_, h⟩
    · rw [h2, hs] at h; cases h
    · have := h (h2 ▸ hs)
      rw [h1, hn] at this; cases this
  · intro e he hsrc e' he' hdst
    by_contra hne
    have hsr : e.src ≠ e'.src := fun h => hne (hI.wf.edge_ext he' he h.symm hdst)
    rcases (hI.shared e he e' he' hdst.symm hsr).1.2 with h | ⟨_, h⟩
    · rw [hsrc, hs] at h; cases h
    · have := (h ep hep (h2.trans hsrc.symm)).1
      rw [h1, hn] at this; cases this

theorem inEdges_single (hI : RwInv depth g) {n : Node} {e₀ : Edge}
    (hn : g.kind? n = some .sum ∨ g.kind? n = some .prod) (ho : g.outEdges n = [e₀]) :
    g.inEdges n = [] ∨ ∃ ep, g.inEdges n = [ep] := by
  cases h : g.inEdges n with
  | nil => exact .inl rfl
  | cons a l =>
    right
    refine ⟨a, ?_⟩
    have hnd : (g.inEdges n).Nodup := hI.wf.edges_nodup.filter _
    cases l with
    | nil => rfl
    | cons b l =>
      exfalso
      have ha : a ∈ g.inEdges n := by simp [h]
      have hb : b ∈ g.inEdges n := by simp [h]
      rw [mem_inEdges] at ha hb
      have := (private_collapse hI hn ho ha.1 ha.2).only b hb.1 hb.2
      rw [h] at hnd
      simp [this] at hnd

theorem collapse_eq (hI : RwInv depth g) {n c : Node} {ep e₀ : Edge} (hin : g.inEdges n = [ep])
    (ho : g.outEdges n = [e₀]) (hd : e₀.dst = c) :
    (g.connectIncoming n c).removeNode n = g.splice n ep.src (fun _ => ep.weight) := by
  have hep : ep ∈ g.edges ∧ ep.dst = n := mem_inEdges.1 (by simp [hin])
  have he : e₀ ∈ g.edges ∧ e₀.src = n := mem_outEdges.1 (by simp [ho])
  have h1 := hI.desc ep hep.1
  have h2 := hI.desc e₀ he.1
  rw [hep.2] at h1
  rw [he.2, hd] at h2
  have hpn : ep.src ≠ n := by rintro h; rw [h] at h1; omega
  have hcn : c ≠ n := by rintro rfl; omega
  unfold connectIncoming
  rw [hin, List.foldl_cons, List.foldl_nil, addEdge_new]
  · simp only [removeNode, splice, List.filter_append, ho]
    congr 2
    simp [hpn, hcn, hd]
  · rintro e hemem ⟨h3, h4⟩
    have := child_private hI ho e hemem (h4.trans hd.symm)
    exact hpn (h3 ▸ this ▸ he.2)

theorem outEdges_removeRoot {D : Type} {g : Graph D} {n k : Node} (h0 : g.inEdges n = []) (hk : k ≠ n) :
    (g.removeNode n).outEdges k = g.outEdges k := by
  rw [inEdges_eq_nil] at h0
  simp only [removeNode, outEdges, List.filter_filter]
  apply List.filter_congr
  intro e he
  have := h0 e he
  by_cases hs : e.src = k
  · subst hs
    simp [hk, this]
  · rw [beq_eq_false_iff_ne.2 hs, Bool.false_and]

theorem effW_removeRoot {D : Type} {g : Graph D} {n k : Node} {e : Edge} (h0 : g.inEdges n = []) (he : e.src = k)
    (hk : k ≠ n) : (g.removeNode n).effW e = g.effW e := by
  unfold effW
  have : (g.removeNode n).succ e.src = g.succ e.src := by rw [he]; simp only [succ, outEdges_removeRoot h0 hk]
  rw [this]

theorem mem_ids_removeNode {D : Type} {g : Graph D} {n k : Node} : k ∈ (g.removeNode n).ids ↔ k ∈ g.ids ∧ k ≠ n := by
  simp only [removeNode, ids, List.mem_map, List.mem_filter, Bool.not_eq_true', beq_eq_false_iff_ne]
  constructor
  · rintro ⟨q, ⟨h1, h2⟩, rfl⟩; exact ⟨⟨q, h1, rfl⟩, h2⟩
  · rintro ⟨⟨q, h1, rfl⟩, h2⟩; exact ⟨q, ⟨h1, h2⟩, rfl⟩

theorem mem_edges_removeNode {D : Type} {g : Graph D} {n : Node} {e : Edge} :
    e ∈ (g.removeNode n).edges ↔ e ∈ g.edges ∧ e.src ≠ n ∧ e.dst ≠ n := by
  simp [removeNode]

theorem WF.removeNode {D : Type} {g : Graph D} (hw : g.WF) (n : Node) : (g.removeNode n).WF := by
  refine ⟨?_, ?_, ?_, ?_⟩
  · have := hw.nodup
    unfold ids at this ⊢
    exact this.sublist (List.Sublist.map _ List.filter_sublist)
  · exact hw.edgeNodup.sublist (List.Sublist.map _ List.filter_sublist)
  · intro e he
    rw [mem_edges_removeNode] at he
    exact mem_ids_removeNode.2 ⟨hw.srcMem e he.1, he.2.1⟩
  · intro e he
    rw [mem_edges_removeNode] at he
    exact mem_ids_removeNode.2 ⟨hw.dstMem e he.1, he.2.2⟩

theorem removeRoot_inv (hI : RwInv depth g) {n : Node} (h0 : g.inEdges n = []) :
    RwInv depth (g.removeNode n) := by
  have hk : ∀ {k t}, (g.removeNode n).kind? k = some t → k ≠ n ∧ g.kind? k = some t := by
    intro k t h
    rw [kind?_removeNode] at h
    split at h
    · cases h
    · exact ⟨by assumption, h⟩
  refine ⟨hI.wf.removeNode n, ?_, ?_, ?_, ?_, ?_⟩
  · have hk' : ∀ {k t}, k ≠ n → g.kind? k = some t → (g.removeNode n).kind? k = some t := by
      intro k t h1 h2
      rw [kind?_removeNode, if_neg h1]; exact h2
    have hlen : ∀ {k}, k ≠ n → (g.removeNode n).succ k = g.succ k := by
      intro k h1; simp only [succ, outEdges_removeRoot h0 h1]
    intro e he e' he' hdst hsrc
    obtain ⟨h1, h2, h3⟩ := mem_edges_removeNode.1 he
    obtain ⟨h1', h2', h3'⟩ := mem_edges_removeNode.1 he'
    obtain ⟨⟨ha, hb⟩, hc⟩ := hI.shared e h1 e' h1' hdst hsrc
    refine ⟨⟨by rw [hlen h2]; exact ha, hb.imp (hk' h2) ?_⟩, hc.imp ?_ ?_⟩
    · rintro ⟨hb1, hb2⟩
      refine ⟨hk' h2 hb1, ?_⟩
      intro e2 he2 hd2
      obtain ⟨g1, g2, g3⟩ := mem_edges_removeNode.1 he2
      obtain ⟨g4, g5⟩ := hb2 e2 g1 hd2
      exact ⟨hk' g2 g4, by rw [hlen g2]; exact g5⟩
    · rintro ⟨d, h4⟩; exact ⟨d, hk' h3 h4⟩
    · rintro ⟨h4, h5⟩
      exact ⟨by rw [hlen h3]; exact h4, fun h6 => hk' h2 (h5 (hk h6).2)⟩
  · intro e he; exact hI.desc e (mem_edges_removeNode.1 he).1
  · intro k d h
    obtain ⟨h1, h2⟩ := hk h
    simp only [succ, outEdges_removeRoot h0 h1]
    exact hI.leaves k d h2
  · intro k h
    obtain ⟨h1, h2⟩ := hk h
    rw [outEdges_removeRoot h0 h1]
    exact hI.pos k h2
  · intro k h
    obtain ⟨h1, h2⟩ := hk h
    rw [outEdges_removeRoot h0 h1, ← hI.norm k h2]
    congr 1
    exact List.map_congr_left fun e he => effW_removeRoot h0 (mem_outEdges.1 he).2 h1

theorem inner_mem_ids {n : Node} (hn : g.kind? n = some .sum ∨ g.kind? n = some .prod) : n ∈ g.ids := by
  rcases hn with h | h <;> exact mem_ids_of_kind? h

theorem collapse_root (hI : RwInv depth g) (hr : g.root = .ok r) {n c : Node}
    (hn : g.kind? n = some .sum ∨ g.kind? n = some .prod) (hc : g.succ n = [c]) (h0 : g.inEdges n = []) :
    RwInv depth (g.removeNode n) ∧ Rewrites g (g.removeNode n) r c := by
  obtain ⟨e₀, ho, hd, he, hes, hv, hsc⟩ := single_child hn hc
  have hnr : n = r := root_unique hr (inner_mem_ids hn) h0
  subst hnr
  have hI' := removeRoot_inv hI h0
  have hk : ∀ {k t}, (g.removeNode n).kind? k = some t → k ≠ n ∧ g.kind? k = some t := by
    intro k t h
    rw [kind?_removeNode] at h
    split at h
    · cases h
    · exact ⟨by assumption, h⟩
  have hcn : c ≠ n := by
    rintro rfl
    have := hI.desc e₀ he
    rw [hes, hd] at this; omega
  refine ⟨hI', ⟨fun k t h => (hk h).2, ?_, ?_, ?_, fun ht e he e' he' =>
    ht e (mem_edges_removeNode.1 he).1 e' (mem_edges_removeNode.1 he').1⟩⟩
  · intro ℓ f hf
    refine ⟨⟨?_, ?_, ?_⟩, (hv ℓ f hf).symm⟩
    · intro k d h; exact hf.leaf k d (hk h).2
    · intro k h
      obtain ⟨h1, h2⟩ := hk h
      rw [outEdges_removeRoot h0 h1, hf.sum k h2]
      congr 1
      exact List.map_congr_left fun e he => by rw [effW_removeRoot h0 (mem_outEdges.1 he).2 h1]
    · intro k h
      obtain ⟨h1, h2⟩ := hk h
      rw [outEdges_removeRoot h0 h1]; exact hf.prod k h2
  · intro sc hs hdec
    have hsucc : ∀ {k}, k ≠ n → (g.removeNode n).succ k = g.succ k := by
      intro k h1; simp only [succ, outEdges_removeRoot h0 h1]
    refine ⟨⟨?_, ?_, ?_, ?_⟩, ?_, hsc sc hs⟩
    · intro k d h; exact hs.leaf k d (hk h).2
    · intro k h
      obtain ⟨h1, h2⟩ := hk h
      rw [hsucc h1]; exact hs.sumNe k h2
    · intro k h
      obtain ⟨h1, h2⟩ := hk h
      rw [hsucc h1]; exact hs.sum k h2
    · intro k h
      obtain ⟨h1, h2⟩ := hk h
      rw [hsucc h1]; exact hs.prod k h2
    · intro k h
      obtain ⟨h1, h2⟩ := hk h
      rw [hsucc h1]; exact hdec k h2
  · have hcm : c ∈ g.ids := hd ▸ hI.wf.dstMem e₀ he
    apply root_of hI'.wf
    · exact mem_ids_removeNode.2 ⟨hcm, hcn⟩
    · rw [inEdges_eq_nil]
      intro e hem hdst
      obtain ⟨h1, h2, h3⟩ := mem_edges_removeNode.1 hem
      exact h2 ((congrArg Edge.src (child_private hI ho e h1 (hdst.trans hd.symm))).trans hes)
    · intro k hk' hin
      obtain ⟨h1, h2⟩ := mem_ids_removeNode.1 hk'
      by_contra hkc
      refine h2 (root_unique hr h1 ?_)
      rw [inEdges_eq_nil] at hin ⊢
      intro e hem hdst
      by_cases hsrc : e.src = n
      · have : e ∈ g.outEdges n := mem_outEdges.2 ⟨hem, hsrc⟩
        rw [ho, List.mem_singleton] at this
        subst this
        exact hkc (hdst ▸ hd)
      · exact hin e (mem_edges_removeNode.2 ⟨hem, hsrc, fun h => h2 (hdst ▸ h)⟩) hdst

/-- Replacing a single-child unit by its child. -/
theorem collapse_step (hI : RwInv depth g) (hr : g.root = .ok r) {n c : Node}
    (hn : g.kind? n = some .sum ∨ g.kind? n = some .prod) (hc : g.succ n = [c]) :
    RwInv depth ((g.connectIncoming n c).removeNode n) ∧
      (∃ r', Rewrites g ((g.connectIncoming n c).removeNode n) r r') ∧
      ∀ k ≠ n, (((g.connectIncoming n c).removeNode n).succ k).length = (g.succ k).length := by
  obtain ⟨e₀, ho, hd, he, hes, hv, hsc⟩ := single_child hn hc
  rcases inEdges_single hI hn ho with h0 | ⟨ep, hin⟩
  · have : g.connectIncoming n c = g := by simp [connectIncoming, h0]
    rw [this]
    obtain ⟨h1, h2⟩ := collapse_root hI hr hn hc h0
    exact ⟨h1, ⟨c, h2⟩, fun k hk => by simp only [succ, outEdges_removeRoot h0 hk]⟩
  · rw [collapse_eq hI hin ho hd]
    have hep : ep ∈ g.edges ∧ ep.dst = n := mem_inEdges.1 (by simp [hin])
    have hP := private_collapse hI hn ho hep.1 hep.2
    have hpn : ep.src ≠ n := by
      have := hI.desc ep hep.1
      rw [hep.2] at this
      rintro h; rw [h] at this; omega
    have hlen : ((g.splice n ep.src fun _ => ep.weight).succ ep.src).length = (g.succ ep.src).length := by
      have := length_parent_splice (h := fun _ => ep.weight) hI.wf hP hpn
      rw [hc] at this
      simpa using this
    obtain ⟨h1, h2⟩ := splice_rewrites hI hr (x := n) (ep := ep) (h := fun _ => ep.weight) (q := fun _ => 1)
      hP (.inl ⟨e₀, ho⟩) (by simp [ho]) (by intro ℓ f hf; simp [ho, hd, hv ℓ f hf])
      (by intro hs e _; exact hI.pos _ hs ep (mem_outEdges.2 ⟨hep.1, rfl⟩))
      (by rw [hlen]) (by intro hs e _; unfold effW; rw [hlen, mul_one]; rfl) (fun _ => ⟨e₀, ho⟩)
      (by intro sc hs e hem; rw [ho, List.mem_singleton] at hem; subst hem; rw [hd]; exact hsc sc hs)
    refine ⟨h1, ⟨r, h2⟩, fun k hk => ?_⟩
    by_cases hkp : k = ep.src
    · rw [hkp, hlen]
    · rw [succ_other_splice hP hk hkp]

/-! ### A sum unit below a sum unit -/

theorem adopt_eq (hI : RwInv depth g) {n s : Node} {w : LogP} {ep : Edge} (hs : g.kind? s = some .sum) (hns : s ≠ n)
    (hP : Private g ep s) : g.adopt n s w = .ok { g with edges := g.edges ++ (g.outEdges s).map fun e => ⟨n, e.dst, some (e.weight.getD 0 + w)⟩ } := by
  unfold adopt logWeights
  rw [mapM_readWeight_ok (isSome_weight hI hs)]
  have hz := zip_map_out g s id
  rw [List.map_id] at hz
  simp only [bind, Except.bind]
  rw [hz]
  have hnd : (g.outEdges s).Nodup := hI.wf.edges_nodup.filter _
  have := foldl_addEdge_new n ((g.outEdges s).map fun e => (some (e.weight.getD 0 + w), e.dst)) g
    (by
      rw [List.map_map, List.nodup_map_iff_inj_on hnd]
      intro a ha b hb hab
      rw [mem_outEdges] at ha hb
      exact hP.own b hb.1 hb.2 a ha.1 hab)
    (by
      intro e he hsrc hmem
      simp only [List.map_map, List.mem_map, mem_outEdges, Function.comp] at hmem
      obtain ⟨e', ⟨h1, h2⟩, h3⟩ := hmem
      have := hP.own e' h1 h2 e he h3.symm
      exact hns (by rw [← h2, ← this, hsrc]))
  rw [List.foldl_map, List.map_map] at this
  rw [List.foldl_map]
  exact congrArg Except.ok this

theorem absorb_eq (hI : RwInv depth g) {n s : Node} {w : LogP} (hn : g.kind? n = some .sum) (hs : g.kind? s = some .sum)
    {ep : Edge} (hep : ep ∈ g.edges) (h1 : ep.src = n) (h2 : ep.dst = s) :
    ∃ g1, g.adopt n s w = .ok g1 ∧ g1.removeNode s = g.splice s n (fun e => some (e.weight.getD 0 + w)) := by
  have hd := hI.desc ep hep
  rw [h1, h2] at hd
  have hns : s ≠ n := by rintro rfl; omega
  refine ⟨_, adopt_eq hI hs hns (private_absorb hI hn hs hep h1 h2), ?_⟩
  simp only [removeNode, splice, List.filter_append]
  congr 2
  rw [List.filter_eq_self]
  intro e he
  obtain ⟨e', he', rfl⟩ := List.mem_map.1 he
  rw [mem_outEdges] at he'
  have := hI.desc e' he'.1
  rw [he'.2] at this
  have hds : e'.dst ≠ s := by intro h; rw [h] at this; omega
  simp [hns.symm, hds]

/-- Dissolving a sum unit below a sum unit. -/
theorem absorb_step (hI : RwInv depth g) (hr : g.root = .ok r) {n s : Node} (hn : g.kind? n = some .sum)
    (hs : g.kind? s = some .sum) {ep : Edge} (hep : ep ∈ g.edges) (h1 : ep.src = n) (h2 : ep.dst = s)
    (hln : (g.succ n).length ≠ 1) (hls : (g.succ s).length ≠ 1) :
    RwInv depth (g.splice s n (fun e => some (e.weight.getD 0 + ep.weight.getD 0))) ∧
      Rewrites g (g.splice s n (fun e => some (e.weight.getD 0 + ep.weight.getD 0))) r r ∧
      (∀ k, k ≠ s → k ≠ n → (g.splice s n (fun e => some (e.weight.getD 0 + ep.weight.getD 0))).succ k = g.succ k) ∧
      ((g.splice s n (fun e => some (e.weight.getD 0 + ep.weight.getD 0))).succ n).length ≠ 1 := by
  subst h1
  obtain ⟨y, hy⟩ := hI.pos _ hn ep (mem_outEdges.2 ⟨hep, rfl⟩)
  have hP := private_absorb hI hn hs hep rfl h2
  have hpn : ep.src ≠ s := by
    have := hI.desc ep hep
    rw [h2] at this
    rintro h; rw [h] at this; omega
  have hne : g.outEdges s ≠ [] := by intro h0; have := hI.norm s hs; rw [h0] at this; simp at this
  have hpos : (g.succ ep.src).length ≠ 0 := by
    have : s ∈ g.succ ep.src := mem_succ.2 ⟨ep, hep, rfl, h2⟩
    intro h; rw [List.length_eq_zero_iff.1 h] at this; simp at this
  have hl := length_parent_splice (h := fun e => some (e.weight.getD 0 + ep.weight.getD 0)) hI.wf hP hpn
  have hls0 : (g.succ s).length ≠ 0 := by simpa [succ] using hne
  have hnew : ((g.splice s ep.src (fun e => some (e.weight.getD 0 + ep.weight.getD 0))).succ ep.src).length ≠ 1 := by omega
  rw [← and_assoc]
  refine ⟨?_, fun k hk hkn => succ_other_splice hP hk hkn, hnew⟩
  refine splice_rewrites hI hr (q := g.effW) hP (.inr hs) (hI.norm s hs) ?_ ?_ (iff_of_false hnew hln) ?_ ?_ ?_
  · intro ℓ f hf; exact hf.sum s hs
  · intro _ e he
    obtain ⟨z, hz⟩ := hI.pos s hs e he
    exact ⟨z + y, by simp [hz, hy]⟩
  · intro _ e he
    obtain ⟨z, hz⟩ := hI.pos s hs e he
    unfold effW
    rw [if_neg hnew, if_neg hln, (mem_outEdges.1 he).2, if_neg hls]
    simp [linWeight, hz, hy, Real.exp_add, mul_comm]
  · intro h; rw [hn] at h; cases h
  · intro sc hsc e he; exact hsc.sum s hs e.dst (dst_mem_succ he)

/-- The loop over the children of a sum unit. -/
theorem sumLoop {n : Node} : ∀ (es : List Edge) (g : Circuit) (r : Node), RwInv depth g →
    g.root = .ok r → g.kind? n = some .sum → (∀ e ∈ es, e ∈ g.edges ∧ e.src = n) → es.Nodup → (g.succ n).length ≠ 1 →
    (∀ k ∈ g.ids, depth n < depth k → (g.succ k).length ≠ 1) →
    ∃ g', (es.map fun e => (e.weight.getD 0, e.dst)).foldlM (simplifySumChild n) g = .ok g' ∧ RwInv depth g' ∧
      Rewrites g g' r r ∧ (∀ k ∈ g.ids, depth k ≤ depth n → k ∈ g'.ids) ∧ (g'.succ n).length ≠ 1 ∧
      ∀ k ∈ g'.ids, k ≠ n → k ∈ g.ids ∧ g'.succ k = g.succ k := by
  intro es
  induction es with
  | nil => intro g r hI hr _ _ _ hln _; exact ⟨g, rfl, hI, .refl hr, fun k hk _ => hk, hln, fun k hk _ => ⟨hk, rfl⟩⟩
  | cons e es ih =>
    intro g r hI hr hn hes hnd hln hvis
    rw [List.nodup_cons] at hnd
    obtain ⟨he, hsrc⟩ := hes e (by simp)
    obtain ⟨y, hy⟩ := hI.pos n hn e (mem_outEdges.2 ⟨he, hsrc⟩)
    have hdep := hI.desc e he
    rw [hsrc] at hdep
    rw [List.map_cons, List.foldlM_cons]
    have hstep : ∃ g1, simplifySumChild n g (e.weight.getD 0, e.dst) = .ok g1 ∧ RwInv depth g1 ∧ Rewrites g g1 r r ∧
        g1.kind? n = some .sum ∧ (∀ e' ∈ g.edges, e'.dst ≠ e.dst → e'.src = n → e' ∈ g1.edges) ∧
        (∀ k ∈ g.ids, depth k ≤ depth n → k ∈ g1.ids) ∧ (g1.succ n).length ≠ 1 ∧
        ∀ k ∈ g1.ids, k ≠ n → k ∈ g.ids ∧ g1.succ k = g.succ k := by
      have hkc : ∃ kc, g.kind? e.dst = some kc := exists_kind? (hI.wf.dstMem e he)
      obtain ⟨kc, hkc⟩ := hkc
      have hfin : ¬ (e.weight.getD 0).isNegInf = true := by simp [hy]
      cases kc with
      | leaf d => exact ⟨g, by simp [simplifySumChild, hkc, hy], hI, .refl hr, hn, fun e' h _ _ => h,
          fun k hk _ => hk, hln, fun k hk _ => ⟨hk, rfl⟩⟩
      | prod => exact ⟨g, by simp [simplifySumChild, hkc, hy], hI, .refl hr, hn, fun e' h _ _ => h,
          fun k hk _ => hk, hln, fun k hk _ => ⟨hk, rfl⟩⟩
      | sum =>
        obtain ⟨g1, hg1, hg2⟩ := absorb_eq (w := e.weight.getD 0) hI hn hkc he hsrc rfl
        obtain ⟨h3, h4, h41, h42⟩ := absorb_step hI hr hn hkc he hsrc rfl hln (hvis _ (hI.wf.dstMem e he) hdep)
        refine ⟨_, ?_, h3, h4, ?_, ?_, ?_, h42, fun k hk hkn => ?_⟩
        · simp only [simplifySumChild, if_neg hfin, hkc, hg1]
          rw [← hg2]; rfl
        · rw [kind?_splice, if_neg]
          · exact hn
          · intro h; rw [h] at hdep; omega
        · intro e' h5 h6 h7
          refine mem_edges_splice.2 (.inl ⟨h5, ?_, h6⟩)
          rw [h7]; intro h; rw [← h] at hdep; omega
        · intro k hk hkd
          refine ids_splice.2 ⟨hk, ?_⟩
          rintro rfl; omega
        · obtain ⟨h5, h6⟩ := ids_splice.1 hk
          exact ⟨h5, h41 k h6 hkn⟩
    obtain ⟨g1, h1, hI1, hR1, hn1, hkeep, hids, hln1, hsame⟩ := hstep
    obtain ⟨g', h2, hI2, hR2, hids2, hln2, hsame2⟩ := ih g1 r hI1 hR1.root hn1
      (by
        intro e' he'
        obtain ⟨h5, h6⟩ := hes e' (by simp [he'])
        refine ⟨hkeep e' h5 ?_ h6, h6⟩
        intro hd
        have := hI.wf.edge_ext h5 he (h6.trans hsrc.symm) hd
        exact hnd.1 (this ▸ he')) hnd.2 hln1 (by
        intro k hk hd
        have hkn : k ≠ n := by rintro rfl; omega
        obtain ⟨h5, h6⟩ := hsame k hk hkn
        rw [h6]; exact hvis k h5 hd)
    refine ⟨g', ?_, hI2, hR1.trans hR2, fun k hk hd => hids2 k (hids k hk hd) hd, hln2, fun k hk hkn => ?_⟩
    swap
    · obtain ⟨h5, h6⟩ := hsame2 k hk hkn
      obtain ⟨h7, h8⟩ := hsame k h5 hkn
      exact ⟨h7, h6.trans h8⟩
    rw [h1]; exact h2

theorem prodLoop {D : Type} (g : Graph D) : ∀ cs : List Node, cs.foldl simplifyProdChild g = g := by
  intro cs
  induction cs with
  | nil => rfl
  | cons c cs ih =>
    have : simplifyProdChild g c = g := by
      unfold simplifyProdChild
      split
      · have : ∀ l : List Node, (∀ x ∈ l, x ∈ g.succ c) → l.foldl (fun g gc => g.addEdge c gc none) g = g := by
          intro l
          induction l with
          | nil => intro _; rfl
          | cons x l ih =>
            intro h
            rw [List.foldl_cons, addEdge_none (h x (by simp)), ih (fun y hy => h y (by simp [hy]))]
        exact this _ (fun _ h => h)
      · rfl
    rw [List.foldl_cons, this, ih]

theorem collapse_ids {n c k : Node} : k ∈ ((g.connectIncoming n c).removeNode n).ids ↔ k ∈ g.ids ∧ k ≠ n := by
  have : ∀ (es : List Edge) (g : Circuit), (es.foldl (fun g e => g.addEdge e.src c e.weight) g).ids = g.ids := by
    intro es
    induction es with
    | nil => intro g; rfl
    | cons e es ih =>
      intro g
      rw [List.foldl_cons, ih]
      unfold addEdge
      split <;> rfl
  rw [mem_ids_removeNode]
  unfold connectIncoming
  rw [this]

/-- One step of `simplify`.  `hvis`: the units below `n` have been visited. -/
theorem unit_step (hI : RwInv depth g) (hr : g.root = .ok r) {n : Node} (hn : n ∈ g.ids)
    (hvis : ∀ k ∈ g.ids, depth n < depth k → (g.succ k).length ≠ 1) :
    ∃ g', g.simplifyUnit n = .ok g' ∧ RwInv depth g' ∧ (∃ r', Rewrites g g' r r') ∧
      (∀ k ∈ g.ids, depth k ≤ depth n → k ≠ n → k ∈ g'.ids) ∧
      (∀ k ∈ g'.ids, k ≠ n → k ∈ g.ids ∧ (g'.succ k).length = (g.succ k).length) ∧
      (n ∈ g'.ids → (g'.succ n).length ≠ 1) := by
  obtain ⟨kd, hk⟩ := exists_kind? hn
  unfold simplifyUnit
  rw [hk]
  cases kd with
  | leaf d => exact ⟨g, rfl, hI, ⟨r, .refl hr⟩, fun k hk _ _ => hk, fun k hk _ => ⟨hk, rfl⟩, fun _ => by simp [hI.leaves n d hk]⟩
  | sum =>
    simp only [simplifySum]
    split
    · rename_i c hc
      obtain ⟨h1, h2, h3⟩ := collapse_step hI hr (.inl hk) hc
      exact ⟨_, rfl, h1, h2, fun k hk _ hkn => collapse_ids.2 ⟨hk, hkn⟩,
        fun k hk hkn => ⟨(collapse_ids.1 hk).1, h3 k hkn⟩, fun h => absurd rfl (collapse_ids.1 h).2⟩
    · rename_i hne
      have hln : (g.succ n).length ≠ 1 := fun h => by
        obtain ⟨c, hc⟩ := List.length_eq_one_iff.1 h
        exact hne c hc
      unfold logWeights
      rw [mapM_readWeight_ok (isSome_weight hI hk)]
      have hz := zip_map_out g n id
      rw [List.map_id] at hz
      simp only [bind, Except.bind]
      rw [hz]
      obtain ⟨g', h1, h2, h3, h4, h5, h6⟩ := sumLoop (n := n) (g.outEdges n) g r hI hr hk
        (fun e he => mem_outEdges.1 he) (hI.wf.edges_nodup.filter _) hln hvis
      exact ⟨g', h1, h2, ⟨r, h3⟩, fun k hk hd _ => h4 k hk hd, fun k hk hkn => ⟨(h6 k hk hkn).1, by rw [(h6 k hk hkn).2]⟩,
        fun _ => h5⟩
  | prod =>
    simp only [simplifyProd]
    split
    · rename_i c hc
      obtain ⟨h1, h2, h3⟩ := collapse_step hI hr (.inr hk) hc
      exact ⟨_, rfl, h1, h2, fun k hk _ hkn => collapse_ids.2 ⟨hk, hkn⟩,
        fun k hk hkn => ⟨(collapse_ids.1 hk).1, h3 k hkn⟩, fun h => absurd rfl (collapse_ids.1 h).2⟩
    · rename_i hne
      rw [prodLoop]
      refine ⟨g, rfl, hI, ⟨r, .refl hr⟩, fun k hk _ _ => hk, fun k hk _ => ⟨hk, rfl⟩, fun _ h => ?_⟩
      obtain ⟨c, hc⟩ := List.length_eq_one_iff.1 h
      exact hne c hc

theorem simplify_fold : ∀ (l : List Node) (g : Circuit) (r : Node), RwInv depth g → g.root = .ok r →
    (∀ n ∈ l, n ∈ g.ids) → l.Nodup → l.Pairwise (fun a b => depth b ≤ depth a) →
    (∀ k ∈ g.ids, k ∉ l → (g.succ k).length ≠ 1) →
    ∃ g', l.foldlM simplifyUnit g = .ok g' ∧ RwInv depth g' ∧ (∃ r', Rewrites g g' r r') ∧
      ∀ k ∈ g'.ids, (g'.succ k).length ≠ 1 := by
  intro l
  induction l with
  | nil => intro g r hI hr _ _ _ hv; exact ⟨g, rfl, hI, ⟨r, .refl hr⟩, fun k hk => hv k hk (by simp)⟩
  | cons n l ih =>
    intro g r hI hr hl hnd hp hv
    rw [List.nodup_cons] at hnd
    rw [List.pairwise_cons] at hp
    obtain ⟨g1, h1, hI1, ⟨r1, hR1⟩, hids, hsame, hln⟩ := unit_step hI hr (hl n (by simp)) (by
      intro k hk hd
      refine hv k hk ?_
      rw [List.mem_cons]
      rintro (rfl | hm)
      · omega
      · have := hp.1 k hm; omega)
    obtain ⟨g', h2, hI2, ⟨r', hR2⟩, hfin⟩ := ih g1 r1 hI1 hR1.root
      (fun k hk => hids k (hl k (by simp [hk])) (hp.1 k hk) (fun h => hnd.1 (h ▸ hk))) hnd.2 hp.2 (by
        intro k hk hkl
        by_cases hkn : k = n
        · subst hkn; exact hln hk
        · obtain ⟨h3, h4⟩ := hsame k hk hkn
          rw [h4]
          exact hv k h3 (by simp [hkn, hkl]))
    refine ⟨g', ?_, hI2, ⟨r', hR1.trans hR2⟩, hfin⟩
    rw [List.foldlM_cons, h1]; exact h2

theorem DepthOK.sorted {depth : Node → Nat} : ∀ {ls : List (List Node)} {k : Nat}, DepthOK depth k ls →
    ls.reverse.flatten.Pairwise (fun a b => depth b ≤ depth a) := by
  intro ls
  induction ls with
  | nil => simp
  | cons l ls ih =>
    intro k h
    obtain ⟨h1, h2, h3⟩ := h
    rw [List.reverse_cons, List.flatten_append, List.pairwise_append]
    refine ⟨ih h3, ?_, ?_⟩
    · simp only [List.flatten_cons, List.flatten_nil, List.append_nil]
      exact List.pairwise_of_forall_mem_list (fun a ha b hb => by rw [h1 a ha, h1 b hb])
    · intro a ha b hb
      simp only [List.flatten_cons, List.flatten_nil, List.append_nil] at hb
      have : a ∈ ls.flatten := by
        rw [List.mem_flatten] at ha ⊢
        obtain ⟨l', h4, h5⟩ := ha
        exact ⟨l', List.mem_reverse.1 h4, h5⟩
      have := h3.mem_depth a this
      rw [h1 b hb]; omega

/-! ### A tree is layered -/

/-- Distance from the top of the tree. -/
def levelFuel {D : Type} (g : Graph D) : Nat → Node → Nat
  | 0, _ => 0
  | fuel + 1, n => match g.inEdges n with
    | [] => 0
    | e :: _ => levelFuel g fuel e.src + 1

theorem levelFuel_stable {D : Type} {g : Graph D} (hdesc : ∀ e ∈ g.edges, depth e.src < depth e.dst) :
    ∀ (k : Nat) (n : Node) (a b : Nat), depth n ≤ k → depth n < a → depth n < b →
    g.levelFuel a n = g.levelFuel b n := by
  intro k
  induction k with
  | zero =>
    intro n a b h ha hb
    have h0 : g.inEdges n = [] := by
      rw [inEdges_eq_nil]
      intro e he hd
      have := hdesc e he
      rw [hd] at this; omega
    cases a with
    | zero => omega
    | succ a =>
      cases b with
      | zero => omega
      | succ b => simp [levelFuel, h0]
  | succ k ih =>
    intro n a b h ha hb
    cases a with
    | zero => omega
    | succ a =>
      cases b with
      | zero => omega
      | succ b =>
        simp only [levelFuel]
        cases hin : g.inEdges n with
        | nil => rfl
        | cons e l =>
          have he := mem_inEdges.1 (show e ∈ g.inEdges n by simp [hin])
          have hd := hdesc e he.1
          rw [he.2] at hd
          simp only
          rw [ih e.src a b (by omega) (by omega) (by omega)]

theorem treeShaped_graded {D : Type} {g : Graph D} (ht : TreeShaped g) (hdesc : ∀ e ∈ g.edges, depth e.src < depth e.dst) :
    g.Graded := by
  refine ⟨fun n => g.levelFuel (depth n + 1) n, ?_⟩
  intro e he
  have hd := hdesc e he
  show g.levelFuel (depth e.dst + 1) e.dst = g.levelFuel (depth e.src + 1) e.src + 1
  conv_lhs => rw [levelFuel]
  cases hin : g.inEdges e.dst with
  | nil =>
    rw [inEdges_eq_nil] at hin
    exact absurd rfl (hin e he)
  | cons ep l =>
    have hep := mem_inEdges.1 (show ep ∈ g.inEdges e.dst by simp [hin])
    have hs := ht ep hep.1 e he hep.2
    simp only
    rw [hs, levelFuel_stable hdesc (depth e.src) e.src (depth e.dst) (depth e.src + 1) le_rfl hd (by omega)]

/-! ### `simplify` as a whole -/

/-- Without single-child units the two weights agree. -/
theorem normalizedSums_of_eff {g : Circuit} (hn : g.EffNorm) (h1 : ∀ k ∈ g.ids, (g.succ k).length ≠ 1) : NormalizedSums g := by
  intro n hk
  rw [← hn n hk]
  congr 1
  refine List.map_congr_left fun e he => ?_
  unfold effW
  rw [(mem_outEdges.1 he).2, if_neg (h1 n (mem_ids_of_kind? hk))]

/-- `simplify` where a sum unit with a single child may have any weight. -/
theorem simplify_eff (hL : Layered g r) (hsh : SafeSharing g) (hp : PositiveWeights g) (hn : g.EffNorm) :
    ∃ g' r', ∃ depth : Node → Nat, g.simplify = .ok g' ∧ RwInv depth g' ∧ Rewrites g g' r r' ∧ NormalizedSums g' := by
  obtain ⟨depth, hd⟩ := hL.graded
  have hI : RwInv depth g := ⟨hL.wf, hsh, fun e he => by rw [hd e he]; omega, hL.leaves, hp, hn⟩
  have hri := (root_mem hL.root).1
  obtain ⟨hs, hok⟩ := layersFrom_strat hL.wf hd hri
  have hmem : ∀ n, n ∈ g.bottomUp r ↔ n ∈ (g.layersFrom r).flatten := by
    intro n
    unfold bottomUp
    simp only [List.mem_flatten, List.mem_reverse]
  obtain ⟨g', h1, h2, ⟨r', h3⟩, h4⟩ := simplify_fold (depth := depth) (g.bottomUp r) g r hI hL.root
    (fun n hn => reachable_mem_ids hL.wf hri (mem_layersFrom_reachable g ((hmem n).1 hn)))
    (by
      have := hok.nodup
      unfold bottomUp
      exact ((List.reverse_perm _).flatten.nodup_iff).2 this)
    hok.sorted
    (by
      intro k hk hkl
      refine absurd ?_ hkl
      rw [hmem, mem_layersFrom_iff hL.wf hL.graded hri]
      exact reachable_of_root hL.wf hL.graded.acyclic hL.root k hk)
  refine ⟨g', r', depth, ?_, h2, h3, normalizedSums_of_eff h2.norm h4⟩
  unfold simplify
  rw [hL.root]; exact h1

/-- What `simplify` does to a circuit whose sums are normalized. -/
structure Keeps (g g' : Circuit) (r r' : Node) : Prop where
  kind : ∀ n k, g'.kind? n = some k → g.kind? n = some k
  value : ∀ ℓ f, CircuitValue g ℓ f → CircuitValue g' ℓ f ∧ f r' = f r
  scope : ∀ sc, Scoped g sc → Decomposable g sc → Scoped g' sc ∧ Decomposable g' sc ∧ sc r' = sc r
  root : g'.root = .ok r'
  tree : TreeShaped g → TreeShaped g'

theorem simplify_safe (hL : Layered g r) (hsh : SafeSharing g) (hp : PositiveWeights g) (hn : NormalizedSums g) :
    ∃ g' r', ∃ depth : Node → Nat, g.simplify = .ok g' ∧ RwInv depth g' ∧ Keeps g g' r r' ∧ NormalizedSums g' := by
  obtain ⟨g', r', depth, h1, h2, h3, h4⟩ := simplify_eff hL hsh hp (NormalizedSums.eff hn)
  refine ⟨g', r', depth, h1, h2, ⟨h3.kind, ?_, h3.scope, h3.root, h3.tree⟩, h4⟩
  intro ℓ f hf
  obtain ⟨h5, h6⟩ := h3.value ℓ f (CircuitValue.eff hn hf)
  exact ⟨EffValue.circuitValue h4 h5, h6⟩

end PM.Graph
