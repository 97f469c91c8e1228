import Verif.Circuit.CondBalanced

/-!
Helper lemmas: `simplify` commutes with a change of the scale of the units.  If every unit `n` gets a scale `τ n` (a logarithm), the weight
of an edge `a → b` is multiplied with the scale of `b` and divided by the one of `a`.
-/

namespace PM.Graph

open Spec

variable {D : Type}

noncomputable def shift (τ : Node → ℝ) (a b : Node) : LogP → LogP
  | .negInf => .negInf
  | .fin x => .fin (x + τ b - τ a)

noncomputable def gaugeEdge (τ : Node → ℝ) (e : Edge) : Edge := { e with weight := e.weight.map (shift τ e.src e.dst) }

noncomputable def gauge (τ : Node → ℝ) (g : Graph D) : Graph D := { g with edges := g.edges.map (gaugeEdge τ) }

variable {τ : Node → ℝ} {g : Graph D}

@[simp] theorem gaugeEdge_src (e : Edge) : (gaugeEdge τ e).src = e.src := rfl
@[simp] theorem gaugeEdge_dst (e : Edge) : (gaugeEdge τ e).dst = e.dst := rfl

@[simp] theorem kind?_gauge (n : Node) : (gauge τ g).kind? n = g.kind? n := rfl
@[simp] theorem ids_gauge : (gauge τ g).ids = g.ids := rfl

theorem outEdges_gauge (n : Node) : (gauge τ g).outEdges n = (g.outEdges n).map (gaugeEdge τ) := by
  simp only [outEdges, gauge, List.filter_map]
  rfl

theorem inEdges_gauge (n : Node) : (gauge τ g).inEdges n = (g.inEdges n).map (gaugeEdge τ) := by
  simp only [inEdges, gauge, List.filter_map]
  rfl

@[simp] theorem succ_gauge (n : Node) : (gauge τ g).succ n = g.succ n := by
  simp only [succ, outEdges_gauge, List.map_map]
  rfl

theorem root_gauge : (gauge τ g).root = g.root := by
  unfold root
  simp only [ids_gauge, inDegree, inEdges_gauge, List.length_map]

theorem bottomUp_gauge (r : Node) : (gauge τ g).bottomUp r = g.bottomUp r := by
  unfold bottomUp layersFrom
  have hs : ∀ n, (gauge τ g).succ n = g.succ n := fun n => succ_gauge n
  have : ∀ (k : Nat) (a b : List Node), (gauge τ g).bfsLoop k a b = g.bfsLoop k a b := by
    intro k
    induction k with
    | zero => intro a b; rfl
    | succ k ih =>
      intro a b
      cases b with
      | nil => rfl
      | cons x b => simp only [bfsLoop, bfsNext, funext hs, ih]
  rw [this]
  rfl

theorem gauge_removeNode (n : Node) : (gauge τ g).removeNode n = gauge τ (g.removeNode n) := by
  simp only [removeNode, gauge, List.filter_map]
  rfl

theorem gauge_removeEdge (u v : Node) : (gauge τ g).removeEdge u v = gauge τ (g.removeEdge u v) := by
  simp only [removeEdge, gauge, List.filter_map]
  rfl

theorem gauge_addEdge (u v : Node) (w : Option LogP) :
    (gauge τ g).addEdge u v (w.map (shift τ u v)) = gauge τ (g.addEdge u v w) := by
  have hany : (gauge τ g).edges.any (fun e => e.src == u && e.dst == v) = g.edges.any (fun e => e.src == u && e.dst == v) := by
    simp only [gauge, List.any_map]
    rfl
  unfold addEdge
  rw [hany]
  split
  · simp only [gauge, List.map_map]
    congr 1
    apply List.map_congr_left
    intro e _
    show (if (e.src == u && e.dst == v) = true then { gaugeEdge τ e with weight := (w.map (shift τ u v)).or (gaugeEdge τ e).weight }
      else gaugeEdge τ e) = gaugeEdge τ (if (e.src == u && e.dst == v) = true then { e with weight := w.or e.weight } else e)
    by_cases h : (e.src == u && e.dst == v) = true
    · rw [if_pos h, if_pos h]
      obtain ⟨h1, h2⟩ : e.src = u ∧ e.dst = v := by simpa using h
      cases w <;> simp [gaugeEdge, h1, h2]
    · rw [if_neg h, if_neg h]
  · simp only [gauge, List.map_append, List.map_cons, List.map_nil, gaugeEdge]

theorem gauge_connectIncoming {n c : Node} (h : τ n = τ c) :
    (gauge τ g).connectIncoming n c = gauge τ (g.connectIncoming n c) := by
  have key : ∀ (es : List Edge) (g : Graph D), (∀ e ∈ es, e.dst = n) →
      (es.map (gaugeEdge τ)).foldl (fun g e => g.addEdge e.src c e.weight) (gauge τ g)
        = gauge τ (es.foldl (fun g e => g.addEdge e.src c e.weight) g) := by
    intro es
    induction es with
    | nil => intro g _; rfl
    | cons e es ih =>
      intro g he
      rw [List.map_cons, List.foldl_cons, List.foldl_cons, ← ih _ fun e' h' => he e' (by simp [h'])]
      congr 1
      have hw : (gaugeEdge τ e).weight = e.weight.map (shift τ e.src c) := by
        have : shift τ e.src e.dst = shift τ e.src c := by
          funext x
          rw [he e (by simp)]
          cases x <;> simp [shift, h]
        simp only [gaugeEdge, this]
      rw [hw]
      exact gauge_addEdge _ _ _
  unfold connectIncoming
  rw [inEdges_gauge]
  exact key _ _ fun e he => (mem_inEdges.1 he).2

theorem shift_add (a b c : Node) (x y : LogP) : shift τ b c x + shift τ a b y = shift τ a c (x + y) := by
  cases x <;> cases y <;> simp [shift]
  ring

theorem shift_isNegInf (a b : Node) (x : LogP) : (shift τ a b x).isNegInf = x.isNegInf := by cases x <;> rfl

theorem getD_gauge {e : Edge} (h : e.weight.isSome) : (gaugeEdge τ e).weight.getD 0 = shift τ e.src e.dst (e.weight.getD 0) := by
  obtain ⟨w, hw⟩ := Option.isSome_iff_exists.1 h
  simp [gaugeEdge, hw]

theorem isSome_gauge (e : Edge) : (gaugeEdge τ e).weight.isSome = e.weight.isSome := by
  cases h : e.weight <;> simp [gaugeEdge, h]

/-- The weights and children of a unit. -/
theorem zip_weights (n : Node) (hw : ∀ e ∈ g.outEdges n, e.weight.isSome) :
    g.logWeights n = .ok ((g.outEdges n).map fun e => e.weight.getD 0) ∧
      (((g.outEdges n).map fun e => e.weight.getD 0).zip (g.succ n)) = (g.outEdges n).map fun e => (e.weight.getD 0, e.dst) := by
  refine ⟨mapM_readWeight_ok hw, ?_⟩
  have hz := zip_map_out g n id
  rwa [List.map_id] at hz

theorem zip_weights_gauge (n : Node) (hw : ∀ e ∈ g.outEdges n, e.weight.isSome) :
    (gauge τ g).logWeights n = .ok ((g.outEdges n).map fun e => shift τ n e.dst (e.weight.getD 0)) ∧
      (((g.outEdges n).map fun e => shift τ n e.dst (e.weight.getD 0)).zip ((gauge τ g).succ n))
        = (g.outEdges n).map fun e => (shift τ n e.dst (e.weight.getD 0), e.dst) := by
  have hmap : ((gauge τ g).outEdges n).map (fun e => e.weight.getD 0) = (g.outEdges n).map fun e => shift τ n e.dst (e.weight.getD 0) := by
    rw [outEdges_gauge, List.map_map]
    apply List.map_congr_left
    intro e he
    simp only [Function.comp]
    rw [getD_gauge (hw e he), (mem_outEdges.1 he).2]
  obtain ⟨h1, h2⟩ := zip_weights (g := gauge τ g) n (by
    intro e he
    rw [outEdges_gauge] at he
    obtain ⟨e', he', rfl⟩ := List.mem_map.1 he
    rw [isSome_gauge]
    exact hw e' he')
  rw [hmap] at h1 h2
  refine ⟨h1, h2.trans ?_⟩
  rw [outEdges_gauge, List.map_map]
  apply List.map_congr_left
  intro e he
  simp only [Function.comp, gaugeEdge_dst]
  rw [getD_gauge (hw e he), (mem_outEdges.1 he).2]

theorem gauge_adopt {n s : Node} {w : LogP} (hw : ∀ e ∈ g.outEdges s, e.weight.isSome) :
    ∃ g', g.adopt n s w = .ok g' ∧ (gauge τ g).adopt n s (shift τ n s w) = .ok (gauge τ g') := by
  obtain ⟨h1, h2⟩ := zip_weights s hw
  obtain ⟨h3, h4⟩ := zip_weights_gauge (τ := τ) s hw
  refine ⟨_, by unfold adopt; rw [h1]; simp only [bind, Except.bind]; rw [h2], ?_⟩
  unfold adopt
  rw [h3]
  simp only [bind, Except.bind]
  rw [h4]
  congr 1
  have key : ∀ (es : List Edge) (g : Graph D), (es.map fun e => ((shift τ s e.dst (e.weight.getD 0), e.dst) : LogP × Node)).foldl
      (fun g p => g.addEdge n p.2 (some (p.1 + shift τ n s w))) (gauge τ g)
        = gauge τ ((es.map fun e => ((e.weight.getD 0, e.dst) : LogP × Node)).foldl (fun g p => g.addEdge n p.2 (some (p.1 + w))) g) := by
    intro es
    induction es with
    | nil => intro g; rfl
    | cons e es ih =>
      intro g
      simp only [List.map_cons, List.foldl_cons]
      rw [← ih]
      congr 1
      rw [shift_add]
      exact gauge_addEdge n e.dst (some (e.weight.getD 0 + w))
  exact key _ _

/-- All weights of sum units are given. -/
def SumWeights (g : Graph D) : Prop := ∀ n, g.kind? n = some .sum → ∀ e ∈ g.outEdges n, e.weight.isSome

theorem kind?_addEdge (u v : Node) (w : Option LogP) (k : Node) : (g.addEdge u v w).kind? k = g.kind? k := by
  unfold addEdge
  split <;> rfl

theorem mem_addEdge {u v : Node} {w : Option LogP} {e : Edge} (h : e ∈ (g.addEdge u v w).edges) :
    (e ∈ g.edges) ∨ (e.src = u ∧ e.dst = v ∧ (w.isSome → e.weight.isSome)) := by
  unfold addEdge at h
  split at h
  · obtain ⟨e', he', rfl⟩ := List.mem_map.1 h
    split
    · rename_i hc
      obtain ⟨h1, h2⟩ : e'.src = u ∧ e'.dst = v := by simpa using hc
      exact .inr ⟨h1, h2, fun hw => by simp [Option.isSome_or, hw]⟩
    · exact .inl he'
  · rcases List.mem_append.1 h with h | h
    · exact .inl h
    · rw [List.mem_singleton] at h
      subst h
      exact .inr ⟨rfl, rfl, id⟩

/-- What a sequence of new edges out of `n` does. -/
theorem foldl_addEdge_outEdges (n : Node) (ps : List (Option LogP × Node)) : ∀ g : Graph D,
    (∀ k, (ps.foldl (fun g p => g.addEdge n p.2 p.1) g).kind? k = g.kind? k) ∧
      ∀ e ∈ (ps.foldl (fun g p => g.addEdge n p.2 p.1) g).edges, e ∈ g.edges ∨ (e.src = n ∧ e.dst ∈ ps.map Prod.snd ∧
        ((∀ p ∈ ps, p.1.isSome) → e.weight.isSome)) := by
  induction ps with
  | nil => intro g; exact ⟨fun k => rfl, fun e he => .inl he⟩
  | cons p ps ih =>
    intro g
    obtain ⟨h1, h2⟩ := ih (g.addEdge n p.2 p.1)
    refine ⟨fun k => by rw [List.foldl_cons, h1, kind?_addEdge], fun e he => ?_⟩
    rw [List.foldl_cons] at he
    rcases h2 e he with h | ⟨h3, h4, h5⟩
    · rcases mem_addEdge h with h | ⟨h3, h4, h5⟩
      · exact .inl h
      · exact .inr ⟨h3, by simp [h4], fun hp => h5 (hp p (by simp))⟩
    · exact .inr ⟨h3, by simp [h4], fun hp => h5 fun q hq => hp q (by simp [hq])⟩

/-- What dissolving `s` below `n` does to the graph. -/
theorem adopt_graph {n s : Node} {w : LogP} {g' : Graph D} (h : g.adopt n s w = .ok g') (hw : ∀ e ∈ g.outEdges s, e.weight.isSome) :
    (∀ k, g'.kind? k = g.kind? k) ∧ ∀ e ∈ g'.edges, e ∈ g.edges ∨ (e.src = n ∧ e.dst ∈ g.succ s ∧ e.weight.isSome) := by
  obtain ⟨h1, h2⟩ := zip_weights s hw
  unfold adopt at h
  rw [h1] at h
  simp only [bind, Except.bind] at h
  rw [h2] at h
  injection h with h
  have hfold : ((g.outEdges s).map fun e => ((e.weight.getD 0, e.dst) : LogP × Node)).foldl (fun g p => g.addEdge n p.2 (some (p.1 + w))) g
      = ((g.outEdges s).map fun e => ((some (e.weight.getD 0 + w), e.dst) : Option LogP × Node)).foldl (fun g p => g.addEdge n p.2 p.1) g := by
    rw [List.foldl_map, List.foldl_map]
  rw [hfold] at h
  obtain ⟨h3, h4⟩ := foldl_addEdge_outEdges n ((g.outEdges s).map fun e => ((some (e.weight.getD 0 + w), e.dst) : Option LogP × Node)) g
  rw [h] at h3 h4
  refine ⟨h3, fun e he => ?_⟩
  rcases h4 e he with h | ⟨h5, h6, h7⟩
  · exact .inl h
  · refine .inr ⟨h5, ?_, h7 ?_⟩
    · rw [List.map_map] at h6
      exact h6
    · intro p hp
      obtain ⟨e', _, rfl⟩ := List.mem_map.1 hp
      rfl

theorem kind?_removeNode_some {n k : Node} {K : Kind D} (h : (g.removeNode n).kind? k = some K) : k ≠ n ∧ g.kind? k = some K := by
  rw [kind?_removeNode] at h
  split at h
  · cases h
  · exact ⟨by assumption, h⟩

theorem mem_succ_removeNode {n k c : Node} (h : c ∈ (g.removeNode n).succ k) : c ≠ n ∧ c ∈ g.succ k := by
  obtain ⟨e, he, hs, hd⟩ := mem_succ.1 h
  obtain ⟨h1, h2, h3⟩ := mem_edges_removeNode.1 he
  exact ⟨hd ▸ h3, mem_succ.2 ⟨e, h1, hs, hd⟩⟩

theorem SumWeights.removeNode (h : SumWeights g) (n : Node) : SumWeights (g.removeNode n) := by
  intro k hk e he
  obtain ⟨h1, h2⟩ := mem_outEdges.1 he
  exact h k (kind?_removeNode_some hk).2 e (mem_outEdges.2 ⟨(mem_edges_removeNode.1 h1).1, h2⟩)

/-- One round of the loop over the children of a sum unit. -/
theorem sumChild_gauge {n : Node} (hn : g.kind? n = some .sum) (hg : SumWeights g) (w : LogP) (c : Node) (hc : c ≠ n)
    (hflat : g.kind? c = some .sum → ∀ d ∈ g.succ c, g.kind? d ≠ some .sum) :
    ∃ g', simplifySumChild n g (w, c) = .ok g' ∧ simplifySumChild n (gauge τ g) (shift τ n c w, c) = .ok (gauge τ g') ∧
      g'.kind? n = some .sum ∧ SumWeights g' ∧ (∀ k K, g'.kind? k = some K → g.kind? k = some K) ∧
      (∀ k, k ≠ n → ∀ d ∈ g'.succ k, d ∈ g.succ k) ∧
      (∀ d ∈ g'.succ n, g'.kind? d = some .sum → d ∈ g.succ n ∧ d ≠ c) := by
  unfold simplifySumChild
  simp only [shift_isNegInf]
  set h : Graph D := if w.isNegInf then g.removeEdge n c else g with hh
  have hG : (if w.isNegInf = true then (gauge τ g).removeEdge n c else gauge τ g) = gauge τ h := by
    rw [hh]
    split
    · exact gauge_removeEdge n c
    · rfl
  rw [hG]
  have hkind : ∀ k, h.kind? k = g.kind? k := by
    intro k
    rw [hh]
    split <;> rfl
  have hedge : ∀ e ∈ h.edges, e ∈ g.edges := by
    intro e he
    rw [hh] at he
    split at he
    · exact (List.mem_filter.1 he).1
    · exact he
  have hsucc : ∀ k, ∀ d ∈ h.succ k, d ∈ g.succ k := by
    intro k d hd
    obtain ⟨e, he, h1, h2⟩ := mem_succ.1 hd
    exact mem_succ.2 ⟨e, hedge e he, h1, h2⟩
  have hSW : SumWeights h := by
    intro k hk e he
    obtain ⟨h1, h2⟩ := mem_outEdges.1 he
    rw [hkind] at hk
    exact hg k hk e (mem_outEdges.2 ⟨hedge e h1, h2⟩)
  rw [kind?_gauge, hkind]
  cases hk : g.kind? c with
  | none =>
    refine ⟨h, rfl, rfl, by rw [hkind, hn], hSW, fun k K hK => by rwa [hkind] at hK, fun k _ d hd => hsucc k d hd, fun d hd hds => ⟨hsucc n d hd, ?_⟩⟩
    rintro rfl
    rw [hkind, hk] at hds
    cases hds
  | some K =>
    cases K with
    | leaf l =>
      refine ⟨h, rfl, rfl, by rw [hkind, hn], hSW, fun k K hK => by rwa [hkind] at hK, fun k _ d hd => hsucc k d hd, fun d hd hds => ⟨hsucc n d hd, ?_⟩⟩
      rintro rfl
      rw [hkind, hk] at hds
      cases hds
    | prod =>
      refine ⟨h, rfl, rfl, by rw [hkind, hn], hSW, fun k K hK => by rwa [hkind] at hK, fun k _ d hd => hsucc k d hd, fun d hd hds => ⟨hsucc n d hd, ?_⟩⟩
      rintro rfl
      rw [hkind, hk] at hds
      cases hds
    | sum =>
      have hwc : ∀ e ∈ h.outEdges c, e.weight.isSome := hSW c (by rw [hkind, hk])
      obtain ⟨h1, ha, hb⟩ := gauge_adopt (τ := τ) (n := n) (s := c) (w := w) hwc
      obtain ⟨hk1, he1⟩ := adopt_graph ha hwc
      simp only [bind, Except.bind, ha, hb]
      refine ⟨h1.removeNode c, rfl, ?_, ?_, ?_, ?_, ?_, ?_⟩
      · rw [gauge_removeNode]
      · rw [kind?_removeNode, if_neg hc.symm, hk1, hkind, hn]
      · apply SumWeights.removeNode
        intro k hks e he
        obtain ⟨h2, h3⟩ := mem_outEdges.1 he
        rw [hk1] at hks
        rcases he1 e h2 with h4 | ⟨_, _, h4⟩
        · exact hSW k hks e (mem_outEdges.2 ⟨h4, h3⟩)
        · exact h4
      · intro k K hK
        have := (kind?_removeNode_some hK).2
        rwa [hk1, hkind] at this
      · intro k hkn d hd
        obtain ⟨e, he, h2, h3⟩ := mem_succ.1 (mem_succ_removeNode hd).2
        rcases he1 e he with h4 | ⟨h4, _, _⟩
        · exact hsucc k d (mem_succ.2 ⟨e, h4, h2, h3⟩)
        · exact absurd (h2.symm.trans h4) hkn
      · intro d hd hds
        obtain ⟨hdc, hd⟩ := mem_succ_removeNode hd
        obtain ⟨e, he, h2, h3⟩ := mem_succ.1 hd
        refine ⟨?_, hdc⟩
        rcases he1 e he with h4 | ⟨_, h4, _⟩
        · exact hsucc n d (mem_succ.2 ⟨e, h4, h2, h3⟩)
        · have := (kind?_removeNode_some hds).2
          rw [hk1, hkind] at this
          exact absurd this (hflat hk d (hsucc c d (h3 ▸ h4)))

/-- The loop over the children of a sum unit. -/
theorem sumLoop_gauge {n : Node} : ∀ (ps : List (LogP × Node)) (g : Graph D), g.kind? n = some .sum → SumWeights g → (∀ p ∈ ps, p.2 ≠ n) →
    (∀ p ∈ ps, g.kind? p.2 = some .sum → ∀ d ∈ g.succ p.2, g.kind? d ≠ some .sum) →
    (∀ d ∈ g.succ n, g.kind? d = some .sum → d ∈ ps.map Prod.snd) →
    ∃ g', ps.foldlM (simplifySumChild n) g = .ok g' ∧
      (ps.map fun p => (shift τ n p.2 p.1, p.2)).foldlM (simplifySumChild n) (gauge τ g) = .ok (gauge τ g') ∧
      (∀ k K, g'.kind? k = some K → g.kind? k = some K) ∧ SumWeights g' ∧ (∀ k, k ≠ n → ∀ d ∈ g'.succ k, d ∈ g.succ k) ∧
      ∀ d ∈ g'.succ n, g'.kind? d ≠ some .sum := by
  intro ps
  induction ps with
  | nil =>
    intro g hn hg _ _ hall
    exact ⟨g, rfl, rfl, fun _ _ h => h, hg, fun _ _ _ h => h, fun d hd hs => by simpa using hall d hd hs⟩
  | cons p ps ih =>
    intro g hn hg hne hfl hall
    obtain ⟨w, c⟩ := p
    obtain ⟨g1, h1, h2, h3, h4, h5, h6, h7⟩ := sumChild_gauge (τ := τ) hn hg w c (hne (w, c) (by simp)) (hfl (w, c) (by simp))
    obtain ⟨g', h8, h9, h10, h11, h12, h13⟩ := ih g1 h3 h4 (fun p hp => hne p (by simp [hp]))
      (fun p hp hs d hd hds => hfl p (by simp [hp]) (h5 _ _ hs) d (h6 _ (hne p (by simp [hp])) d hd) (h5 _ _ hds))
      (fun d hd hs => by
        obtain ⟨ha, hb⟩ := h7 d hd hs
        have := hall d ha (h5 _ _ hs)
        simp only [List.map_cons, List.mem_cons] at this
        exact this.resolve_left hb)
    refine ⟨g', ?_, ?_, fun k K h => h5 k K (h10 k K h), h11, fun k hk d hd => h6 k hk d (h12 k hk d hd), h13⟩
    · rw [List.foldlM_cons, h1]
      exact h8
    · rw [List.map_cons, List.foldlM_cons, h2]
      exact h9

/-- What `connect_incoming_edges_to` and the removal of the unit do. -/
theorem collapse_graph {n c : Node} :
    (∀ k, (g.connectIncoming n c).kind? k = g.kind? k) ∧
      ∀ e ∈ (g.connectIncoming n c).edges, e ∈ g.edges ∨ (∃ e' ∈ g.edges, e'.src = e.src ∧ e'.dst = n ∧ e.dst = c ∧
        (e'.weight.isSome → e.weight.isSome)) := by
  have key : ∀ (es : List Edge) (h : Graph D), (∀ e ∈ es, e ∈ g.edges ∧ e.dst = n) →
      (∀ k, (es.foldl (fun g e => g.addEdge e.src c e.weight) h).kind? k = h.kind? k) ∧
        ∀ e ∈ (es.foldl (fun g e => g.addEdge e.src c e.weight) h).edges, e ∈ h.edges ∨
          (∃ e' ∈ g.edges, e'.src = e.src ∧ e'.dst = n ∧ e.dst = c ∧ (e'.weight.isSome → e.weight.isSome)) := by
    intro es
    induction es with
    | nil => intro h _; exact ⟨fun _ => rfl, fun e he => .inl he⟩
    | cons e es ih =>
      intro h hes
      obtain ⟨h1, h2⟩ := ih (h.addEdge e.src c e.weight) fun e' h' => hes e' (by simp [h'])
      refine ⟨fun k => by rw [List.foldl_cons, h1, kind?_addEdge], fun x hx => ?_⟩
      rw [List.foldl_cons] at hx
      rcases h2 x hx with h3 | h3
      · rcases mem_addEdge h3 with h4 | ⟨h4, h5, h6⟩
        · exact .inl h4
        · obtain ⟨h7, h8⟩ := hes e (by simp)
          exact .inr ⟨e, h7, h4.symm, h8, h5, h6⟩
      · exact .inr h3
  exact key _ _ fun e he => mem_inEdges.1 he

/-- One step of `simplify` and of `simplify` on the circuit with changed scales. -/
theorem unit_gauge {n : Node} (hn : n ∈ g.ids) (hg : SumWeights g) (hself : n ∉ g.succ n)
    (hτ : ∀ c, g.succ n = [c] → τ n = τ c)
    (hfl : ∀ c ∈ g.succ n, g.kind? c = some .sum → ∀ d ∈ g.succ c, g.kind? d ≠ some .sum) :
    ∃ g', g.simplifyUnit n = .ok g' ∧ (gauge τ g).simplifyUnit n = .ok (gauge τ g') ∧
      (∀ k K, g'.kind? k = some K → g.kind? k = some K) ∧ SumWeights g' ∧
      (∀ k, k ≠ n → ∀ d ∈ g'.succ k, d ∈ g.succ k ∨ (n ∈ g.succ k ∧ g.succ n = [d])) ∧
      (g'.kind? n = some .sum → ∀ d ∈ g'.succ n, g'.kind? d ≠ some .sum) ∧
      (g'.kind? n = some .prod → (g.succ n).length ≠ 1) := by
  obtain ⟨K, hk⟩ := exists_kind? hn
  have collapse : ∀ c, g.succ n = [c] → ∃ g', (g.connectIncoming n c).removeNode n = g' ∧
      ((gauge τ g).connectIncoming n c).removeNode n = gauge τ g' ∧
      (∀ k K, g'.kind? k = some K → g.kind? k = some K) ∧ SumWeights g' ∧
      (∀ k, k ≠ n → ∀ d ∈ g'.succ k, d ∈ g.succ k ∨ (n ∈ g.succ k ∧ g.succ n = [d])) ∧
      (g'.kind? n = some .sum → ∀ d ∈ g'.succ n, g'.kind? d ≠ some .sum) ∧
      (g'.kind? n = some .prod → (g.succ n).length ≠ 1) := by
    intro c hc
    obtain ⟨h1, h2⟩ := collapse_graph (g := g) (n := n) (c := c)
    refine ⟨_, rfl, ?_, ?_, ?_, ?_, ?_, ?_⟩
    · rw [gauge_connectIncoming (hτ c hc), gauge_removeNode]
    · intro k K hK
      have := (kind?_removeNode_some hK).2
      rwa [h1] at this
    · apply SumWeights.removeNode
      intro k hks e he
      obtain ⟨h3, h4⟩ := mem_outEdges.1 he
      rw [h1] at hks
      rcases h2 e h3 with h5 | ⟨e', h5, h6, _, _, h7⟩
      · exact hg k hks e (mem_outEdges.2 ⟨h5, h4⟩)
      · exact h7 (hg k hks e' (mem_outEdges.2 ⟨h5, h6.trans h4⟩))
    · intro k hkn d hd
      obtain ⟨e, he, h3, h4⟩ := mem_succ.1 (mem_succ_removeNode hd).2
      rcases h2 e he with h5 | ⟨e', h5, h6, h7, h8, _⟩
      · exact .inl (mem_succ.2 ⟨e, h5, h3, h4⟩)
      · refine .inr ⟨mem_succ.2 ⟨e', h5, h6.trans h3, h7⟩, ?_⟩
        rw [hc, ← h4, h8]
    · intro h
      exact absurd rfl (kind?_removeNode_some h).1
    · intro h
      exact absurd rfl (kind?_removeNode_some h).1
  unfold simplifyUnit
  rw [kind?_gauge, hk]
  cases K with
  | leaf d =>
    exact ⟨g, rfl, rfl, fun _ _ h => h, hg, fun _ _ _ h => .inl h, fun h => (by rw [hk] at h; cases h), fun h => by rw [hk] at h; cases h⟩
  | sum =>
    show ∃ g', g.simplifySum n = .ok g' ∧ (gauge τ g).simplifySum n = .ok (gauge τ g') ∧ _
    by_cases h1 : ∃ c, g.succ n = [c]
    · obtain ⟨c, hc⟩ := h1
      obtain ⟨g', ha, hb, hrest⟩ := collapse c hc
      refine ⟨g', ?_, ?_, hrest⟩
      · unfold simplifySum; rw [hc, ← ha]
      · unfold simplifySum; rw [succ_gauge, hc, ← hb]
    · have e1 : ∀ h : Graph D, h.succ n = g.succ n → h.simplifySum n = (do
          let ws ← h.logWeights n
          List.foldlM (simplifySumChild n) h (ws.zip (h.succ n))) := by
        intro h hh
        unfold simplifySum
        split
        · next c hc => exact absurd ⟨c, hh ▸ hc⟩ h1
        · rfl
      rw [e1 g rfl, e1 (gauge τ g) (succ_gauge ..), succ_gauge]
      obtain ⟨h2, h3⟩ := zip_weights n (hg n hk)
      obtain ⟨h4, h5⟩ := zip_weights_gauge (τ := τ) n (hg n hk)
      rw [succ_gauge] at h5
      rw [h2, h4]
      simp only [bind, Except.bind]
      rw [h3, h5]
      have hmem : ∀ p ∈ (g.outEdges n).map fun e => ((e.weight.getD 0, e.dst) : LogP × Node), p.2 ∈ g.succ n := by
        intro p hp
        obtain ⟨e, he, rfl⟩ := List.mem_map.1 hp
        exact dst_mem_succ he
      obtain ⟨g', h6, h7, h8, h9, h10, h11⟩ := sumLoop_gauge (τ := τ) (n := n)
        ((g.outEdges n).map fun e => ((e.weight.getD 0, e.dst) : LogP × Node)) g hk hg
        (fun p hp h => hself (h ▸ hmem p hp)) (fun p hp hs => hfl p.2 (hmem p hp) hs)
        (fun d hd _ => by
          rw [List.map_map]
          exact hd)
      rw [List.map_map] at h7
      exact ⟨g', h6, h7, h8, h9, fun k hk d hd => .inl (h10 k hk d hd), fun _ => h11,
        fun h => by have := h8 _ _ h; rw [hk] at this; cases this⟩
  | prod =>
    show ∃ g', (Except.ok (g.simplifyProd n) : Except PyErr _) = .ok g' ∧ (Except.ok ((gauge τ g).simplifyProd n) : Except PyErr _) = .ok (gauge τ g') ∧ _
    by_cases h1 : ∃ c, g.succ n = [c]
    · obtain ⟨c, hc⟩ := h1
      obtain ⟨g', ha, hb, hrest⟩ := collapse c hc
      refine ⟨g', ?_, ?_, hrest⟩
      · unfold simplifyProd; rw [hc, ← ha]
      · unfold simplifyProd; rw [succ_gauge, hc, ← hb]
    · have e1 : ∀ h : Graph D, h.succ n = g.succ n → h.simplifyProd n = h := by
        intro h hh
        unfold simplifyProd
        split
        · next c hc => exact absurd ⟨c, hh ▸ hc⟩ h1
        · exact prodLoop _ _
      rw [e1 g rfl, e1 (gauge τ g) (succ_gauge ..)]
      exact ⟨g, rfl, rfl, fun _ _ h => h, hg, fun _ _ _ h => .inl h, fun h => (by rw [hk] at h; cases h), fun _ h => h1 (List.length_eq_one_iff.1 h)⟩

/-- `simplify` and `simplify` on the circuit with changed scales. -/
theorem fold_gauge {depth : Node → Nat} : ∀ (l : List Node) (g : Circuit) (r : Node), RwInv depth (gauge τ g) → g.root = .ok r →
    (∀ n ∈ l, n ∈ g.ids) → l.Nodup → l.Pairwise (fun a b => depth b ≤ depth a) →
    (∀ k ∈ g.ids, k ∉ l → ∀ m ∈ l, depth m ≤ depth k) → (∀ k ∈ g.ids, k ∉ l → (g.succ k).length ≠ 1) → SumWeights g → (∀ k ∈ l, ∀ c, g.succ k = [c] → τ k = τ c) →
    (∀ k, g.kind? k = some .prod → (k ∈ l → (g.succ k).length ≠ 1) → τ k = 0) →
    (∀ k, k ∉ l → g.kind? k = some .sum → ∀ d ∈ g.succ k, g.kind? d ≠ some .sum) →
    ∃ g', l.foldlM simplifyUnit g = .ok g' ∧ RwInv depth (gauge τ g') ∧ (∃ r', Rewrites (gauge τ g) (gauge τ g') r r') ∧
      (∀ k ∈ g'.ids, (g'.succ k).length ≠ 1) ∧ (∀ k, g'.kind? k = some .sum → ∀ d ∈ g'.succ k, g'.kind? d ≠ some .sum) ∧
      (∀ k K, g'.kind? k = some K → g.kind? k = some K) ∧ SumWeights g' ∧ ∀ k, g'.kind? k = some .prod → τ k = 0 := by
  intro l
  induction l with
  | nil =>
    intro g r hI hr _ _ _ _ hv hg _ hτp hfl
    exact ⟨g, rfl, hI, ⟨r, .refl (by rw [root_gauge, hr])⟩, fun k hk => hv k hk (by simp), fun k => hfl k (by simp), fun _ _ h => h, hg,
      fun k hk => hτp k hk (by simp)⟩
  | cons n l ih =>
    intro g r hI hr hl hnd hp hle hv hg hτ hτp hfl
    rw [List.nodup_cons] at hnd
    rw [List.pairwise_cons] at hp
    have hdesc : ∀ k, ∀ c ∈ g.succ k, depth k < depth c := by
      intro k c hc
      rw [← succ_gauge (τ := τ)] at hc
      obtain ⟨e, he, h1, h2⟩ := mem_succ.1 hc
      rw [← h1, ← h2]
      exact hI.desc e he
    have hbelow : ∀ k, depth n < depth k → k ∉ n :: l := by
      intro k hd hk
      rcases List.mem_cons.1 hk with rfl | hm
      · omega
      · have := hp.1 k hm; omega
    obtain ⟨G1, h1, hI1, ⟨r1, hR1⟩, hids, hsame, hln⟩ := unit_step hI (by rw [root_gauge]; exact hr) (hl n (by simp)) (by
      intro k hk hd
      rw [succ_gauge]
      exact hv k hk (hbelow k hd))
    obtain ⟨g1, h2, h3, h4, h5, h6, h7, hprod⟩ := unit_gauge (τ := τ) (hl n (by simp)) hg (fun h => by have := hdesc n n h; omega)
      (hτ n (by simp)) (fun c hc hs => hfl c (hbelow c (hdesc n c hc)) hs)
    rw [h3] at h1
    injection h1 with h1
    subst h1
    simp only [succ_gauge, ids_gauge] at hids hsame hln
    obtain ⟨g', h8, hI2, ⟨r', hR2⟩, hfin, hflat, hkinds, hsw, hzero⟩ := ih g1 r1 hI1 (by rw [← root_gauge (τ := τ)]; exact hR1.root)
      (fun k hk => hids k (hl k (by simp [hk])) (hp.1 k hk) (fun h => hnd.1 (h ▸ hk))) hnd.2 hp.2 (by
        intro k hk hkl m hm
        by_cases hkn : k = n
        · rw [hkn]; exact hp.1 m hm
        · exact hle k (hsame k hk hkn).1 (by simp [hkn, hkl]) m (by simp [hm])) (by
        intro k hk hkl
        by_cases hkn : k = n
        · subst hkn; exact hln hk
        · obtain ⟨h3, h4⟩ := hsame k hk hkn
          rw [h4]
          exact hv k h3 (by simp [hkn, hkl])) h5 (by
        intro k hk c hc
        have hkn : k ≠ n := fun h => hnd.1 (h ▸ hk)
        have hk1 : k ∈ g1.ids := hids k (hl k (by simp [hk])) (hp.1 k hk) hkn
        have hlen : (g.succ k).length = 1 := by rw [← (hsame k hk1 hkn).2, hc]; rfl
        obtain ⟨c₀, hc₀⟩ := List.length_eq_one_iff.1 hlen
        have hk₀ := hτ k (by simp [hk]) c₀ hc₀
        rcases h6 k hkn c (by rw [hc]; simp) with h9 | ⟨h9, h10⟩
        · rw [hc₀, List.mem_singleton] at h9
          rw [hk₀, h9]
        · rw [hc₀, List.mem_singleton] at h9
          rw [hk₀, ← h9]
          exact hτ n (by simp) c h10) (by
        intro k hk hlen
        refine hτp k (h4 _ _ hk) fun hkl => ?_
        by_cases hkn : k = n
        · subst hkn; exact hprod hk
        · rw [← (hsame k (mem_ids_of_kind? hk) hkn).2]
          exact hlen ((List.mem_cons.1 hkl).resolve_left hkn)) (by
        intro k hkl hks d hd hds
        by_cases hkn : k = n
        · subst hkn
          exact h7 hks d hd hds
        · rcases h6 k hkn d hd with h9 | ⟨h9, _⟩
          · exact hfl k (by simp [hkn, hkl]) (h4 _ _ hks) d h9 (h4 _ _ hds)
          · have hk1 : k ∈ g1.ids := mem_ids_of_kind? hks
            have hlt := hdesc k n h9
            have := hle k (hsame k hk1 hkn).1 (by simp [hkn, hkl]) n (by simp)
            omega)
    refine ⟨g', ?_, hI2, ⟨r', hR1.trans hR2⟩, hfin, hflat, fun k K h => h4 k K (hkinds k K h), hsw, hzero⟩
    rw [List.foldlM_cons, h2]
    exact h8

end PM.Graph
