import Verif.Circuit.Shallow
import Verif.Circuit.SimplifyLemmas

/-! Helper lemmas: a graph as the class of every unit and the list of its out-edges. -/

namespace PM.Graph

variable {D : Type}

abbrev Outs := Node → List (Node × Option LogP)

/-- The graph has the units `K` and the out-edges `O`. -/
structure View (g : Graph D) (K : Node → Option (Kind D)) (O : Outs) : Prop where
  wf : g.WF
  kind : ∀ n, g.kind? n = K n
  out : ∀ n, (g.outEdges n).map (fun e => (e.dst, e.weight)) = O n

def To (O : Outs) (u v : Node) : Prop := v ∈ (O u).map Prod.fst

variable {g : Graph D} {K : Node → Option (Kind D)} {O : Outs}

theorem mem_ids_iff_kind? {n : Node} : n ∈ g.ids ↔ g.kind? n ≠ none := by
  unfold ids kind?
  simp only [ne_eq, Option.map_eq_none_iff, List.find?_eq_none, List.mem_map]
  constructor
  · rintro ⟨p, hp, rfl⟩ h
    exact h p hp (by simp)
  · intro h
    push Not at h
    obtain ⟨p, hp, hpn⟩ := h
    exact ⟨p, hp, by simpa using hpn⟩

namespace View

theorem succ (h : View g K O) (n : Node) : g.succ n = (O n).map Prod.fst := by
  rw [← h.out n, List.map_map]
  rfl

theorem mem_ids (h : View g K O) {n : Node} : n ∈ g.ids ↔ K n ≠ none := by
  rw [mem_ids_iff_kind?, h.kind]

theorem mem_edges (h : View g K O) {u v : Node} {w : Option LogP} : (⟨u, v, w⟩ : Edge) ∈ g.edges ↔ (v, w) ∈ O u := by
  rw [← h.out u]
  simp only [List.mem_map, outEdges, List.mem_filter, Prod.mk.injEq]
  constructor
  · intro he
    exact ⟨_, ⟨he, by simp⟩, rfl, rfl⟩
  · rintro ⟨⟨a, b, c⟩, ⟨he, ha⟩, rfl, rfl⟩
    simp only [beq_iff_eq] at ha
    subst ha
    exact he

theorem to_iff (h : View g K O) {u v : Node} : To O u v ↔ ∃ w, (⟨u, v, w⟩ : Edge) ∈ g.edges := by
  simp only [To, List.mem_map, h.mem_edges]
  constructor
  · rintro ⟨⟨a, w⟩, ha, rfl⟩; exact ⟨w, ha⟩
  · rintro ⟨w, hw⟩; exact ⟨_, hw, rfl⟩

theorem src (h : View g K O) {u v : Node} (ht : To O u v) : K u ≠ none := by
  obtain ⟨w, hw⟩ := h.to_iff.1 ht
  exact h.mem_ids.1 (h.wf.srcMem _ hw)

theorem dst (h : View g K O) {u v : Node} (ht : To O u v) : K v ≠ none := by
  obtain ⟨w, hw⟩ := h.to_iff.1 ht
  exact h.mem_ids.1 (h.wf.dstMem _ hw)

theorem nodup (h : View g K O) (u : Node) : ((O u).map Prod.fst).Nodup := by
  rw [← h.succ u]
  unfold Graph.succ outEdges
  have h1 : ((g.edges.filter fun e => e.src == u).map fun e => (e.src, e.dst)).Nodup :=
    h.wf.edgeNodup.sublist (List.filter_sublist.map _)
  have h2 : (g.edges.filter fun e => e.src == u).map (fun e => (e.src, e.dst)) =
      ((g.edges.filter fun e => e.src == u).map Edge.dst).map fun v => (u, v) := by
    rw [List.map_map]
    refine List.map_congr_left fun e he => ?_
    have := (List.mem_filter.1 he).2
    simp only [beq_iff_eq] at this
    simp [this]
  rw [h2] at h1
  exact h1.of_map

theorem pred_eq_nil (h : View g K O) {v : Node} : g.pred v = [] ↔ ∀ u, ¬ To O u v := by
  unfold Graph.pred inEdges
  rw [List.map_eq_nil_iff, List.filter_eq_nil_iff]
  constructor
  · intro h1 u hu
    obtain ⟨w, hw⟩ := h.to_iff.1 hu
    exact h1 _ hw (by simp)
  · rintro h1 ⟨u, v', w⟩ he hv
    simp only [beq_iff_eq] at hv
    subst hv
    exact h1 u (h.to_iff.2 ⟨w, he⟩)

theorem edgeData (h : View g K O) {u v : Node} {w : Option LogP} (hw : (v, w) ∈ O u) : g.edgeData u v = some w := by
  have he := h.mem_edges.2 hw
  unfold Graph.edgeData
  cases hf : g.edges.find? fun e => e.src == u && e.dst == v with
  | none =>
    rw [List.find?_eq_none] at hf
    exact absurd (by simp) (hf _ he)
  | some e =>
    have h1 := List.find?_some hf
    have h2 := List.mem_of_find?_eq_some hf
    simp only [Bool.and_eq_true, beq_iff_eq] at h1
    have := h.wf.edge_ext h2 he h1.1 h1.2
    rw [this]
    rfl

theorem addNode (h : View g K O) {n : Node} (hn : K n = none) (k : Kind D) :
    View (g.addNode n k) (Function.update K n (some k)) O := by
  have hni : n ∉ g.ids := fun hc => h.mem_ids.1 hc hn
  have hg : g.addNode n k = { g with nodes := g.nodes ++ [(n, k)] } := by rw [Graph.addNode, if_neg hni]
  rw [hg]
  refine ⟨⟨?_, h.wf.edgeNodup, ?_, ?_⟩, ?_, h.out⟩
  · simp only [ids, List.map_append, List.map_cons, List.map_nil]
    exact List.Nodup.append h.wf.nodup (by simp) (by simpa [ids] using hni)
  · intro e he
    have := h.wf.srcMem e he
    simp only [ids, List.map_append, List.mem_append]
    exact .inl this
  · intro e he
    have := h.wf.dstMem e he
    simp only [ids, List.map_append, List.mem_append]
    exact .inl this
  · intro m
    have hk := h.kind m
    unfold kind? at hk ⊢
    simp only [List.find?_append]
    by_cases hm : m = n
    · subst hm
      rw [hn] at hk
      simp only [Option.map_eq_none_iff] at hk
      simp [hk]
    · rw [Function.update_of_ne hm, ← hk]
      cases g.nodes.find? fun p => p.1 == m <;> simp [Ne.symm hm]

theorem addEdge (h : View g K O) {u v : Node} (w : Option LogP) (hu : K u ≠ none) (hv : K v ≠ none) (hn : ¬ To O u v) :
    View (g.addEdge u v w) K (Function.update O u (O u ++ [(v, w)])) := by
  have hno : ∀ e ∈ g.edges, ¬ (e.src = u ∧ e.dst = v) := by
    rintro ⟨a, b, c⟩ he ⟨rfl, rfl⟩
    exact hn (h.to_iff.2 ⟨c, he⟩)
  have hany : g.edges.any (fun e => e.src == u && e.dst == v) = false := by
    rw [List.any_eq_false]
    intro e he hc
    simp only [Bool.and_eq_true, beq_iff_eq] at hc
    exact hno e he hc
  have hg : g.addEdge u v w = { g with edges := g.edges ++ [⟨u, v, w⟩] } := by
    rw [Graph.addEdge, hany]
    rfl
  rw [hg]
  refine ⟨⟨h.wf.nodup, ?_, ?_, ?_⟩, h.kind, ?_⟩
  · simp only [List.map_append, List.map_cons, List.map_nil]
    refine List.Nodup.append h.wf.edgeNodup (by simp) ?_
    intro a ha hb
    simp only [List.mem_singleton] at hb
    subst hb
    obtain ⟨e, he, hee⟩ := List.mem_map.1 ha
    simp only [Prod.mk.injEq] at hee
    exact hno e he hee
  · intro e he
    rcases List.mem_append.1 he with he | he
    · exact h.wf.srcMem e he
    · simp only [List.mem_singleton] at he
      subst he
      exact h.mem_ids.2 hu
  · intro e he
    rcases List.mem_append.1 he with he | he
    · exact h.wf.dstMem e he
    · simp only [List.mem_singleton] at he
      subst he
      exact h.mem_ids.2 hv
  · intro m
    have ho := h.out m
    unfold outEdges at ho ⊢
    simp only [List.filter_append, List.map_append, ho]
    by_cases hm : m = u
    · subst hm; simp
    · simp [Function.update_of_ne hm, Ne.symm hm]

theorem removeEdge (h : View g K O) (u v : Node) :
    View (g.removeEdge u v) K (Function.update O u ((O u).filter fun p => p.1 ≠ v)) := by
  refine ⟨⟨h.wf.nodup, h.wf.edgeNodup.sublist (List.filter_sublist.map _), ?_, ?_⟩, h.kind, ?_⟩
  · exact fun e he => h.wf.srcMem e (List.mem_filter.1 he).1
  · exact fun e he => h.wf.dstMem e (List.mem_filter.1 he).1
  · intro m
    have ho := h.out m
    unfold outEdges Graph.removeEdge at *
    simp only [List.filter_filter]
    by_cases hm : m = u
    · subst hm
      rw [Function.update_self, ← ho, List.filter_map, List.filter_filter]
      congr 1
      refine List.filter_congr fun e _ => ?_
      simp only [Function.comp_apply]
      by_cases h1 : e.src = m <;> by_cases h2 : e.dst = v <;> simp [h1, h2]
    · rw [Function.update_of_ne hm, ← ho]
      congr 1
      refine List.filter_congr fun e _ => ?_
      by_cases h1 : e.src = m
      · have : e.src ≠ u := fun h2 => hm (h1.symm.trans h2)
        simp [h1, hm]
      · simp [h1]

theorem removeNode (h : View g K O) {n : Node} (hn : ∀ u, ¬ To O u n) :
    View (g.removeNode n) (Function.update K n none) (Function.update O n []) := by
  have hd : ∀ e ∈ g.edges, e.dst ≠ n := by
    rintro ⟨a, b, c⟩ he rfl
    exact hn a (h.to_iff.2 ⟨c, he⟩)
  refine ⟨⟨?_, h.wf.edgeNodup.sublist (List.filter_sublist.map _), ?_, ?_⟩, ?_, ?_⟩
  · exact h.wf.nodup.sublist (List.filter_sublist.map _)
  · intro e he
    obtain ⟨he, hc⟩ := List.mem_filter.1 he
    simp only [Bool.and_eq_true, Bool.not_eq_true', beq_eq_false_iff_ne] at hc
    obtain ⟨p, hp, hpe⟩ := List.mem_map.1 (h.wf.srcMem e he)
    exact List.mem_map.2 ⟨p, List.mem_filter.2 ⟨hp, by simpa [hpe] using hc.1⟩, hpe⟩
  · intro e he
    obtain ⟨he, hc⟩ := List.mem_filter.1 he
    simp only [Bool.and_eq_true, Bool.not_eq_true', beq_eq_false_iff_ne] at hc
    obtain ⟨p, hp, hpe⟩ := List.mem_map.1 (h.wf.dstMem e he)
    exact List.mem_map.2 ⟨p, List.mem_filter.2 ⟨hp, by simpa [hpe] using hc.2⟩, hpe⟩
  · intro m
    rw [kind?_removeNode]
    by_cases hm : m = n
    · subst hm; simp
    · simp [hm, h.kind]
  · intro m
    have ho := h.out m
    unfold outEdges Graph.removeNode at *
    simp only [List.filter_filter]
    by_cases hm : m = n
    · subst hm
      rw [Function.update_self, List.map_eq_nil_iff, List.filter_eq_nil_iff]
      intro e _ hc
      simp only [Bool.and_eq_true, beq_iff_eq, Bool.not_eq_true', beq_eq_false_iff_ne] at hc
      exact hc.2.1 hc.1
    · rw [Function.update_of_ne hm, ← ho]
      congr 1
      refine List.filter_congr fun e he => ?_
      have := hd e he
      by_cases h1 : e.src = m
      · simp [h1, this, hm]
      · simp [h1]

end View
end PM.Graph
