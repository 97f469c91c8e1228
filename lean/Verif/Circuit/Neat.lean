import Verif.Circuit.Attach
import Verif.Circuit.LeafMix

/-!
# Trees with normalized positive weights, put together from parts
-/

namespace PM.Graph

open Spec

/-- A tree whose weights are positive and sum to one at every sum unit. -/
structure Neat (g : Circuit) : Prop where
  tree : TreeShaped g
  norm : NormalizedSums g
  pos : PositiveWeights g

theorem Neat.copyAt {g : Circuit} (hw : g.WF) (h : Neat g) (off : ℕ) : Neat (g.copyAt off) :=
  ⟨TreeShaped.copyAt hw h.tree off, NormalizedSums.copyAt hw h.norm off, PositiveWeights.copyAt hw h.pos off⟩

theorem neat_leaf (n : Node) (d : Leaf) : Neat (newUnit n (.leaf d)) := by
  refine ⟨by intro e he; simp [newUnit] at he, ?_, ?_⟩
  all_goals
    intro m hk
    have hm := mem_ids_of_kind? hk
    simp only [ids_newUnit, List.mem_singleton] at hm
    subst hm
    rw [kind?_newUnit] at hk
    cases hk

section parts

variable {ι : Type} {G : ι → Circuit} {o : ι → Node} {w : ι → Option LogP} {u : Node}

theorem neat_assembled {k : Kind Leaf} {g : Circuit} {is : List ι}
    (hA : Assembled (newUnit u k) u (partsOf G o w is) g u) (hu : ∀ i ∈ is, u ∉ (G i).ids)
    (hp : is.Pairwise fun i j => DisjointIds (G i) (G j))
    (hL : ∀ i ∈ is, Layered (G i) (o i)) (hn : ∀ i ∈ is, Neat (G i))
    (hs : k = .sum → (∀ i ∈ is, ∃ x, w i = some (.fin x)) ∧ (is.map fun i => linWeight ⟨u, o i, w i⟩).sum = 1) : Neat g := by
  have hsrc : ∀ e ∈ g.edges, e ∈ g.outEdges e.src := fun e he => List.mem_filter.2 ⟨he, by simp⟩
  have hloc : ∀ e ∈ g.edges, (e.src = u ∧ ∃ i ∈ is, e.dst = o i) ∨ ∃ i ∈ is, e ∈ (G i).edges := by
    intro e he
    have h1 := hsrc e he
    rcases (mem_ids_assembled hA).1 (hA.layered.wf.srcMem e he) with h | ⟨i, hi, h⟩
    · left
      refine ⟨h, ?_⟩
      rw [h, out_assembled hA] at h1
      obtain ⟨i, hi, rfl⟩ := List.mem_map.1 h1
      exact ⟨i, hi, rfl⟩
    · right
      rw [out_assembled_part hA hi h] at h1
      exact ⟨i, hi, (List.mem_filter.1 h1).1⟩
  have huniq : ∀ i ∈ is, ∀ j ∈ is, ∀ n, n ∈ (G i).ids → n ∈ (G j).ids → G i = G j ∧ o i = o j ∨ i = j := by
    intro i hi j hj n h1 h2
    by_contra hne
    push Not at hne
    have : Std.Symm fun i j => DisjointIds (G i) (G j) := ⟨fun a b hab n h1 h2 => hab n h2 h1⟩
    exact hp.forall hi hj hne.2 n h1 h2
  refine ⟨?_, ?_, ?_⟩
  · intro e he e' he' hd
    rcases hloc e he with ⟨h1, i, hi, h2⟩ | ⟨i, hi, h1⟩
    · rcases hloc e' he' with ⟨h1', -⟩ | ⟨j, hj, h1'⟩
      · rw [h1, h1']
      · exfalso
        have hm := (hL j hj).wf.dstMem e' h1'
        have ho := (root_mem (hL i hi).root).1
        rw [← hd, h2] at hm
        have hoi : o j = o i := by
          rcases huniq i hi j hj _ ho hm with ⟨_, h⟩ | h
          · exact h.symm
          · rw [h]
        have hin : e' ∈ (G j).inEdges (o j) := List.mem_filter.2 ⟨h1', by rw [← hd, h2, hoi]; simp⟩
        rw [(root_mem (hL j hj).root).2] at hin
        cases hin
    · rcases hloc e' he' with ⟨h1', j, hj, h2'⟩ | ⟨j, hj, h1'⟩
      · exfalso
        have hm := (hL i hi).wf.dstMem e h1
        have ho := (root_mem (hL j hj).root).1
        rw [hd, h2'] at hm
        have hoi : o i = o j := by
          rcases huniq i hi j hj _ hm ho with ⟨_, h⟩ | h
          · exact h
          · rw [h]
        have hin : e ∈ (G i).inEdges (o i) := List.mem_filter.2 ⟨h1, by rw [hd, h2', hoi]; simp⟩
        rw [(root_mem (hL i hi).root).2] at hin
        cases hin
      · have hm := (hL i hi).wf.dstMem e h1
        have hm' := (hL j hj).wf.dstMem e' h1'
        rw [← hd] at hm'
        have hG : G i = G j := by
          rcases huniq i hi j hj _ hm hm' with ⟨h, _⟩ | h
          · exact h
          · rw [h]
        exact (hn i hi).tree e h1 e' (hG ▸ h1') hd
  · intro n hk
    rcases (mem_ids_assembled hA).1 (mem_ids_of_kind? hk) with rfl | ⟨i, hi, h⟩
    · rw [kind_assembled hA] at hk
      injection hk with hk
      rw [out_assembled hA, List.map_map]
      exact (hs hk).2
    · rw [out_assembled_part hA hi h]
      rw [kind_assembled_part hA hi h] at hk
      exact (hn i hi).norm n hk
  · intro n hk e he
    rcases (mem_ids_assembled hA).1 (mem_ids_of_kind? hk) with rfl | ⟨i, hi, h⟩
    · rw [kind_assembled hA] at hk
      injection hk with hk
      rw [out_assembled hA] at he
      obtain ⟨i, hi, rfl⟩ := List.mem_map.1 he
      exact (hs hk).1 i hi
    · rw [out_assembled_part hA hi h] at he
      rw [kind_assembled_part hA hi h] at hk
      exact (hn i hi).pos n hk e he

/-- What `attachAll` builds, as an assembly of renumbered parts. -/
theorem attachAll_assembled {k : Kind Leaf} {is : List ι} (hk : ∀ d, k ≠ .leaf d) (hw : k = .sum → ∀ i ∈ is, (w i).isSome)
    (hd : ∀ i ∈ is, Layered (G i) (o i)) :
    ∃ offs : List ℕ, offs.length = is.length ∧
      Assembled (newUnit u k) u (partsOf (fun p : ι × ℕ => (G p.1).copyAt p.2) (fun p => p.2 + o p.1)
        (fun p => w p.1) (is.zip offs)) ((newUnit u k).attachAll u (partsOf G o w is)) u ∧
      (∀ p ∈ is.zip offs, u ∉ ((G p.1).copyAt p.2).ids) ∧
      (is.zip offs).Pairwise fun p q => DisjointIds ((G p.1).copyAt p.2) ((G q.1).copyAt q.2) := by
  obtain ⟨offs, h1, h2, h3, h4⟩ := exists_offsets (u := u) (w := w) is (newUnit u k) hd
  have hu : ∀ p ∈ is.zip offs, u ∉ ((G p.1).copyAt p.2).ids := by
    intro p hp hn
    have := h3 p.2 (List.of_mem_zip hp).2 u (by simp)
    obtain ⟨m, _, hm⟩ := exists_of_mem_copyAt hn
    nomega
  refine ⟨offs, h1, ?_, hu, h4⟩
  rw [h2]
  exact assembled_parts (w := fun p : ι × ℕ => w p.1) hk (fun h p hp => hw h p.1 (List.of_mem_zip hp).1)
    (fun p hp => Layered.copyAt (hd p.1 (List.of_mem_zip hp).1) p.2) hu h4

theorem neat_attach_prod {is : List ι} (hd : ∀ i ∈ is, Layered (G i) (o i)) (hn : ∀ i ∈ is, Neat (G i)) :
    Neat ((newUnit u .prod).attachAll u (partsOf G o (fun _ => none) is)) := by
  obtain ⟨offs, h1, hA, hu, hp⟩ := attachAll_assembled (w := fun _ => none) (u := u) (k := .prod) (by simp) (fun h => by cases h) hd
  exact neat_assembled hA hu hp (fun p hp => Layered.copyAt (hd p.1 (List.of_mem_zip hp).1) p.2)
    (fun p hp => (hn p.1 (List.of_mem_zip hp).1).copyAt (hd p.1 (List.of_mem_zip hp).1).wf p.2) (fun h => by cases h)

theorem leaves_attach {k : Kind Leaf} {is : List ι} (hk : ∀ d, k ≠ .leaf d) (hw : k = .sum → ∀ i ∈ is, (w i).isSome)
    (hd : ∀ i ∈ is, Layered (G i) (o i)) {P : Leaf → Prop} (hP : ∀ i ∈ is, ∀ n d, (G i).kind? n = some (.leaf d) → P d) :
    ∀ n d, ((newUnit u k).attachAll u (partsOf G o w is)).kind? n = some (.leaf d) → P d := by
  obtain ⟨offs, h1, hA, hu, hp⟩ := attachAll_assembled (w := w) (u := u) (k := k) hk hw hd
  refine valid_assembled hk hA fun p hp n d hk => ?_
  obtain ⟨m, rfl, hm⟩ := exists_of_kind?_copyAt hk
  exact hP p.1 (List.of_mem_zip hp).1 m d hm

end parts

theorem removeUnreachable_newUnit (n : Node) (k : Kind Leaf) : (newUnit n k).removeUnreachable n = newUnit n k := by
  have h : n ∈ ((newUnit n k).layersFrom n).flatten := by
    rw [mem_layersFrom_iff' (layered_newUnit n k).wf (by simp)]
    exact .refl
  simp [removeUnreachable, induced, newUnit] at h ⊢
  exact h

theorem addSubcircuit_leaf {g : Circuit} {u n : Node} {k : Kind Leaf} {w : Option LogP} (hn : n ∉ g.ids)
    (he : ∀ e ∈ g.edges, e.dst ≠ n) :
    g.addSubcircuit (newUnit n k) u n w = ⟨g.nodes ++ [(n, k)], g.edges ++ [⟨u, n, w⟩]⟩ := by
  have hev : (newUnit n k).edgeView = [] := by simp [edgeView, newUnit, ids, outEdges]
  have hmount : g.mount (newUnit n k) n = ⟨g.nodes ++ [(n, k)], g.edges⟩ := by
    unfold mount
    rw [removeUnreachable_newUnit]
    simp only [addCircuit, hev, List.filter_nil, List.foldl_nil]
    simp [newUnit, addNode, hn]
  unfold addSubcircuit
  rw [hmount]
  unfold addEdge
  rw [if_neg]
  simp only [List.any_eq_true, not_exists, not_and]
  intro e hem h
  simp only [Bool.and_eq_true, beq_iff_eq] at h
  exact he e hem h.2

/-- The nodes and edges of a mixture of leaves. -/
theorem FreshIds.explicit {u : Node} {E : List (Node × Leaf × LogP)} (h : FreshIds u E) :
    leafMix u E = ⟨(u, .sum) :: E.map fun x => (x.1, .leaf x.2.1), E.map fun x => ⟨u, x.1, some x.2.2⟩⟩ := by
  induction E using List.reverseRecOn with
  | nil => rfl
  | append_singleton E x ih =>
    have hn := h.nodup
    rw [List.map_append, List.nodup_append] at hn
    have hm := h.notMem
    rw [List.map_append, List.mem_append, not_or] at hm
    have h' : FreshIds u E := ⟨hn.1, hm.1⟩
    have hx : x.1 ∉ E.map Prod.fst := fun hx => hn.2.2 _ hx x.1 (by simp) rfl
    rw [leafMix_append, addSubcircuit_leaf, ih h']
    · simp
    · rw [h'.ids, not_or]
      refine ⟨fun h => hm.2 (by simp [h]), hx⟩
    · rw [ih h']
      intro e he
      obtain ⟨y, hy, rfl⟩ := List.mem_map.1 he
      exact fun h => hx (h ▸ List.mem_map_of_mem hy)

theorem FreshIds.reweight {u : Node} {E : List (Node × Leaf × LogP)} (h : FreshIds u E) (f : LogP → LogP) :
    FreshIds u (E.map fun x => (x.1, x.2.1, f x.2.2)) := by
  have : (E.map fun x => (x.1, x.2.1, f x.2.2)).map Prod.fst = E.map Prod.fst := by simp [Function.comp_def]
  exact ⟨this ▸ h.nodup, this ▸ h.notMem⟩

/-- `normalize` of a mixture of leaves. -/
theorem FreshIds.normalizeUnit {u : Node} {E : List (Node × Leaf × LogP)} (h : FreshIds u E) (hne : E ≠ []) :
    (leafMix u E).normalizeUnit u =
      .ok (leafMix u (E.map fun x => (x.1, x.2.1, x.2.2 - LogP.logsumexp (E.map fun x => x.2.2)))) := by
  have hlw : (leafMix u E).logWeights u = .ok (E.map fun x => x.2.2) := by
    unfold logWeights
    rw [h.out]
    clear h hne
    induction E with
    | nil => rfl
    | cons x E ih =>
      rw [List.map_cons, List.mapM_cons, ih]
      rfl
  unfold Graph.normalizeUnit
  rw [hlw]
  simp only [bind, Except.bind]
  obtain ⟨x, E', rfl⟩ := List.exists_cons_of_ne_nil hne
  simp only [List.map_cons]
  have := (h.reweight fun l => l - LogP.logsumexp (x.2.2 :: E'.map fun x => x.2.2)).explicit
  rw [List.map_cons] at this
  rw [this, h.explicit]
  simp [mapWeights, Function.comp_def]

theorem FreshIds.neat {u : Node} {E : List (Node × Leaf × LogP)} (h : FreshIds u E)
    (hf : ∀ x ∈ E, ∃ a, x.2.2 = .fin a) (hs : (E.map fun x => x.2.2.exp).sum = 1) : Neat (leafMix u E) := by
  refine neat_assembled h.assembled ?_ ?_ (fun x _ => layered_newUnit _ _) (fun x _ => neat_leaf _ _) fun _ => ⟨?_, ?_⟩
  · intro i hi hu
    simp only [ids_newUnit, List.mem_singleton] at hu
    exact h.notMem (List.mem_map.2 ⟨i, hi, hu.symm⟩)
  · refine (List.pairwise_map.1 h.nodup).imp ?_
    intro a b hab n hn hn'
    simp only [ids_newUnit, List.mem_singleton] at hn hn'
    exact hab (hn.symm.trans hn')
  · intro x hx
    obtain ⟨a, ha⟩ := hf x hx
    exact ⟨a, by rw [ha]⟩
  · refine Eq.trans ?_ hs
    congr 1

end PM.Graph
