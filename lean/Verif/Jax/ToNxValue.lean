import Verif.Jax.ToNxStructure
import Verif.Spec.Density

/-!
# The circuit of `to_nx` is layered and has the values of the layers
-/

namespace PM.Jax
open Graph Spec

/-! ### The edges -/

/-- No edge is stored twice. -/
def LinksUnique (L : Layer) : Prop := ∀ l ∈ L.links, (l.map fun e => (e.1, e.2.1)).Nodup

theorem tidy_unique {k : ℕ} {prog : Bool} {L : Layer} (hT : Tidy k L) (hD : NoDense prog L) : LinksUnique L := by
  intro l hl
  cases hT with
  | input => simp [Layer.links] at hl
  | sparseSum ws cs hc unique used =>
    obtain ⟨w, hw, rfl⟩ := List.mem_map.1 hl
    simpa [List.map_map, Function.comp_def] using unique w hw
  | denseSum ws cs => cases hD
  | product n es cs hc unique used =>
    obtain ⟨w, hw, rfl⟩ := List.mem_map.1 hl
    have := List.Nodup.of_map Prod.fst (l := w) (unique w hw)
    simpa [List.map_map, Function.comp_def] using this

theorem normalized_pairs (l : List Edge) : ((normalized l).map fun e => (e.src, e.dst)) = l.map fun e => (e.src, e.dst) := by
  simp [normalized, List.map_map, Function.comp_def]

theorem ownAt_pairs (b : ℕ) (L : Layer) : ((L.ownAt b).map fun e => (e.src, e.dst))
    = (ownEdges b L.links (bases (b + L.numberOfNodes) L.kids)).map fun e => (e.src, e.dst) := by
  cases L with
  | input => simp [Layer.ownAt, Layer.links, ownEdges]
  | sparseSum ws cs => exact normalized_pairs _
  | denseSum ws cs => exact normalized_pairs _
  | product n es cs => rfl

theorem edgesAt_nodup {k : ℕ} {prog : Bool} : ∀ L : Layer, Regular L → Tidy k L → NoDense prog L → ∀ b,
    ((L.edgesAt b).map fun e => (e.src, e.dst)).Nodup := by
  refine Layer.induct fun L ih hR hT hD b => ?_
  have kids : ∀ cs : List Layer, (∀ c ∈ cs, Regular c) → (∀ c ∈ cs, ∀ b, ((c.edgesAt b).map fun e => (e.src, e.dst)).Nodup) → ∀ b,
      ((edgesAts b cs).map fun e => (e.src, e.dst)).Nodup := by
    intro cs
    induction cs with
    | nil => intro _ _ b; simp [edgesAts]
    | cons c cs ihc =>
      intro hRc hc b
      rw [edgesAts, List.map_append, List.nodup_append]
      refine ⟨hc c (by simp) b, ihc (fun c' h => hRc c' (by simp [h])) (fun c' h => hc c' (by simp [h])) _, ?_⟩
      intro p hp q hq hpq
      subst hpq
      obtain ⟨e1, he1, rfl⟩ := List.mem_map.1 hp
      obtain ⟨e2, he2, h2⟩ := List.mem_map.1 hq
      obtain ⟨r, hr, he2⟩ := mem_edgesAts.1 he2
      have b1 := (edgesAt_bounds c (hRc c (by simp)) _ _ he1).2.1
      have b2 := (edgesAt_bounds r.1 (hRc r.1 (by simp [(List.of_mem_zip (show (r.1, r.2) ∈ _ from hr)).1])) _ _ he2).1
      have b3 := (mem_bases hr).1
      simp only [Prod.mk.injEq] at h2
      have h3 := h2.1
      rw [h3] at b2
      omega
  rw [Layer.edgesAt_eq, List.map_append, List.nodup_append]
  refine ⟨kids _ (regular_kids hR) (fun c hc => ih c hc (regular_kids hR c hc) (tidy_kids hT c hc) (noDense_kids hD c hc)) _, ?_, ?_⟩
  · rw [ownAt_pairs]
    exact ownEdges_nodup _ _ _ (regular_fit hR) (tidy_unique hT hD)
  · intro p hp q hq hpq
    subst hpq
    obtain ⟨e1, he1, rfl⟩ := List.mem_map.1 hp
    obtain ⟨e2, he2, h2⟩ := List.mem_map.1 hq
    obtain ⟨r, hr, he1⟩ := mem_edgesAts.1 he1
    obtain ⟨q, hq, l, hl, h3, h4⟩ := mem_ownAt he2
    obtain ⟨c, hc1, hc2⟩ := zip_bases_triple hq
    have i1 := (regular_fit hR _ hc1 l hl).1
    have b1 := (mem_bases hr).1
    have b2 := (edgesAt_bounds r.1 (regular_kids hR r.1 (mem_kids_of_zip hr)) _ _ he1).1
    simp only [Prod.mk.injEq] at h2
    have h5 := h2.1
    rw [← h5] at b2
    omega

variable {vars : List Var} {prog : Bool} {L : Layer}

theorem wf_circuitOf (hR : Regular L) (hT : Tidy vars.length L) (hD : NoDense prog L) : (circuitOf vars L).WF := by
  refine ⟨?_, edgesAt_nodup L hR hT hD 0, ?_, ?_⟩
  · rw [circuitOf_ids]; exact List.nodup_range
  · intro e he
    have := (edgesAt_bounds L hR 0 e he).2.1
    rw [circuitOf_ids, List.mem_range]
    simpa using this
  · intro e he
    have := (edgesAt_bounds L hR 0 e he).2.2.2
    rw [circuitOf_ids, List.mem_range]
    simpa using this

theorem graded_aux : ∀ L : Layer, Regular L → ∀ (b d : ℕ) (depth : ℕ → ℕ),
    Seg depth b (L.collect (fun d L => List.replicate L.numberOfNodes d) d) → ∀ e ∈ L.edgesAt b, depth e.dst = depth e.src + 1 := by
  refine Layer.induct fun L ih hR b d depth hs e he => ?_
  obtain ⟨h1, h2⟩ := seg_collect (fun d L => by simp) hs
  rw [Layer.edgesAt_eq, List.mem_append] at he
  rcases he with he | he
  · obtain ⟨p, hp, he⟩ := mem_edgesAts.1 he
    have hm := mem_kids_of_zip hp
    exact ih p.1 hm (regular_kids hR _ hm) p.2 (d + 1) depth (h2 p hp) e he
  · obtain ⟨q, hq, l, hl, h3, h4⟩ := mem_ownAt he
    obtain ⟨c, hc1, hc2⟩ := zip_bases_triple hq
    obtain ⟨i1, i2⟩ := regular_fit hR _ hc1 l hl
    have d1 := h1 l.1 (by simpa using i1)
    have d2 := (seg_collect (fun d L => by simp) (h2 _ hc2)).1 l.2.1 (by simpa using i2)
    simp only [List.getElem_replicate] at d1 d2
    rw [← h3, ← h4, d1, d2]

theorem graded_circuitOf (hR : Regular L) : (circuitOf vars L).Graded :=
  ⟨_, graded_aux L hR 0 0 _ (seg_getD _ 0)⟩

/-- Every node of a child layer is the child of a node. -/
def LinksUsed (L : Layer) : Prop := ∀ p ∈ L.links.zip L.kids, ∀ j < p.2.numberOfNodes, ∃ e ∈ p.1, e.2.1 = j

theorem tidy_used {k : ℕ} {prog : Bool} {L : Layer} (hT : Tidy k L) (hD : NoDense prog L) : LinksUsed L := by
  intro p hp j hj
  cases hT with
  | input => simp [Layer.links] at hp
  | sparseSum ws cs hc unique used =>
    simp only [Layer.links, sparseLinks, Layer.kids, List.zip_map_left, List.mem_map] at hp
    obtain ⟨q, hq, rfl⟩ := hp
    obtain ⟨e, he, h⟩ := used q hq j hj
    exact ⟨(e.1, e.2.1, some e.2.2), List.mem_map.2 ⟨e, he, rfl⟩, h⟩
  | denseSum ws cs => cases hD
  | product n es cs hc unique used =>
    simp only [Layer.links, productLinks, Layer.kids, List.zip_map_left, List.mem_map] at hp
    obtain ⟨q, hq, rfl⟩ := hp
    obtain ⟨e, he, h⟩ := used q hq j hj
    exact ⟨(e.1, e.2, none), List.mem_map.2 ⟨e, he, rfl⟩, h⟩

/-- There are as many lists of edges as child layers. -/
theorem links_length {L : Layer} (hR : Regular L) : ∀ p ∈ L.kids.zip (bases b L.kids), ∃ l, (l, p.1) ∈ L.links.zip L.kids ∧
    (l, p.2) ∈ L.links.zip (bases b L.kids) := by
  intro p hp
  have hlen : L.links.length = L.kids.length := by
    cases hR with
    | input => rfl
    | sparseSum ws cs n hc hne shapes => simpa [Layer.links, sparseLinks, Layer.kids] using shapes.length_eq
    | denseSum ws cs n hc hne shapes => simpa [Layer.links, denseLinks, Layer.kids] using shapes.length_eq
    | product n es cs hc idx => simpa [Layer.links, productLinks, Layer.kids] using idx.length_eq
  obtain ⟨i, hi, rfl⟩ := List.getElem_of_mem hp
  simp only [List.length_zip, bases_length, Nat.min_self] at hi
  refine ⟨L.links[i]'(by omega), ?_, ?_⟩
  · rw [List.mem_iff_getElem]
    exact ⟨i, by simp; omega, by simp⟩
  · rw [List.mem_iff_getElem]
    exact ⟨i, by simp [bases_length]; omega, by simp⟩

theorem exists_ownAt {b : ℕ} {L : Layer} {p : List (ℕ × ℕ × Option LogP) × ℕ}
    (hp : p ∈ L.links.zip (bases (b + L.numberOfNodes) L.kids)) {l : ℕ × ℕ × Option LogP} (hl : l ∈ p.1) :
    ∃ e ∈ L.ownAt b, b + l.1 = e.src ∧ p.2 + l.2.1 = e.dst := by
  have h : ((b + l.1 : ℕ), (p.2 + l.2.1 : ℕ)) ∈ (L.ownAt b).map fun e => (e.src, e.dst) := by
    rw [ownAt_pairs]
    exact List.mem_map.2 ⟨_, mem_ownEdges.2 ⟨p, hp, l, hl, rfl⟩, rfl⟩
  obtain ⟨e, he, h⟩ := List.mem_map.1 h
  simp only [Prod.mk.injEq] at h
  exact ⟨e, he, h.1.symm, h.2.symm⟩

/-- Every unit below the layer has a parent. -/
theorem has_parent {k : ℕ} {prog : Bool} : ∀ L : Layer, Regular L → Tidy k L → NoDense prog L → ∀ b n, b + L.numberOfNodes ≤ n → n < b + L.size →
    ∃ e ∈ L.edgesAt b, n = e.dst := by
  refine Layer.induct fun L ih hR hT hD b n h1 h2 => ?_
  rw [Layer.size_eq] at h2
  obtain ⟨p, hp, h3, h4⟩ := kids_cover L.kids (b + L.numberOfNodes) n h1 (by omega)
  have hm := mem_kids_of_zip hp
  rw [Layer.edgesAt_eq]
  by_cases h : n < p.2 + p.1.numberOfNodes
  · obtain ⟨l, hl1, hl2⟩ := links_length hR p hp
    obtain ⟨e, he, hj⟩ := tidy_used hT hD _ hl1 (n - p.2) (by simp only; omega)
    obtain ⟨e', he', h5, h6⟩ := exists_ownAt hl2 he
    refine ⟨e', List.mem_append.2 (.inr he'), ?_⟩
    simp only at h6
    omega
  · obtain ⟨e, he, h5⟩ := ih p.1 hm (regular_kids hR _ hm) (tidy_kids hT _ hm) (noDense_kids hD _ hm) p.2 n (by omega) h4
    exact ⟨e, List.mem_append.2 (.inl (mem_edgesAts.2 ⟨p, hp, he⟩)), h5⟩

theorem root_circuitOf (hR : Regular L) (hT : Tidy vars.length L) (hD : NoDense prog L) (h1 : L.numberOfNodes = 1) :
    (circuitOf vars L).root = .ok 0 := by
  have hsize : L.size = (L.size - 1) + 1 := by have := L.size_eq; omega
  have hfil : (circuitOf vars L).ids.filter (fun n => (circuitOf vars L).inDegree n == 0) = [0] := by
    rw [circuitOf_ids, hsize, List.range_succ_eq_map, List.filter_cons_of_pos, List.filter_eq_nil_iff.2]
    · intro n hn
      obtain ⟨j, hj, rfl⟩ := List.mem_map.1 hn
      rw [List.mem_range] at hj
      obtain ⟨e, he, h⟩ := has_parent L hR hT hD 0 (j + 1) (by omega) (by omega)
      have hmem : e ∈ (circuitOf vars L).inEdges (j + 1) := mem_inEdges.2 ⟨he, h.symm⟩
      have := List.length_pos_of_mem hmem
      simp only [inDegree, beq_iff_eq, Nat.succ_eq_add_one]
      omega
    · simp only [inDegree, beq_iff_eq, List.length_eq_zero_iff, inEdges, List.filter_eq_nil_iff]
      intro e he
      have := (edgesAt_bounds L hR 0 e he).2.2.1
      intro h0
      rw [h0, h1] at this
      exact absurd this (by decide)
  simp only [root, hfil]

theorem layered_circuitOf (hR : Regular L) (hT : Tidy vars.length L) (hD : NoDense prog L) (h1 : L.numberOfNodes = 1) :
    Layered (circuitOf vars L) 0 :=
  ⟨wf_circuitOf hR hT hD, graded_circuitOf hR, leafTerminal_circuitOf hR hT hD, weighted_circuitOf hR hT hD, root_circuitOf hR hT hD h1⟩

/-! ### What the units of a layer see of their children -/

/-- The edges of unit `i` of a layer, with the data `F` of their targets, if `F` has the data `vals` on the child layers. -/
theorem own_terms {X : Type} {b n i : ℕ} {F : ℕ → X} {vals : Layer → List X} {x0 : X} : ∀ (links : List (List (ℕ × ℕ × Option LogP)))
    (cs : List Layer) (b' : ℕ), (∀ p ∈ links.zip cs, ∀ e ∈ p.1, e.1 < n ∧ e.2.1 < p.2.numberOfNodes) →
    (∀ p ∈ cs.zip (bases b' cs), ∀ j < p.1.numberOfNodes, F (p.2 + j) = (vals p.1).getD j x0) →
    ((ownEdges b links (bases b' cs)).filter fun e => e.src == b + i).map (fun e => (e.weight, F e.dst))
      = (links.zip (cs.map vals)).flatMap fun p => (p.1.filter fun e => e.1 == i).map fun e => (e.2.2, p.2.getD e.2.1 x0)
  | [], _, _, _, _ => by simp [ownEdges]
  | _ :: _, [], _, _, _ => by simp [ownEdges, bases]
  | l :: links, c :: cs, b', h, hv => by
    have ih := own_terms (b := b) (i := i) links cs (b' + c.size) (fun p hp => h p (by simp [hp])) fun p hp => hv p (by simp [bases, hp])
    have e : ownEdges b (l :: links) (bases b' (c :: cs))
      = (l.map fun e => (⟨b + e.1, b' + e.2.1, e.2.2⟩ : Edge)) ++ ownEdges b links (bases (b' + c.size) cs) := by
      simp [ownEdges, bases]
    rw [e, List.filter_append, List.map_append, ih, List.map_cons, List.zip_cons_cons, List.flatMap_cons]
    congr 1
    rw [List.filter_map, List.map_map]
    have hf : (fun e : Edge => e.src == b + i) ∘ (fun e : ℕ × ℕ × Option LogP => (⟨b + e.1, b' + e.2.1, e.2.2⟩ : Edge))
        = fun e => e.1 == i := by
      funext e
      simp only [Function.comp]
      by_cases h : e.1 = i
      · simp [h]
      · have : ¬ (b + e.1 = b + i) := by omega
        simp [h]
    rw [hf]
    apply List.map_congr_left
    intro e he
    simp only [Function.comp, Prod.mk.injEq, true_and]
    exact hv (c, b') (by simp [bases]) e.2.1 (h (l, c) (by simp) e (List.mem_of_mem_filter he)).2

theorem filter_normalized (l : List Edge) (k : ℕ) : (normalized l).filter (fun e => e.src == k)
    = (l.filter fun e => e.src == k).map fun e =>
      { e with weight := e.weight.map (· - LogP.logsumexp ((l.filter fun e' => e'.src == k).map fun e' => e'.weight.getD 0)) } := by
  rw [normalized, List.filter_map]
  have : (fun e : Edge => e.src == k) ∘ (fun e : Edge => ({ e with weight := e.weight.map (· - LogP.logsumexp ((l.filter fun e' => e'.src == e.src).map fun e' => e'.weight.getD 0)) } : Edge)) = fun e => e.src == k := by
    funext e; rfl
  rw [this]
  apply List.map_congr_left
  intro e he
  have h : e.src = k := by simpa using (List.mem_filter.1 he).2
  rw [h]

/-! ### Scopes -/

theorem nodeScopes_length (L : Layer) : (nodeScopes L).length = L.numberOfNodes := by
  cases L <;> simp [nodeScopes, Layer.numberOfNodes]

theorem layerScopes_eq (cs : List Layer) : layerScopes cs = cs.map nodeScopes := by
  induction cs with
  | nil => simp [layerScopes]
  | cons c cs ih => simp [layerScopes, ih]

theorem mem_unionOf {l : List (Finset ℕ)} {v : ℕ} : v ∈ unionOf l ↔ ∃ s ∈ l, v ∈ s := by
  induction l with
  | nil => simp [unionOf]
  | cons s l ih =>
    have : unionOf (s :: l) = s ∪ unionOf l := rfl
    rw [this, Finset.mem_union, ih]
    simp

theorem smooth_kids {L : Layer} (h : SmoothLayer L) : ∀ c ∈ L.kids, SmoothLayer c := by
  cases h with
  | input => simp [Layer.kids]
  | sparseSum _ _ h => exact h
  | denseSum _ _ h => exact h
  | product _ _ _ h => exact h

/-- The scopes of the units, as sets of variables. -/
noncomputable def scopeAt (vars : List Var) (L : Layer) (n : ℕ) : Finset Var :=
  (((L.collect (fun _ => nodeScopes) 0).getD n ∅).image fun i => vars.getD i 0)

/-- The scopes of the children of a unit. -/
theorem child_scopes {G : Circuit} {b : ℕ} {sc : ℕ → Finset ℕ} {L : Layer} (hR : Regular L) (hP : Placed G b L) {d : ℕ}
    (hs : Seg sc b (L.collect (fun _ => nodeScopes) d)) {i : ℕ} (hi : i < L.numberOfNodes) :
    (G.outEdges (b + i)).map (fun e => sc e.dst)
      = (L.links.zip (layerScopes L.kids)).flatMap fun p => (p.1.filter fun e => e.1 == i).map fun e => p.2.getD e.2.1 ∅ := by
  obtain ⟨h1, h2⟩ := seg_collect (fun _ L => nodeScopes_length L) hs
  have hterms := own_terms (b := b) (i := i) (F := sc) (vals := nodeScopes) (x0 := ∅) L.links L.kids (b + L.numberOfNodes) (regular_fit hR) (by
    intro p hp j hj
    have := (seg_collect (fun _ L => nodeScopes_length L) (h2 p hp)).1 j (by rw [nodeScopes_length]; exact hj)
    rw [this, List.getD_eq_getElem])
  rw [placed_own hR hP hi, layerScopes_eq]
  have e1 : ((L.ownAt b).filter fun e => e.src == b + i).map (fun e => sc e.dst)
      = ((ownEdges b L.links (bases (b + L.numberOfNodes) L.kids)).filter fun e => e.src == b + i).map fun e => sc e.dst := by
    cases L with
    | input => simp [Layer.ownAt, Layer.links, ownEdges]
    | sparseSum ws cs =>
      simp only [Layer.ownAt, filter_normalized, List.map_map]
      rfl
    | denseSum ws cs =>
      simp only [Layer.ownAt, filter_normalized, List.map_map]
      rfl
    | product n es cs => rfl
  rw [e1]
  have e2 := congrArg (List.map Prod.snd) hterms
  simpa [List.map_map, Function.comp_def, List.map_flatMap] using e2

end PM.Jax
