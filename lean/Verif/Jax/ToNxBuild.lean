import Verif.Jax.ToNxLemmas

/-!
# `to_nx` builds the circuit of `collect` and `edgesAt`
-/

namespace PM.Jax
open Graph Spec

theorem addEdge_fresh (g : Circuit) (e : Edge) (h : ∀ e' ∈ g.edges, (e'.src, e'.dst) ≠ (e.src, e.dst)) :
    g.addEdge e.src e.dst e.weight = { g with edges := g.edges ++ [e] } := by
  unfold addEdge
  rw [if_neg]
  simp only [List.any_eq_true, not_exists, not_and, Bool.and_eq_true, beq_iff_eq]
  intro e' he' h1 h2
  exact h e' he' (by rw [h1, h2])

theorem addEdges_fresh : ∀ (l : List Edge) (g : Circuit), (l.map fun e => (e.src, e.dst)).Nodup →
    (∀ e ∈ l, ∀ e' ∈ g.edges, (e'.src, e'.dst) ≠ (e.src, e.dst)) →
    l.foldl (fun g e => g.addEdge e.src e.dst e.weight) g = { g with edges := g.edges ++ l }
  | [], g, _, _ => by simp
  | e :: l, g, hn, hd => by
    rw [List.map_cons, List.nodup_cons] at hn
    rw [List.foldl_cons, addEdge_fresh g e (hd e (by simp)), addEdges_fresh l _ hn.2]
    · simp
    · intro e2 h2 e' he'
      rcases List.mem_append.1 he' with he' | he'
      · exact hd e2 (by simp [h2]) e' he'
      · rw [List.mem_singleton] at he'
        subst he'
        intro h
        exact hn.1 (List.mem_map.2 ⟨e2, h2, h.symm⟩)

/-- The units of a layer that begins at `b`. -/
def unitsAt (b n : ℕ) : List Node := (List.range n).map (b + ·)

theorem nth_unitsAt {b n i : ℕ} (h : i < n) : nth (unitsAt b n) i = .ok (b + i) := by
  simp [nth, unitsAt, h]

theorem unitsAt_nodup (b n : ℕ) : (unitsAt b n).Nodup := List.nodup_range.map fun _ _ h => by simpa using h

theorem mem_unitsAt {b n k : ℕ} : k ∈ unitsAt b n ↔ b ≤ k ∧ k < b + n := by
  simp only [unitsAt, List.mem_map, List.mem_range]
  constructor
  · rintro ⟨i, hi, rfl⟩; omega
  · rintro ⟨h1, h2⟩; exact ⟨k - b, by omega, by omega⟩

theorem connectOne_fold {b n b' m : ℕ} : ∀ (l : List (ℕ × ℕ × Option LogP)) (g : Circuit), (∀ e ∈ l, e.1 < n ∧ e.2.1 < m) →
    l.foldlM (connectOne (unitsAt b n) (unitsAt b' m)) g
      = .ok ((l.map fun e => (⟨b + e.1, b' + e.2.1, e.2.2⟩ : Edge)).foldl (fun g e => g.addEdge e.src e.dst e.weight) g)
  | [], g, _ => rfl
  | e :: l, g, h => by
    have he := h e (by simp)
    rw [List.foldlM_cons, connectOne, nth_unitsAt he.1, nth_unitsAt he.2]
    exact connectOne_fold l _ fun e' h' => h e' (by simp [h'])

/-- The units of child layers that begin at `b`. -/
def kidUnits : ℕ → List Layer → List (List Node)
  | _, [] => []
  | b, c :: cs => unitsAt b c.numberOfNodes :: kidUnits (b + c.size) cs

theorem connect_fold {b n : ℕ} : ∀ (links : List (List (ℕ × ℕ × Option LogP))) (cs : List Layer) (b' : ℕ) (g : Circuit),
    (∀ p ∈ links.zip cs, ∀ e ∈ p.1, e.1 < n ∧ e.2.1 < p.2.numberOfNodes) →
    connect (unitsAt b n) links (kidUnits b' cs) g
      = .ok ((ownEdges b links (bases b' cs)).foldl (fun g e => g.addEdge e.src e.dst e.weight) g)
  | [], _, _, g, _ => rfl
  | _ :: _, [], _, g, _ => rfl
  | l :: links, c :: cs, b', g, h => by
    have h1 := connectOne_fold (b := b) (b' := b') l g (h (l, c) (by simp))
    have h2 := fun g => connect_fold (b := b) links cs (b' + c.size) g fun p hp => h p (by simp [hp])
    simp only [connect, kidUnits, List.zip_cons_cons, List.foldlM_cons, h1] at h2 ⊢
    simp only [ownEdges, bases, List.zip_cons_cons, List.flatMap_cons, List.foldl_append] at h2 ⊢
    exact h2 _

theorem ownEdges_nodup {b n : ℕ} : ∀ (links : List (List (ℕ × ℕ × Option LogP))) (cs : List Layer) (b' : ℕ),
    (∀ p ∈ links.zip cs, ∀ e ∈ p.1, e.1 < n ∧ e.2.1 < p.2.numberOfNodes) →
    (∀ l ∈ links, (l.map fun e => (e.1, e.2.1)).Nodup) →
    ((ownEdges b links (bases b' cs)).map fun e => (e.src, e.dst)).Nodup
  | [], _, _, _, _ => by simp [ownEdges]
  | _ :: _, [], _, _, _ => by simp [ownEdges, bases]
  | l :: links, c :: cs, b', h, hu => by
    have ih := ownEdges_nodup (b := b) links cs (b' + c.size) (fun p hp => h p (by simp [hp])) fun l hl => hu l (by simp [hl])
    have e : ownEdges b (l :: links) (bases b' (c :: cs))
      = (l.map fun e => (⟨b + e.1, b' + e.2.1, e.2.2⟩ : Edge)) ++ ownEdges b links (bases (b' + c.size) cs) := by
      simp [ownEdges, bases]
    rw [e, List.map_append, List.nodup_append]
    refine ⟨?_, ih, ?_⟩
    · have := (hu l (by simp)).map (f := fun q : ℕ × ℕ => (b + q.1, b' + q.2)) (by
        intro p q hpq
        simp only [Prod.mk.injEq, Nat.add_left_cancel_iff] at hpq
        exact Prod.ext hpq.1 hpq.2)
      simpa [List.map_map, Function.comp_def] using this
    · intro p hp q hq hpq
      subst hpq
      obtain ⟨e1, he1, rfl⟩ := List.mem_map.1 hp
      obtain ⟨l1, hl1, rfl⟩ := List.mem_map.1 he1
      obtain ⟨e2, he2, h2⟩ := List.mem_map.1 hq
      obtain ⟨r, hr, l2, hl2, rfl⟩ := mem_ownEdges.1 he2
      obtain ⟨c', hc1, hc2⟩ := zip_bases_triple hr
      have b1 := (mem_bases hc2).1
      have i1 := (h (l, c) (by simp) l1 hl1).2
      have := c.size_eq
      simp only [Prod.mk.injEq] at h2 b1 i1
      have h3 : r.2 + l2.2.1 = b' + l1.2.1 := h2.2
      omega

theorem checkVariables_ok {vars : List Var} {l : List ℕ} (h : ∀ i ∈ l, i < vars.length) : checkVariables vars l = .ok () := by
  have : l.mapM (nth vars) = .ok (l.map fun i => vars.getD i 0) := by
    refine mapM_ok_map fun i hi => ?_
    simp [nth, h i hi]
  rw [checkVariables, this]
  rfl

theorem mem_uniqueSorted {l : List ℕ} {i : ℕ} : i ∈ uniqueSorted l ↔ i ∈ l := by
  simp [uniqueSorted]

theorem tidy_kids {k : ℕ} {L : Layer} (h : Tidy k L) : ∀ c ∈ L.kids, Tidy k c := by
  cases h with
  | input => simp [Layer.kids]
  | sparseSum _ _ h => exact h
  | denseSum _ _ h => exact h
  | product _ _ _ h => exact h

theorem noDense_kids {d : Bool} {L : Layer} (h : NoDense d L) : ∀ c ∈ L.kids, NoDense d c := by
  cases h with
  | input => simp [Layer.kids]
  | sparseSum _ _ h => exact h
  | product _ _ _ h => exact h

theorem variables_lt {k : ℕ} : ∀ L : Layer, Tidy k L → ∀ i ∈ L.variables, i < k := by
  refine Layer.induct fun L ih hT i hi => ?_
  have first : ∀ cs : List Layer, (∀ c ∈ cs, ∀ i ∈ c.variables, i < k) → ∀ i ∈ firstVariables cs, i < k := by
    intro cs hc i hi
    cases cs with
    | nil => simp [firstVariables] at hi
    | cons c cs => exact hc c (by simp) i hi
  have all : ∀ cs : List Layer, (∀ c ∈ cs, ∀ i ∈ c.variables, i < k) → ∀ i ∈ allVariables cs, i < k := by
    intro cs
    induction cs with
    | nil => intro _ i hi; simp [allVariables] at hi
    | cons c cs ih =>
      intro hc i hi
      simp only [allVariables, List.mem_append] at hi
      rcases hi with hi | hi
      · exact hc c (by simp) i hi
      · exact ih (fun c' h => hc c' (by simp [h])) i hi
  have ih' : ∀ c ∈ L.kids, ∀ i ∈ c.variables, i < k := fun c hc => ih c hc (tidy_kids hT c hc)
  cases hT with
  | input v nodes hv => simp only [Layer.variables, List.mem_singleton] at hi; omega
  | sparseSum ws cs => exact first cs ih' i (by simpa [Layer.variables] using hi)
  | denseSum ws cs => exact first cs ih' i (by simpa [Layer.variables] using hi)
  | product n es cs => exact all cs ih' i (by simpa [Layer.variables, mem_uniqueSorted] using hi)

/-- The circuit that `to_nx` adds to. -/
noncomputable def addLayer (vars : List Var) (g : Circuit) (L : Layer) : Circuit :=
  ⟨g.nodes ++ ((L.collect (fun _ L => L.kinds vars) 0).zipIdx g.nodes.length).map (fun p => (p.2, p.1)), g.edges ++ L.edgesAt g.nodes.length⟩

noncomputable def addLayers (vars : List Var) (g : Circuit) (cs : List Layer) : Circuit :=
  ⟨g.nodes ++ ((collects (fun _ L => L.kinds vars) 0 cs).zipIdx g.nodes.length).map (fun p => (p.2, p.1)),
    g.edges ++ edgesAts g.nodes.length cs⟩

theorem collect_depth {X : Type} (own : Layer → List X) : ∀ (L : Layer) (d d' : ℕ), L.collect (fun _ => own) d = L.collect (fun _ => own) d' := by
  refine Layer.induct fun L ih d d' => ?_
  have : ∀ cs : List Layer, (∀ c ∈ cs, ∀ d d', c.collect (fun _ => own) d = c.collect (fun _ => own) d') → ∀ d d',
      collects (fun _ => own) d cs = collects (fun _ => own) d' cs := by
    intro cs
    induction cs with
    | nil => intro _ d d'; rfl
    | cons c cs ih =>
      intro hc d d'
      simp only [collects]
      rw [hc c (by simp) d d', ih (fun c' h => hc c' (by simp [h])) d d']
  rw [Layer.collect_eq, Layer.collect_eq, this _ ih (d + 1) (d' + 1)]

theorem kinds_collect_length (vars : List Var) (L : Layer) (d : ℕ) : (L.collect (fun _ L => L.kinds vars) d).length = L.size :=
  collect_length (fun _ L => L.kinds_length vars) L d

/-- The edges of the circuit begin at its units. -/
def Sources (g : Circuit) : Prop := ∀ e ∈ g.edges, g.nodes.length > e.src

theorem addLayer_length (vars : List Var) (g : Circuit) (L : Layer) : (addLayer vars g L).nodes.length = g.nodes.length + L.size := by
  simp [addLayer, kinds_collect_length]

theorem sources_addLayer {vars : List Var} {g : Circuit} {L : Layer} (hR : Regular L) (h : Sources g) : Sources (addLayer vars g L) := by
  intro e he
  rw [addLayer_length]
  simp only [addLayer, List.mem_append] at he
  rcases he with he | he
  · have := h e he
    omega
  · exact (edgesAt_bounds L hR _ e he).2.1

theorem addLayers_cons (vars : List Var) (g : Circuit) (c : Layer) (cs : List Layer) :
    addLayers vars g (c :: cs) = addLayers vars (addLayer vars g c) cs := by
  have hl := addLayer_length vars g c
  simp only [addLayers, hl]
  simp [addLayer, collects, edgesAts, List.zipIdx_append, kinds_collect_length]

/-- What is to be proved of a layer. -/
def Builds (vars : List Var) (progress : Bool) (L : Layer) : Prop :=
  ∀ g : Circuit, Sources g → L.toNx vars progress g = .ok (addLayer vars g L, unitsAt g.nodes.length L.numberOfNodes)

theorem childrenToNx_eq {vars : List Var} {progress : Bool} : ∀ (cs : List Layer), (∀ c ∈ cs, Builds vars progress c) → (∀ c ∈ cs, Regular c) →
    ∀ g, Sources g → childrenToNx vars progress cs g = .ok (addLayers vars g cs, kidUnits g.nodes.length cs)
  | [], _, _, g, _ => by simp [childrenToNx, addLayers, collects, edgesAts, kidUnits]
  | c :: cs, h, hR, g, hg => by
    have h1 := h c (by simp) g hg
    have h2 := childrenToNx_eq cs (fun c' h' => h c' (by simp [h'])) (fun c' h' => hR c' (by simp [h'])) (addLayer vars g c)
      (sources_addLayer (hR c (by simp)) hg)
    simp only [childrenToNx, h1, h2, bind, Except.bind, addLayers_cons, addLayer_length, kidUnits]

end PM.Jax
