import Verif.Jax.ToNx
import Verif.Jax.LayersLemmas
import Verif.Spec.ToNx
import Verif.Circuit.NormalizeLemmas

/-!
# What `to_nx` builds

The circuit as a function of the layers: `collect` lists the units, `edgesAt` the edges.
-/

namespace PM.Jax
open Graph Spec

/-- The child layers. -/
def Layer.kids : Layer → List Layer
  | .input .. => []
  | .sparseSum _ cs | .denseSum _ cs | .product _ _ cs => cs

/-- The edges into the child layers. -/
noncomputable def Layer.links : Layer → List (List (ℕ × ℕ × Option LogP))
  | .input .. => []
  | .sparseSum ws _ => sparseLinks ws
  | .denseSum ws _ => denseLinks ws
  | .product _ es _ => productLinks es

/-- The classes of the units of the nodes. -/
noncomputable def Layer.kinds (vars : List Var) : Layer → List (Kind Leaf)
  | .input v nodes => nodes.map fun f => .leaf (inputLeaf (vars.getD v 0) f)
  | .sparseSum ws cs => List.replicate (Layer.sparseSum ws cs).numberOfNodes .sum
  | .denseSum ws cs => List.replicate (Layer.denseSum ws cs).numberOfNodes .sum
  | .product n _ _ => List.replicate n .prod

theorem Layer.kinds_length (vars : List Var) (L : Layer) : (L.kinds vars).length = L.numberOfNodes := by
  cases L <;> simp [Layer.kinds, Layer.numberOfNodes]

theorem Layer.induct {P : Layer → Prop} (h : ∀ L : Layer, (∀ c ∈ L.kids, P c) → P L) : ∀ L, P L
  | .input v nodes => h _ (by simp [Layer.kids])
  | .sparseSum ws cs => h _ fun c hc => Layer.induct h c
  | .denseSum ws cs => h _ fun c hc => Layer.induct h c
  | .product n es cs => h _ fun c hc => Layer.induct h c
  termination_by L => sizeOf L
  decreasing_by all_goals
    have := List.sizeOf_lt_of_mem (show c ∈ cs from hc)
    simp +arith at this ⊢; omega

mutual
/-- The number of nodes of a layer and all layers below. -/
def Layer.size : Layer → ℕ
  | .input _ nodes => nodes.length
  | .sparseSum ws cs => (Layer.sparseSum ws cs).numberOfNodes + sizes cs
  | .denseSum ws cs => (Layer.denseSum ws cs).numberOfNodes + sizes cs
  | .product n _ cs => n + sizes cs
def sizes : List Layer → ℕ
  | [] => 0
  | c :: cs => c.size + sizes cs
end

theorem Layer.size_eq (L : Layer) : L.size = L.numberOfNodes + sizes L.kids := by
  cases L <;> simp [Layer.size, Layer.numberOfNodes, Layer.kids, sizes]

mutual
/-- Data of the nodes of a layer (given its depth), followed by those of the layers below, child layer after child layer. -/
def Layer.collect {X : Type} (own : ℕ → Layer → List X) (d : ℕ) : Layer → List X
  | .input v nodes => own d (.input v nodes)
  | .sparseSum ws cs => own d (.sparseSum ws cs) ++ collects own (d + 1) cs
  | .denseSum ws cs => own d (.denseSum ws cs) ++ collects own (d + 1) cs
  | .product n es cs => own d (.product n es cs) ++ collects own (d + 1) cs
def collects {X : Type} (own : ℕ → Layer → List X) (d : ℕ) : List Layer → List X
  | [] => []
  | c :: cs => c.collect own d ++ collects own d cs
end

theorem Layer.collect_eq {X : Type} (own : ℕ → Layer → List X) (d : ℕ) (L : Layer) :
    L.collect own d = own d L ++ collects own (d + 1) L.kids := by
  cases L <;> simp [Layer.collect, Layer.kids, collects]

theorem collect_length {X : Type} {own : ℕ → Layer → List X} (h : ∀ d L, (own d L).length = L.numberOfNodes) :
    ∀ (L : Layer) (d : ℕ), (L.collect own d).length = L.size := by
  refine Layer.induct fun L ih d => ?_
  have : ∀ (cs : List Layer), (∀ c ∈ cs, ∀ d, (c.collect own d).length = c.size) → ∀ d, (collects own d cs).length = sizes cs := by
    intro cs
    induction cs with
    | nil => intro _ d; rfl
    | cons c cs ih => intro hc d; simp [collects, sizes, hc c (by simp), ih fun c' h => hc c' (by simp [h])]
  rw [Layer.collect_eq, Layer.size_eq, List.length_append, h, this _ ih]

/-- The numbers of the first units of child layers. -/
def bases : ℕ → List Layer → List ℕ
  | _, [] => []
  | b, c :: cs => b :: bases (b + c.size) cs

theorem bases_length (cs : List Layer) : ∀ b, (bases b cs).length = cs.length := by
  induction cs with
  | nil => intro b; rfl
  | cons c cs ih => intro b; simp [bases, ih]

/-- The edges of the units from `b` on into child layers that begin at the given numbers. -/
def ownEdges (b : ℕ) (links : List (List (ℕ × ℕ × Option LogP))) (bs : List ℕ) : List Edge :=
  (links.zip bs).flatMap fun p => p.1.map fun e => ⟨b + e.1, p.2 + e.2.1, e.2.2⟩

/-- Normalized weights. -/
noncomputable def normalized (l : List Edge) : List Edge :=
  l.map fun e => { e with weight := e.weight.map (· - LogP.logsumexp ((l.filter fun e' => e'.src == e.src).map fun e' => e'.weight.getD 0)) }

mutual
/-- The edges of the units of a layer, numbered from `b` on, and of the layers below. -/
noncomputable def Layer.edgesAt (b : ℕ) : Layer → List Edge
  | .input .. => []
  | .sparseSum ws cs => edgesAts (b + (Layer.sparseSum ws cs).numberOfNodes) cs
      ++ normalized (ownEdges b (sparseLinks ws) (bases (b + (Layer.sparseSum ws cs).numberOfNodes) cs))
  | .denseSum ws cs => edgesAts (b + (Layer.denseSum ws cs).numberOfNodes) cs
      ++ normalized (ownEdges b (denseLinks ws) (bases (b + (Layer.denseSum ws cs).numberOfNodes) cs))
  | .product n es cs => edgesAts (b + n) cs ++ ownEdges b (productLinks es) (bases (b + n) cs)
noncomputable def edgesAts (b : ℕ) : List Layer → List Edge
  | [] => []
  | c :: cs => c.edgesAt b ++ edgesAts (b + c.size) cs
end

/-- The edges of the units of the layer itself. -/
noncomputable def Layer.ownAt (b : ℕ) : Layer → List Edge
  | .input .. => []
  | .sparseSum ws cs => normalized (ownEdges b (sparseLinks ws) (bases (b + (Layer.sparseSum ws cs).numberOfNodes) cs))
  | .denseSum ws cs => normalized (ownEdges b (denseLinks ws) (bases (b + (Layer.denseSum ws cs).numberOfNodes) cs))
  | .product n es cs => ownEdges b (productLinks es) (bases (b + n) cs)

theorem Layer.edgesAt_eq (b : ℕ) (L : Layer) : L.edgesAt b = edgesAts (b + L.numberOfNodes) L.kids ++ L.ownAt b := by
  cases L <;> simp [Layer.edgesAt, Layer.kids, Layer.ownAt, edgesAts, Layer.numberOfNodes]

/-- The indices of the edges lie within the layers. -/
def LinksFit (L : Layer) : Prop := ∀ p ∈ L.links.zip L.kids, ∀ e ∈ p.1, e.1 < L.numberOfNodes ∧ e.2.1 < p.2.numberOfNodes

theorem mem_bases {cs : List Layer} : ∀ {b : ℕ} {p : Layer × ℕ}, p ∈ cs.zip (bases b cs) → b ≤ p.2 ∧ p.2 + p.1.size ≤ b + sizes cs := by
  induction cs with
  | nil => intro b p h; simp [bases] at h
  | cons c cs ih =>
    intro b p h
    simp only [bases, List.zip_cons_cons, List.mem_cons] at h
    rcases h with rfl | h
    · simp only [sizes]; omega
    · have := ih h
      simp only [sizes]; omega

theorem mem_ownEdges {b : ℕ} {links : List (List (ℕ × ℕ × Option LogP))} {bs : List ℕ} {e : Edge} :
    e ∈ ownEdges b links bs ↔ ∃ p ∈ links.zip bs, ∃ l ∈ p.1, e = ⟨b + l.1, p.2 + l.2.1, l.2.2⟩ := by
  simp only [ownEdges, List.mem_flatMap, List.mem_map]
  constructor
  · rintro ⟨p, hp, l, hl, rfl⟩; exact ⟨p, hp, l, hl, rfl⟩
  · rintro ⟨p, hp, l, hl, rfl⟩; exact ⟨p, hp, l, hl, rfl⟩

theorem mem_ownAt {b : ℕ} {L : Layer} {e : Edge} (h : e ∈ L.ownAt b) :
    ∃ p ∈ L.links.zip (bases (b + L.numberOfNodes) L.kids), ∃ l ∈ p.1, b + l.1 = e.src ∧ p.2 + l.2.1 = e.dst := by
  have key : ∀ {l : List Edge}, e ∈ normalized l → ∃ e' ∈ l, e'.src = e.src ∧ e'.dst = e.dst := by
    intro l h
    obtain ⟨e', he', rfl⟩ := List.mem_map.1 h
    exact ⟨e', he', rfl, rfl⟩
  cases L with
  | input => simp [Layer.ownAt] at h
  | sparseSum ws cs =>
    obtain ⟨e', he', h1, h2⟩ := key h
    obtain ⟨p, hp, l, hl, rfl⟩ := mem_ownEdges.1 he'
    exact ⟨p, hp, l, hl, h1, h2⟩
  | denseSum ws cs =>
    obtain ⟨e', he', h1, h2⟩ := key h
    obtain ⟨p, hp, l, hl, rfl⟩ := mem_ownEdges.1 he'
    exact ⟨p, hp, l, hl, h1, h2⟩
  | product n es cs =>
    obtain ⟨p, hp, l, hl, rfl⟩ := mem_ownEdges.1 h
    exact ⟨p, hp, l, hl, rfl, rfl⟩

/-- Every edge of the list of child layers begins and ends in one of them. -/
theorem mem_edgesAts {cs : List Layer} : ∀ {b : ℕ} {e : Edge}, e ∈ edgesAts b cs ↔ ∃ p ∈ cs.zip (bases b cs), e ∈ p.1.edgesAt p.2 := by
  induction cs with
  | nil => intro b e; simp [edgesAts, bases]
  | cons c cs ih => intro b e; simp [edgesAts, bases, ih]

theorem zip_bases_triple {α : Type} {links : List α} {cs : List Layer} {b : ℕ} {p : α × ℕ} (h : p ∈ links.zip (bases b cs)) :
    ∃ c, (p.1, c) ∈ links.zip cs ∧ (c, p.2) ∈ cs.zip (bases b cs) := by
  induction cs generalizing links b with
  | nil => simp [bases] at h
  | cons c cs ih =>
    cases links with
    | nil => simp at h
    | cons l links =>
      simp only [bases, List.zip_cons_cons, List.mem_cons] at h ⊢
      rcases h with rfl | h
      · exact ⟨c, .inl rfl, .inl rfl⟩
      · obtain ⟨c', h1, h2⟩ := ih h
        exact ⟨c', .inr h1, .inr h2⟩

theorem regular_fit {L : Layer} (h : Regular L) : LinksFit L := by
  intro p hp e he
  cases h with
  | input => simp [Layer.links] at hp
  | sparseSum ws cs n hc hne shapes idx _ =>
    simp only [Layer.links, sparseLinks, Layer.kids, List.zip_map_left, List.mem_map] at hp
    obtain ⟨q, hq, rfl⟩ := hp
    simp only [Prod.map, id, List.mem_map] at he
    obtain ⟨e', he', rfl⟩ := he
    obtain ⟨h1, h2⟩ := mem_zip_of_forall₂ shapes hq
    have hw : q.1 ∈ ws := (List.of_mem_zip (show (q.1, q.2) ∈ _ from hq)).1
    have hi := idx q.1 hw e' he'
    refine ⟨?_, by simpa [Prod.map, ← h2] using hi.2⟩
    have : (Layer.sparseSum ws cs).numberOfNodes = n := by
      cases ws with
      | nil => exact absurd rfl hne
      | cons w ws => cases shapes with
        | cons h _ => exact h.1
    rw [this, ← h1]
    exact hi.1
  | denseSum ws cs n hc hne shapes _ =>
    simp only [Layer.links, denseLinks, Layer.kids, List.zip_map_left, List.mem_map] at hp
    obtain ⟨q, hq, rfl⟩ := hp
    simp only [Prod.map, id, List.mem_flatMap, List.mem_map] at he
    obtain ⟨r, hr, l, hl, rfl⟩ := he
    obtain ⟨h1, h2⟩ := mem_zip_of_forall₂ shapes hq
    have : (Layer.denseSum ws cs).numberOfNodes = n := by
      cases ws with
      | nil => exact absurd rfl hne
      | cons w ws => cases shapes with
        | cons h _ => exact h.1
    rw [this, ← h1]
    have hr' := List.snd_lt_of_mem_zipIdx hr
    have hl' := List.snd_lt_of_mem_zipIdx hl
    refine ⟨by simpa using hr', ?_⟩
    rw [h2 r.1 (List.fst_mem_of_mem_zipIdx hr)] at hl'
    simpa using hl'
  | product n es cs hc idx =>
    simp only [Layer.links, productLinks, Layer.kids, List.zip_map_left, List.mem_map] at hp
    obtain ⟨q, hq, rfl⟩ := hp
    simp only [Prod.map, id, List.mem_map] at he
    obtain ⟨e', he', rfl⟩ := he
    exact mem_zip_of_forall₂ idx hq e' he'

theorem regular_kids {L : Layer} (h : Regular L) : ∀ c ∈ L.kids, Regular c := by
  cases h with
  | input => simp [Layer.kids]
  | sparseSum _ _ _ h => exact h
  | denseSum _ _ _ h => exact h
  | product _ _ _ h => exact h

/-- Edges begin at a unit of the layer or below it, and end below it. -/
theorem edgesAt_bounds : ∀ L : Layer, Regular L → ∀ b, ∀ e ∈ L.edgesAt b, b ≤ e.src ∧ b + L.size > e.src ∧
    b + L.numberOfNodes ≤ e.dst ∧ b + L.size > e.dst := by
  refine Layer.induct fun L ih hR b e he => ?_
  rw [Layer.edgesAt_eq, List.mem_append] at he
  have hsize := L.size_eq
  rcases he with he | he
  · obtain ⟨p, hp, he⟩ := mem_edgesAts.1 he
    obtain ⟨h1, h2⟩ := mem_bases hp
    have hk := (List.of_mem_zip (show (p.1, p.2) ∈ _ from hp)).1
    obtain ⟨a1, a2, a3, a4⟩ := ih p.1 hk (regular_kids hR p.1 hk) p.2 e he
    refine ⟨?_, ?_, ?_, ?_⟩ <;> omega
  · obtain ⟨p, hp, l, hl, h1, h2⟩ := mem_ownAt he
    obtain ⟨c, hc1, hc2⟩ := zip_bases_triple hp
    obtain ⟨i1, i2⟩ := regular_fit hR _ hc1 l hl
    obtain ⟨h3, h4⟩ := mem_bases hc2
    have := c.size_eq
    simp only at i2 h3 h4
    refine ⟨?_, ?_, ?_, ?_⟩ <;> omega

end PM.Jax
