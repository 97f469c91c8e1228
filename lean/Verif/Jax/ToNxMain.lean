import Verif.Jax.ToNxBuild

/-!
# `to_nx` builds the circuit of `collect` and `edgesAt`: the induction
-/

namespace PM.Jax
open Graph Spec

/-- The circuit with `n` new units. -/
def withUnits (g : Circuit) (n : ℕ) (k : Kind Leaf) : Circuit := (newUnits g (List.replicate n k)).1

theorem newUnits_eq (g : Circuit) (n : ℕ) (k : Kind Leaf) :
    newUnits g (List.replicate n k) = (withUnits g n k, unitsAt g.nodes.length n) := by
  simp [withUnits, newUnits, unitsAt]

theorem withUnits_length (g : Circuit) (n : ℕ) (k : Kind Leaf) : (withUnits g n k).nodes.length = g.nodes.length + n := by
  simp [withUnits, newUnits]

theorem sources_withUnits {g : Circuit} (h : Sources g) (n : ℕ) (k : Kind Leaf) : Sources (withUnits g n k) := by
  intro e he
  rw [withUnits_length]
  have := h e he
  omega

/-- After the children the edges do not begin at the new units. -/
theorem children_sources {vars : List Var} {g : Circuit} (hg : Sources g) {n : ℕ} {k : Kind Leaf} {cs : List Layer}
    (hR : ∀ c ∈ cs, Regular c) {e : Edge} (he : e ∈ (addLayers vars (withUnits g n k) cs).edges) :
    ¬ (g.nodes.length ≤ e.src ∧ g.nodes.length + n > e.src) := by
  rintro ⟨h1, h2⟩
  simp only [addLayers, withUnits_length, List.mem_append] at he
  rcases he with he | he
  · have := hg e he
    omega
  · obtain ⟨p, hp, he⟩ := mem_edgesAts.1 he
    have b1 := (mem_bases hp).1
    have b2 := (edgesAt_bounds p.1 (hR _ (List.of_mem_zip (show (p.1, p.2) ∈ _ from hp)).1) _ e he).1
    omega

theorem connect_ok {vars : List Var} {g : Circuit} (hg : Sources g) {n : ℕ} {k : Kind Leaf} {cs : List Layer} (hR : ∀ c ∈ cs, Regular c)
    {links : List (List (ℕ × ℕ × Option LogP))} (hfit : ∀ p ∈ links.zip cs, ∀ e ∈ p.1, e.1 < n ∧ e.2.1 < p.2.numberOfNodes)
    (hu : ∀ l ∈ links, (l.map fun e => (e.1, e.2.1)).Nodup) :
    connect (unitsAt g.nodes.length n) links (kidUnits (g.nodes.length + n) cs) (addLayers vars (withUnits g n k) cs)
      = .ok { addLayers vars (withUnits g n k) cs with
          edges := (addLayers vars (withUnits g n k) cs).edges ++ ownEdges g.nodes.length links (bases (g.nodes.length + n) cs) } := by
  rw [connect_fold links cs _ _ hfit, addEdges_fresh _ _ (ownEdges_nodup links cs _ hfit hu)]
  intro e he e' he' h
  have h1 := children_sources hg hR he'
  obtain ⟨p, hp, l, hl, rfl⟩ := mem_ownEdges.1 he
  obtain ⟨c, hc1, -⟩ := zip_bases_triple hp
  have := (hfit _ hc1 l hl).1
  simp only [Prod.mk.injEq] at h
  have h3 : g.nodes.length + l.1 = e'.src := h.1.symm
  omega

theorem normalizeUnits_ok {g : Circuit} {b n : ℕ} {old own : List Edge} (hg : g.edges = old ++ own)
    (hold : ∀ e ∈ old, ¬ (b ≤ e.src ∧ b + n > e.src)) (hown : ∀ e ∈ own, (b ≤ e.src ∧ b + n > e.src) ∧ e.weight.isSome)
    (hne : ∀ i < n, ∃ e ∈ own, b + i = e.src) :
    (unitsAt b n).foldlM normalizeUnit g = .ok { g with edges := old ++ normalized own } := by
  have hout : ∀ k ∈ unitsAt b n, g.outEdges k = own.filter fun e => e.src == k := by
    intro k hk
    rw [outEdges, hg, List.filter_append, List.filter_eq_nil_iff.2, List.nil_append]
    intro e he
    simp only [beq_iff_eq]
    intro h
    have h' : k = e.src := h.symm
    rw [mem_unitsAt] at hk
    rw [h'] at hk
    exact hold e he hk
  have h := normalize_fold g (unitsAt b n) [] (fun k hk => by
    rw [hout k hk]
    refine ⟨fun e he => (hown e (List.mem_of_mem_filter he)).2, ?_⟩
    obtain ⟨h1, h2⟩ := mem_unitsAt.1 hk
    obtain ⟨e, he, h3⟩ := hne (k - b) (by omega)
    have : e.src = k := by
      have : b + (k - b) = k := by omega
      exact h3.symm.trans this
    intro hnil
    have hmem : e ∈ own.filter fun e => e.src == k := List.mem_filter.2 ⟨he, by simpa using this⟩
    rw [hnil] at hmem
    simp at hmem) (unitsAt_nodup b n) (by simp)
  have h0 : g.edges.map (g.normEdge []) = g.edges := by
    conv_rhs => rw [← List.map_id g.edges]
    apply List.map_congr_left
    intro e _
    simp [normEdge]
  rw [h0] at h
  refine h.trans ?_
  rw [List.nil_append, hg, List.map_append]
  congr 3
  · conv_rhs => rw [← List.map_id old]
    apply List.map_congr_left
    intro e he
    have : e.src ∉ unitsAt b n := fun h => hold e he (mem_unitsAt.1 h)
    simp [normEdge, this]
  · rw [normalized]
    apply List.map_congr_left
    intro e he
    have : e.src ∈ unitsAt b n := mem_unitsAt.2 (hown e he).1
    simp only [normEdge, this, if_true, logTotal, hout _ this]

theorem addLayer_inner {vars : List Var} {g : Circuit} {L : Layer} {n : ℕ} {k : Kind Leaf} (hk : L.kinds vars = List.replicate n k)
    (hn : L.numberOfNodes = n) :
    addLayer vars g L = { addLayers vars (withUnits g n k) L.kids with
      edges := (addLayers vars (withUnits g n k) L.kids).edges ++ L.ownAt g.nodes.length } := by
  have hl := withUnits_length g n k
  have hd : collects (fun _ L => L.kinds vars) (0 + 1) L.kids = collects (fun _ L => L.kinds vars) 0 L.kids := by
    have : ∀ cs : List Layer, ∀ d d', collects (fun _ L => L.kinds vars) d cs = collects (fun _ L => L.kinds vars) d' cs := by
      intro cs
      induction cs with
      | nil => intro d d'; rfl
      | cons c cs ih => intro d d'; simp only [collects]; rw [collect_depth _ c d d', ih d d']
    exact this _ _ _
  simp only [addLayer, addLayers, hl, Layer.collect_eq, Layer.edgesAt_eq, hk, hn, hd]
  simp [withUnits, newUnits, List.zipIdx_append]

theorem sparse_numberOfNodes {ws : List Coo} {cs : List Layer} {n : ℕ} (hne : ws ≠ [])
    (shapes : List.Forall₂ (fun (w : Coo) (c : Layer) => w.rows = n ∧ w.cols = c.numberOfNodes) ws cs) :
    (Layer.sparseSum ws cs).numberOfNodes = n := by
  cases ws with
  | nil => exact absurd rfl hne
  | cons w ws => cases shapes with
    | cons h _ => exact h.1

theorem toNx_builds {vars : List Var} {progress : Bool} : ∀ L : Layer, Regular L → Tidy vars.length L → NoDense progress L →
    Builds vars progress L := by
  refine Layer.induct fun L ih hR hT hD g hg => ?_
  have ih' : ∀ c ∈ L.kids, Builds vars progress c := fun c hc => ih c hc (regular_kids hR c hc) (tidy_kids hT c hc) (noDense_kids hD c hc)
  have hvars := checkVariables_ok (variables_lt L hT)
  have hfit := regular_fit hR
  have hk := regular_kids hR
  cases L with
  | denseSum ws cs => cases hD
  | input v nodes =>
    cases hT with
    | input _ _ hv hp =>
      cases hD with
      | input _ _ hdirac =>
        have h1 : nth vars v = .ok (vars.getD v 0) := by simp [nth, hv]
        have h2 : (nodes.any InputNode.isDirac && !progress) = false := by
          cases progress with
          | true => simp
          | false => simpa using hdirac rfl
        simp only [Layer.toNx, h1, bind, Except.bind, h2]
        simp [newUnits, addLayer, Layer.collect, Layer.kinds, Layer.edgesAt, unitsAt, Layer.numberOfNodes]
  | sparseSum ws cs =>
    cases hR with
    | sparseSum _ _ n hc hne shapes idx weights =>
      have hn := sparse_numberOfNodes hne shapes
      cases hT with
      | sparseSum _ _ _ unique used =>
        have hu : ∀ l ∈ sparseLinks ws, (l.map fun e => (e.1, e.2.1)).Nodup := by
          intro l hl
          obtain ⟨w, hw, rfl⟩ := List.mem_map.1 hl
          simpa [List.map_map, Function.comp_def] using unique w hw
        have hfit' : ∀ p ∈ (sparseLinks ws).zip cs, ∀ e ∈ p.1, e.1 < n ∧ e.2.1 < p.2.numberOfNodes := by
          rw [← hn]; exact hfit
        have h1 := childrenToNx_eq cs ih' hk (withUnits g n .sum) (sources_withUnits hg n .sum)
        have hk : ∀ c ∈ cs, Regular c := hk
        have h2 := connect_ok (vars := vars) (k := .sum) hg hk hfit' hu
        have h3 := normalizeUnits_ok (b := g.nodes.length) (n := n)
          (g := { addLayers vars (withUnits g n .sum) cs with
            edges := (addLayers vars (withUnits g n .sum) cs).edges ++ ownEdges g.nodes.length (sparseLinks ws) (bases (g.nodes.length + n) cs) })
          rfl (fun e he => children_sources hg hk he) (by
            intro e he
            obtain ⟨p, hp, l, hl, rfl⟩ := mem_ownEdges.1 he
            obtain ⟨c, hc1, -⟩ := zip_bases_triple hp
            have hi := (hfit' _ hc1 l hl).1
            refine ⟨⟨?_, ?_⟩, ?_⟩
            · show g.nodes.length ≤ g.nodes.length + l.1
              omega
            · show g.nodes.length + l.1 < g.nodes.length + n
              omega
            · obtain ⟨w, hw, hl'⟩ := List.mem_map.1 (List.of_mem_zip (show (p.1, p.2) ∈ _ from hp)).1
              rw [← hl'] at hl
              obtain ⟨e', -, rfl⟩ := List.mem_map.1 hl
              rfl) (by
            intro i hi
            obtain ⟨w, hw, e, he, hei, -⟩ := weights i hi
            obtain ⟨j, hj, rfl⟩ := List.getElem_of_mem hw
            have hlen : ws.length = cs.length := shapes.length_eq
            refine ⟨⟨g.nodes.length + e.1, (bases (g.nodes.length + n) cs)[j]'(by rw [bases_length]; omega) + e.2.1, some e.2.2⟩,
              mem_ownEdges.2 ⟨((sparseLinks ws)[j]'(by simpa [sparseLinks] using hj), (bases (g.nodes.length + n) cs)[j]'(by
                rw [bases_length]; omega)), ?_, (e.1, e.2.1, some e.2.2), ?_, rfl⟩, by rw [hei]⟩
            · rw [List.mem_iff_getElem]
              refine ⟨j, by simp [sparseLinks, bases_length, hlen]; omega, by simp⟩
            · simp only [sparseLinks, List.getElem_map]
              exact List.mem_map.2 ⟨e, he, rfl⟩)
        simp only [Layer.toNx, hvars, hn, newUnits_eq, h1, withUnits_length, h2, h3, bind, Except.bind]
        rw [addLayer_inner (n := n) (k := .sum) (by simp [Layer.kinds, hn]) hn]
        simp [Layer.ownAt, hn, Layer.kids]
  | product n es cs =>
    cases hT with
    | product _ _ _ _ unique used =>
      have hu : ∀ l ∈ productLinks es, (l.map fun e => (e.1, e.2.1)).Nodup := by
        intro l hl
        obtain ⟨w, hw, rfl⟩ := List.mem_map.1 hl
        have := List.Nodup.of_map Prod.fst (l := w) (unique w hw)
        simpa [List.map_map, Function.comp_def] using this
      have h1 := childrenToNx_eq cs ih' hk (withUnits g n .prod) (sources_withUnits hg n .prod)
      have hk : ∀ c ∈ cs, Regular c := hk
      have hfit' : ∀ p ∈ (productLinks es).zip cs, ∀ e ∈ p.1, e.1 < n ∧ e.2.1 < p.2.numberOfNodes := hfit
      have h2 := connect_ok (vars := vars) (k := .prod) hg hk hfit' hu
      simp only [Layer.toNx, hvars, newUnits_eq, h1, withUnits_length, h2, bind, Except.bind]
      rw [addLayer_inner (n := n) (k := .prod) (by simp [Layer.kinds]) rfl]
      simp [Layer.ownAt, Layer.kids, Layer.numberOfNodes]

/-- The circuit of `to_nx`. -/
theorem toNx_eq {vars : List Var} {progress : Bool} {L : Layer} (hR : Regular L) (hT : Tidy vars.length L) (hD : NoDense progress L) :
    toNx vars progress L = .ok ⟨((L.collect (fun _ L => L.kinds vars) 0).zipIdx 0).map (fun p => (p.2, p.1)), L.edgesAt 0⟩ := by
  have h := toNx_builds L hR hT hD ⟨[], []⟩ (by intro e he; simp at he)
  simp only [toNx, h, bind, Except.bind]
  simp [addLayer]

end PM.Jax
