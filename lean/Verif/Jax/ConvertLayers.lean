import Verif.Jax.ConvertLemmas

/-! Helper lemmas: each layer that the conversion creates has the values of its units. -/

namespace PM.Jax
open Graph Spec Classical

/-- What the conversion is proved for. -/
structure Setting (env : Env) (g : Circuit) (r : Node) (sc : Node → Finset Var) : Prop where
  layered : Layered g r
  smooth : Scoped g sc
  decomposable : Decomposable g sc
  normalized : NormalizedSums g
  valid : ∀ n d, g.kind? n = some (.leaf d) → d.Valid
  convertible : ∀ n d, g.kind? n = some (.leaf d) → LayerLeaf env d
  unmixed : GaussianUnmixed g
  nonempty : ∀ n ∈ g.ids, (sc n).Nonempty

theorem Setting.subset {env : Env} {g : Circuit} {r : Node} {sc : Node → Finset Var} (S : Setting env g r sc) {n : Node} (h : n ∈ g.ids) :
    sc n ⊆ sc r :=
  scope_mono S.layered.wf S.layered.leaves S.smooth (root_mem S.layered.root).1
    (reachable_of_root S.layered.wf S.layered.graded.acyclic S.layered.root n h)

/-- The nodes of a layer have the values of the units. -/
def HasValues (env : Env) (g : Circuit) (V : Finset Var) (L : Layer) (nodes : List Node) : Prop :=
  ∀ (x : Var → ℝ) (f : Node → ℝ) (a : ℕ → ℝ), InDomain env.states g x → CircuitValue g (fun d => layerDensity env d (x d.var)) f →
    (∀ v ∈ V, a ((V.sort (· ≤ ·)).idxOf v) = x v) → layerValue a L = nodes.map f

/-- What is known about a layer over the scope `s`. -/
structure Faithful (env : Env) (g : Circuit) (sc : Node → Finset Var) (V s : Finset Var) (c : Converter) : Prop where
  vars : c.layer.variables = indicesOf V s
  number : c.layer.numberOfNodes = c.nodes.length
  regular : Regular c.layer
  values : HasValues env g V c.layer c.nodes
  one : InitialScopes g sc V → ∀ v, s = {v} → OneVariable ((V.sort (· ≤ ·)).idxOf v) c.layer
  aligned : InitialScopes g sc V → ∀ j, indicesOf V s = List.range j → Aligned j c.layer

/-- What is known about a layer of a level. -/
structure Good (env : Env) (g : Circuit) (sc : Node → Finset Var) (V : Finset Var) (level : List Node) (c : Converter) : Prop where
  ne : c.nodes ≠ []
  sublist : c.nodes.Sublist level
  sub : ∀ n ∈ c.nodes, n ∈ level
  same : ∀ n ∈ c.nodes, ∀ m ∈ level, m ∈ c.nodes ↔ typeOf g m = typeOf g n ∧ sc m = sc n
  faithful : ∀ n ∈ c.nodes, Faithful env g sc V (sc n) c

/-- What is known about the layers of a level. -/
structure Covered (env : Env) (g : Circuit) (sc : Node → Finset Var) (V : Finset Var) (level : List Node) (cs : List Converter) : Prop where
  good : ∀ c ∈ cs, Good env g sc V level c
  cover : ∀ n ∈ level, ∃ c ∈ cs, n ∈ c.nodes
  disjoint : cs.Pairwise fun c c' => ∀ n ∈ c.nodes, n ∉ c'.nodes

theorem zip_filter {α : Type} (l : List α) (k : α → Bool) : ((l.zip (l.map k)).filter fun p => p.2).map Prod.fst = l.filter k := by
  induction l with
  | nil => rfl
  | cons x l ih =>
    rw [List.map_cons, List.zip_cons_cons]
    by_cases h : k x
    · rw [List.filter_cons_of_pos (by simpa using h), List.filter_cons_of_pos h, List.map_cons, ih]
    · rw [List.filter_cons_of_neg (by simpa using h), List.filter_cons_of_neg h, ih]

theorem typeOf_sum {g : Circuit} {n : Node} (h : n ∈ g.ids) : typeOf g n = .sum ↔ g.kind? n = some .sum := by
  obtain ⟨k, hk⟩ := exists_kind? h
  rw [typeOf, hk]
  cases k with
  | leaf d => cases d <;> simp [unitType]
  | _ => simp [unitType]

theorem typeOf_prod {g : Circuit} {n : Node} (h : n ∈ g.ids) : typeOf g n = .prod ↔ g.kind? n = some .prod := by
  obtain ⟨k, hk⟩ := exists_kind? h
  rw [typeOf, hk]
  cases k with
  | leaf d => cases d <;> simp [unitType]
  | _ => simp [unitType]

theorem typeOf_leaf {g : Circuit} {n : Node} (h : n ∈ g.ids) : (typeOf g n).isLeaf = true ↔ ∃ d, g.kind? n = some (.leaf d) := by
  obtain ⟨k, hk⟩ := exists_kind? h
  rw [typeOf, hk]
  cases k with
  | leaf d => cases d <;> simp [unitType, UnitType.isLeaf]
  | _ => simp [unitType, UnitType.isLeaf]

/-! ### Sums -/

/-- The edges of a unit into a child layer. -/
noncomputable def edgesInto (g : Circuit) (c : Converter) (n : Node) : List Edge := (g.outEdges n).filter fun e => e.dst ∈ c.nodes

theorem sumEntries_ok {g : Circuit} (hw : Weighted g) {nodes : List Node} (hn : ∀ n ∈ nodes, g.kind? n = some .sum) (c : Converter) :
    sumEntries g nodes c = .ok (nodes.zipIdx.flatMap fun p =>
      ((edgesInto g c p.1).map fun e => (c.nodes.idxOf e.dst, e.weight.getD 0)).map (Prod.mk p.2)) := by
  have h : nodes.zipIdx.mapM (fun p => ((g.outEdges p.1).filter fun e => e.dst ∈ c.nodes).mapM fun e => do
      let w ← readWeight e
      (.ok (p.2, c.nodes.idxOf e.dst, w) : Except PyErr _)) = .ok (nodes.zipIdx.map fun p =>
      ((edgesInto g c p.1).map fun e => (c.nodes.idxOf e.dst, e.weight.getD 0)).map (Prod.mk p.2)) := by
    apply mapM_ok_map
    intro p hp
    rw [List.map_map]
    apply mapM_ok_map
    intro e he
    have hs := hw p.1 (hn p.1 (List.fst_mem_of_mem_zipIdx hp)) e (List.mem_of_mem_filter he)
    obtain ⟨w, hw⟩ := Option.isSome_iff_exists.1 hs
    simp [readWeight, hw, bind, Except.bind]
  rw [sumEntries, h, List.flatMap_def]
  rfl

theorem linWeight_getD {e : Edge} (h : e.weight.isSome) : (e.weight.getD 0).exp = linWeight e := by
  obtain ⟨w, hw⟩ := Option.isSome_iff_exists.1 h
  simp [linWeight, hw]

/-- Edges of a unit lie in exactly one of the child layers `cs`. -/
theorem sum_over_layers {g : Circuit} {cs : List Converter} {n : Node} (φ : Edge → ℝ)
    (hd : cs.Pairwise fun c c' => ∀ n ∈ c.nodes, n ∉ c'.nodes) (hc : ∀ d ∈ g.succ n, ∃ c ∈ cs, d ∈ c.nodes) :
    (cs.map fun c => ((edgesInto g c n).map φ).sum).sum = ((g.outEdges n).map φ).sum :=
  partition_sum cs (g.outEdges n) (fun c e => e.dst ∈ c.nodes) φ
    (fun _ _ => hd.imp fun h h1 => h _ h1) (fun _ he => hc _ (dst_mem_succ he))

theorem sumLayer_good {env : Env} {g : Circuit} {r : Node} {sc : Node → Finset Var} (S : Setting env g r sc)
    {level next : List Node} {cs : List Converter} (hc : Covered env g sc (sc r) next cs) (hl : ∀ n ∈ level, n ∈ g.ids)
    (hnext : ∀ n ∈ next, n ∈ g.ids) (hch : ∀ n ∈ level, ∀ d ∈ g.succ n, d ∈ next) (hconv : ConvertibleLevel g sc level next)
    (s : Finset Var) (nodes : List Node) (hne : nodes ≠ []) (hnodes : ∀ n, n ∈ nodes ↔ n ∈ level ∧ typeOf g n = .sum ∧ sc n = s) :
    ∃ c, sumLayer g nodes (indicesOf (sc r) s) cs = .ok c ∧ c.nodes = nodes ∧ Faithful env g sc (sc r) s c := by
  have hsum : ∀ n ∈ nodes, g.kind? n = some .sum := fun n hn =>
    (typeOf_sum (hl n ((hnodes n).1 hn).1)).1 ((hnodes n).1 hn).2.1
  obtain ⟨n₀, hn₀⟩ := List.exists_mem_of_ne_nil _ hne
  have hs : s = sc n₀ := ((hnodes n₀).1 hn₀).2.2.symm
  have hn₀i : n₀ ∈ g.ids := hl _ ((hnodes n₀).1 hn₀).1
  have hsV : s ⊆ sc r := hs ▸ S.subset hn₀i
  have hsne : s.Nonempty := hs ▸ S.nonempty _ hn₀i
  -- which child layers are kept
  let keep : Converter → Bool := fun c => decide (c.layer.variables = indicesOf (sc r) s)
  have hkeep : ∀ c ∈ cs, ∀ m ∈ c.nodes, (keep c = true ↔ sc m = s) := by
    intro c hcc m hm
    have hm' := (hc.good c hcc).sub m hm
    simp only [keep, decide_eq_true_eq]
    rw [((hc.good c hcc).faithful m hm).vars]
    exact indicesOf_inj (S.subset (hnext m hm')) hsV
  have h1 : cs.mapM (fun c => sameVariables c.layer.variables (indicesOf (sc r) s)) = .ok (cs.map keep) := by
    apply mapM_ok_map
    intro c hcc
    obtain ⟨m, hm⟩ := List.exists_mem_of_ne_nil _ (hc.good c hcc).ne
    have hm' := (hc.good c hcc).sub m hm
    rw [((hc.good c hcc).faithful m hm).vars]
    rw [sameVariables_indices hsV (S.subset (hnext m hm')) hsne (S.nonempty _ (hnext m hm'))
      (by rw [hs]; exact hconv.sumSize n₀ ((hnodes n₀).1 hn₀).1 (hsum n₀ hn₀) m hm')]
    congr 1
    rw [Bool.eq_iff_iff, hkeep c hcc m hm, decide_eq_true_eq]
  set F := cs.filter keep with hF
  have hFcs : ∀ c ∈ F, c ∈ cs := fun c hcF => List.mem_of_mem_filter hcF
  have hFdis : F.Pairwise fun c c' => ∀ n ∈ c.nodes, n ∉ c'.nodes := hc.disjoint.sublist List.filter_sublist
  have hFcov : ∀ n ∈ nodes, ∀ d ∈ g.succ n, ∃ c ∈ F, d ∈ c.nodes := by
    intro n hn d hd
    obtain ⟨c, hcc, hdc⟩ := hc.cover d (hch n ((hnodes n).1 hn).1 d hd)
    refine ⟨c, List.mem_filter.2 ⟨hcc, (hkeep c hcc d hdc).2 ?_⟩, hdc⟩
    rw [S.smooth.sum n (hsum n hn) d hd, ((hnodes n).1 hn).2.2]
  have hFne : F ≠ [] := by
    obtain ⟨d, hd⟩ := List.exists_mem_of_ne_nil _ (S.smooth.sumNe n₀ (hsum n₀ hn₀))
    obtain ⟨c, hcF, -⟩ := hFcov n₀ hn₀ d hd
    exact List.ne_nil_of_mem hcF
  let B : Converter → Node → List (ℕ × LogP) := fun c n => (edgesInto g c n).map fun e => (c.nodes.idxOf e.dst, e.weight.getD 0)
  let W : Converter → Coo := fun c =>
    Coo.mk nodes.length c.layer.numberOfNodes (nodes.zipIdx.flatMap fun p => (B c p.1).map (Prod.mk p.2))
  have h2 : F.mapM (fun c => do
      let entries ← sumEntries g nodes c
      if entries = [] then (.error .assertionError : Except PyErr Coo)
      else .ok (Coo.mk nodes.length c.layer.numberOfNodes entries)) = .ok (F.map W) := by
    apply mapM_ok_map
    intro c hcF
    rw [sumEntries_ok S.layered.weighted hsum]
    simp only [bind, Except.bind]
    rw [if_neg]
    obtain ⟨m, hm⟩ := List.exists_mem_of_ne_nil _ (hc.good c (hFcs c hcF)).ne
    have hm' := (hc.good c (hFcs c hcF)).sub m hm
    have hms : sc m = s := (hkeep c (hFcs c hcF) m hm).1 (List.mem_filter.1 hcF).2
    obtain ⟨p, hp, hps, hmp⟩ := hconv.sumParent n₀ ((hnodes n₀).1 hn₀).1 (hsum n₀ hn₀) m hm' (by rw [hms, hs])
    have hpn : p ∈ nodes := (hnodes p).2 ⟨hp, (typeOf_sum (hl p hp)).2 hps, by rw [← S.smooth.sum p hps m hmp, hms]⟩
    obtain ⟨i, hi, hpi⟩ := List.getElem_of_mem hpn
    obtain ⟨e, he, rfl⟩ := List.mem_map.1 hmp
    apply List.ne_nil_of_mem (a := (i, c.nodes.idxOf e.dst, e.weight.getD 0))
    rw [List.mem_flatMap]
    refine ⟨(p, i), ?_, ?_⟩
    · rw [List.mem_zipIdx_iff_getElem?]
      simp [List.getElem?_eq_getElem hi, hpi]
    · rw [List.map_map]
      exact List.mem_map.2 ⟨e, List.mem_filter.2 ⟨he, by simpa using hm⟩, rfl⟩
  have hres : sumLayer g nodes (indicesOf (sc r) s) cs = .ok ⟨.sparseSum (F.map W) (F.map Converter.layer), nodes⟩ := by
    rw [sumLayer, h1]
    simp only [bind, Except.bind]
    rw [zip_filter, ← hF]
    simp only [bind, Except.bind] at h2
    rw [h2]
    simp only
    rw [if_neg hFne]
  have hblock : ∀ c, ∀ i (hi : i < nodes.length), (W c).entries.filter (fun e => e.1 == i) = (B c nodes[i]).map (Prod.mk i) :=
    fun c i hi => filter_rows' (B c) nodes hi
  have hweight : ∀ n ∈ nodes, ∀ e ∈ g.outEdges n, e.weight.isSome := fun n hn => S.layered.weighted n (hsum n hn)
  refine ⟨_, hres, rfl, ?_, ?_, ?_, ?_, ?_, ?_⟩
  · -- variables
    cases hFF : F with
    | nil => exact absurd hFF hFne
    | cons c F' =>
      have hcF : c ∈ F := by rw [hFF]; simp
      simp only [List.map_cons, Layer.variables, firstVariables]
      have := (List.mem_filter.1 hcF).2
      simpa [keep] using this
  · cases hFF : F with
    | nil => exact absurd hFF hFne
    | cons c F' => simp [Layer.numberOfNodes, W]
  · -- regular
    refine Regular.sparseSum _ _ nodes.length ?_ (by simpa using hFne) ?_ ?_ ?_
    · intro c hcL
      obtain ⟨c', hc', rfl⟩ := List.mem_map.1 hcL
      obtain ⟨m, hm⟩ := List.exists_mem_of_ne_nil _ (hc.good c' (hFcs c' hc')).ne
      exact ((hc.good c' (hFcs c' hc')).faithful m hm).regular
    · rw [List.forall₂_map_left_iff, List.forall₂_map_right_iff, List.forall₂_same]
      intro c _
      exact ⟨rfl, rfl⟩
    · intro w hw e he
      obtain ⟨c, hcF, rfl⟩ := List.mem_map.1 hw
      obtain ⟨m, hm⟩ := List.exists_mem_of_ne_nil _ (hc.good c (hFcs c hcF)).ne
      obtain ⟨⟨n, i⟩, hp, he'⟩ := List.mem_flatMap.1 he
      obtain ⟨b, hb, rfl⟩ := List.mem_map.1 he'
      obtain ⟨ed, hed, rfl⟩ := List.mem_map.1 hb
      have hdst : ed.dst ∈ c.nodes := by simpa using (List.mem_filter.1 hed).2
      refine ⟨?_, ?_⟩
      · have := (List.mem_zipIdx hp).2.1
        simpa [W] using this
      · simp only [W]
        rw [((hc.good c (hFcs c hcF)).faithful m hm).number]
        exact List.idxOf_lt_length_of_mem hdst
    · intro i hi
      have hn : nodes[i] ∈ nodes := List.getElem_mem hi
      have h1 := S.normalized _ (hsum _ hn)
      have hex : ∃ e ∈ g.outEdges nodes[i], linWeight e ≠ 0 := by
        by_contra hno
        push Not at hno
        rw [List.sum_eq_zero] at h1
        · exact zero_ne_one h1
        · intro y hy
          obtain ⟨e, he, rfl⟩ := List.mem_map.1 hy
          exact hno e he
      obtain ⟨e, he, hw⟩ := hex
      obtain ⟨c, hcF, hdc⟩ := hFcov _ hn e.dst (dst_mem_succ he)
      refine ⟨W c, List.mem_map.2 ⟨c, hcF, rfl⟩, (i, c.nodes.idxOf e.dst, e.weight.getD 0), ?_, rfl, ?_⟩
      · apply List.mem_of_mem_filter (p := fun e => e.1 == i)
        rw [hblock c i hi, List.map_map]
        exact List.mem_map.2 ⟨e, List.mem_filter.2 ⟨he, by simpa using hdc⟩, rfl⟩
      · intro h
        apply hw
        rw [← linWeight_getD (hweight _ hn e he)]
        simp only at h
        rw [h, LogP.exp_negInf]
  · -- values
    intro x f a hx hf ha
    have hnum : (Layer.sparseSum (F.map W) (F.map Converter.layer)).numberOfNodes = nodes.length := by
      cases hFF : F with
      | nil => exact absurd hFF hFne
      | cons c F' => simp [Layer.numberOfNodes, W]
    have hvals : layerValues a (F.map Converter.layer) = F.map fun c => c.nodes.map f := by
      rw [layerValues_map, List.map_map]
      apply List.map_congr_left
      intro c hcF
      obtain ⟨m, hm⟩ := List.exists_mem_of_ne_nil _ (hc.good c (hFcs c hcF)).ne
      exact ((hc.good c (hFcs c hcF)).faithful m hm).values x f a hx hf ha
    simp only [layerValue]
    rw [hnum, hvals]
    apply List.ext_getElem (by simp)
    intro i h1 h2
    have hi : i < nodes.length := by simpa using h2
    have hn : nodes[i] ∈ nodes := List.getElem_mem hi
    rw [List.getElem_map, List.getElem_range, List.getElem_map, List.zip_map', List.flatMap_map]
    have hterm : ∀ c ∈ F, sparseTerms (W c) (c.nodes.map f) i = (edgesInto g c nodes[i]).map fun e => (linWeight e, f e.dst) := by
      intro c hcF
      rw [sparseTerms, hblock c i hi, List.map_map, List.map_map]
      apply List.map_congr_left
      intro e he
      obtain ⟨he1, he2⟩ := List.mem_filter.1 he
      simp only [Function.comp]
      rw [linWeight_getD (hweight _ hn e he1), getD_idxOf_map (by simpa using he2)]
    have hflat : (F.flatMap fun c => sparseTerms (W c) (c.nodes.map f) i)
        = F.flatMap fun c => (edgesInto g c nodes[i]).map fun e => (linWeight e, f e.dst) := by
      rw [List.flatMap_def, List.flatMap_def, List.map_congr_left hterm]
    have sum_flat : ∀ φ : ℝ × ℝ → ℝ, ((F.flatMap fun c => (edgesInto g c nodes[i]).map fun e => (linWeight e, f e.dst)).map φ).sum
        = ((g.outEdges nodes[i]).map fun e => φ (linWeight e, f e.dst)).sum := by
      intro φ
      rw [← sum_over_layers (fun e => φ (linWeight e, f e.dst)) hFdis (hFcov _ hn), List.map_flatMap, List.flatMap_def, List.sum_flatten,
        List.map_map]
      congr 1
      apply List.map_congr_left
      intro c _
      simp only [Function.comp, List.map_map]
      rfl
    have hnn := S.normalized _ (hsum _ hn)
    rw [hflat, weightedMean, sum_flat (fun p => p.1 * p.2), sum_flat (fun p => p.1), hf.sum _ (hsum _ hn)]
    have : ((g.outEdges nodes[i]).map fun e => linWeight e) = (g.outEdges nodes[i]).map linWeight := rfl
    rw [this, hnn, div_one]
  · intro hi v hv
    refine OneVariable.sparseSum _ _ (by simpa using hFne) ?_
    intro L hL
    obtain ⟨c, hcF, rfl⟩ := List.mem_map.1 hL
    obtain ⟨m, hm⟩ := List.exists_mem_of_ne_nil _ (hc.good c (hFcs c hcF)).ne
    have hms : sc m = s := (hkeep c (hFcs c hcF) m hm).1 (List.mem_filter.1 hcF).2
    exact ((hc.good c (hFcs c hcF)).faithful m hm).one hi v (by rw [hms, hv])
  · intro hi j hj
    refine Aligned.sparseSum _ _ _ ?_
    intro L hL
    obtain ⟨c, hcF, rfl⟩ := List.mem_map.1 hL
    obtain ⟨m, hm⟩ := List.exists_mem_of_ne_nil _ (hc.good c (hFcs c hcF)).ne
    have hms : sc m = s := (hkeep c (hFcs c hcF) m hm).1 (List.mem_filter.1 hcF).2
    exact ((hc.good c (hFcs c hcF)).faithful m hm).aligned hi j (by rw [hms, hj])

/-! ### Products -/

/-- The children of a unit in a child layer. -/
noncomputable def childrenIn (g : Circuit) (c : Converter) (n : Node) : List Node := (g.succ n).filter fun d => d ∈ c.nodes

theorem length_le_one_of_disjoint {sc : Node → Finset Var} {l : List Node} (hp : l.Pairwise fun a b => Disjoint (sc a) (sc b))
    (hs : ∀ a ∈ l, ∀ b ∈ l, sc a = sc b) (hn : ∀ a ∈ l, (sc a).Nonempty) : l.length ≤ 1 := by
  match l, hp, hs, hn with
  | [], _, _, _ => simp
  | [_], _, _, _ => simp
  | a :: b :: _, hp, hs, hn =>
    have h1 := (List.pairwise_cons.1 hp).1 b (by simp)
    rw [hs a (by simp) b (by simp), disjoint_self] at h1
    have h2 := hn b (by simp)
    rw [h1] at h2
    simp at h2

theorem productValues_ok {env : Env} {g : Circuit} {r : Node} {sc : Node → Finset Var} (S : Setting env g r sc)
    {level next : List Node} {cs : List Converter} (hc : Covered env g sc (sc r) next cs)
    (hnext : ∀ n ∈ next, n ∈ g.ids) (hch : ∀ n ∈ level, ∀ d ∈ g.succ n, d ∈ next) (hconv : ConvertibleLevel g sc level next)
    {scope : Node → Except PyErr (Finset Var)} (hscope : ∀ n ∈ g.ids, scope n = .ok (sc n)) {n : Node} (hn : n ∈ level)
    (hp : g.kind? n = some .prod) {c : Converter} (hcc : c ∈ cs) :
    productValues g scope ((sc r).sort (· ≤ ·)) n c = .ok ((childrenIn g c n).map fun d => c.nodes.idxOf d) := by
  obtain ⟨m, hm⟩ := List.exists_mem_of_ne_nil _ (hc.good c hcc).ne
  have hm' := (hc.good c hcc).sub m hm
  have hiff : ∀ d ∈ g.succ n,
      ((c.layer.variables.map fun i => ((sc r).sort (· ≤ ·)).getD i 0).toFinset = sc d ↔ d ∈ c.nodes) := by
    intro d hd
    have hd' := hch n hn d hd
    rw [((hc.good c hcc).faithful m hm).vars, indicesOf_toFinset (S.subset (hnext m hm')), (hc.good c hcc).same m hm d hd']
    exact ⟨fun h => ⟨hconv.productType n hn hp d hd' m hm' h.symm, h.symm⟩, fun h => h.2.symm⟩
  have h1 : (g.succ n).mapM (fun d => do
      let vs ← scope d
      if (c.layer.variables.map fun i => ((sc r).sort (· ≤ ·)).getD i 0).toFinset = vs then
        (if d ∈ c.nodes then (.ok [c.nodes.idxOf d] : Except PyErr (List ℕ)) else .error .keyError)
      else .ok []) = .ok ((g.succ n).map fun d => if d ∈ c.nodes then [c.nodes.idxOf d] else []) := by
    apply mapM_ok_map
    intro d hd
    rw [hscope d (hnext d (hch n hn d hd))]
    simp only [bind, Except.bind]
    by_cases h : d ∈ c.nodes
    · rw [if_pos ((hiff d hd).2 h), if_pos h, if_pos h]
    · rw [if_neg (fun h' => h ((hiff d hd).1 h')), if_neg h]
  rw [productValues, h1]
  simp only [bind, Except.bind, childrenIn]
  congr 1
  induction g.succ n with
  | nil => rfl
  | cons d l ih =>
    rw [List.map_cons, List.flatten_cons, ih]
    by_cases h : d ∈ c.nodes
    · rw [if_pos h, List.filter_cons_of_pos (by simpa using h), List.map_cons]; rfl
    · rw [if_neg h, List.filter_cons_of_neg (by simpa using h), List.nil_append]

theorem productLayer_good {env : Env} {g : Circuit} {r : Node} {sc : Node → Finset Var} (S : Setting env g r sc)
    {level next : List Node} {cs : List Converter} (hc : Covered env g sc (sc r) next cs) (hl : ∀ n ∈ level, n ∈ g.ids)
    (hnext : ∀ n ∈ next, n ∈ g.ids) (hch : ∀ n ∈ level, ∀ d ∈ g.succ n, d ∈ next) (hconv : ConvertibleLevel g sc level next)
    {scope : Node → Except PyErr (Finset Var)} (hscope : ∀ n ∈ g.ids, scope n = .ok (sc n))
    (s : Finset Var) (nodes : List Node) (hne : nodes ≠ []) (hnodes : ∀ n, n ∈ nodes ↔ n ∈ level ∧ typeOf g n = .prod ∧ sc n = s) :
    ∃ c, productLayer g scope ((sc r).sort (· ≤ ·)) nodes cs = .ok c ∧ c.nodes = nodes ∧ Faithful env g sc (sc r) s c := by
  have hprod : ∀ n ∈ nodes, g.kind? n = some .prod := fun n hn =>
    (typeOf_prod (hl n ((hnodes n).1 hn).1)).1 ((hnodes n).1 hn).2.1
  have hlev : ∀ n ∈ nodes, n ∈ level := fun n hn => ((hnodes n).1 hn).1
  obtain ⟨n₀, hn₀⟩ := List.exists_mem_of_ne_nil _ hne
  have hs : s = sc n₀ := ((hnodes n₀).1 hn₀).2.2.symm
  have hn₀i : n₀ ∈ g.ids := hl _ (hlev n₀ hn₀)
  have hsV : s ⊆ sc r := hs ▸ S.subset hn₀i
  have hsne : s.Nonempty := hs ▸ S.nonempty _ hn₀i
  have hshort : ∀ c ∈ cs, ∀ n ∈ nodes, (childrenIn g c n).length ≤ 1 := by
    intro c hcc n hn
    refine length_le_one_of_disjoint (sc := sc) ((S.decomposable n (hprod n hn)).sublist List.filter_sublist) ?_ ?_
    · intro a ha b hb
      have ha' : a ∈ c.nodes := by simpa using (List.mem_filter.1 ha).2
      have hb' : b ∈ c.nodes := by simpa using (List.mem_filter.1 hb).2
      exact (((hc.good c hcc).same b hb' a ((hc.good c hcc).sub a ha')).1 ha').2
    · intro a ha
      exact S.nonempty _ (hnext a (hch n (hlev n hn) a (List.mem_of_mem_filter ha)))
  let B : Converter → Node → List ℕ := fun c n => (childrenIn g c n).map fun d => c.nodes.idxOf d
  let R : Converter → List (ℕ × ℕ) := fun c => nodes.zipIdx.flatMap fun p => (B c p.1).map (Prod.mk p.2)
  have h1 : cs.mapM (productRow g scope ((sc r).sort (· ≤ ·)) nodes) = .ok (cs.map R) := by
    apply mapM_ok_map
    intro c hcc
    rw [productRow, mapM_ok_map (f := B c) (fun n hn => productValues_ok S hc hnext hch hconv hscope (hlev n hn) (hprod n hn) hcc)]
    simp only [bind, Except.bind]
    congr 1
    rw [List.zipIdx_map, List.flatMap_map]
    simp only [R, List.flatMap_def]
    congr 1
    apply List.map_congr_left
    rintro ⟨n, i⟩ hp
    have hlen : (B c n).length ≤ 1 := by
      simp only [B, List.length_map]
      exact hshort c hcc n (List.fst_mem_of_mem_zipIdx hp)
    simp only [Prod.map, id]
    match hB : B c n, hlen with
    | [], _ => simp
    | [b], _ => simp
  have hblock : ∀ c, ∀ i (hi : i < nodes.length), (R c).filter (fun e => e.1 == i) = (B c nodes[i]).map (Prod.mk i) :=
    fun c i hi => filter_rows' (B c) nodes hi
  have hcov : ∀ n ∈ nodes, ∀ d ∈ g.succ n, ∃ c ∈ cs, d ∈ c.nodes := fun n hn d hd => hc.cover d (hch n (hlev n hn) d hd)
  have hnonempty : (cs.map R).flatten ≠ [] := by
    obtain ⟨v, hv⟩ := hsne
    rw [hs] at hv
    obtain ⟨d, hd, -⟩ := (S.smooth.prod n₀ (hprod n₀ hn₀) v).1 hv
    obtain ⟨c, hcc, hdc⟩ := hcov n₀ hn₀ d hd
    obtain ⟨i, hi, hpi⟩ := List.getElem_of_mem hn₀
    apply List.ne_nil_of_mem (a := (i, c.nodes.idxOf d))
    refine List.mem_flatten.2 ⟨R c, List.mem_map.2 ⟨c, hcc, rfl⟩, ?_⟩
    apply List.mem_of_mem_filter (p := fun e => e.1 == i)
    rw [hblock c i hi, hpi]
    exact List.mem_map.2 ⟨_, List.mem_map.2 ⟨d, List.mem_filter.2 ⟨hd, by simpa using hdc⟩, rfl⟩, rfl⟩
  have hres : productLayer g scope ((sc r).sort (· ≤ ·)) nodes cs = .ok ⟨.product nodes.length (cs.map R) (cs.map Converter.layer), nodes⟩ := by
    rw [productLayer, h1]
    simp only [bind, Except.bind]
    rw [if_neg hnonempty]
  refine ⟨_, hres, rfl, ⟨?_, rfl, ?_, ?_, ?_, ?_⟩⟩
  · -- variables
    simp only [Layer.variables, uniqueSorted]
    have hmem : ∀ i, i ∈ allVariables (cs.map Converter.layer) ↔ i ∈ indicesOf (sc r) s := by
      intro i
      rw [mem_allVariables, mem_indicesOf]
      constructor
      · rintro ⟨L, hL, hi⟩
        obtain ⟨c, hcc, rfl⟩ := List.mem_map.1 hL
        obtain ⟨m, hm⟩ := List.exists_mem_of_ne_nil _ (hc.good c hcc).ne
        rw [((hc.good c hcc).faithful m hm).vars, mem_indicesOf] at hi
        obtain ⟨v, hv, hvi⟩ := hi
        refine ⟨v, ?_, hvi⟩
        rw [hs]
        exact hconv.productScope n₀ (hlev n₀ hn₀) (hprod n₀ hn₀) m ((hc.good c hcc).sub m hm) hv
      · rintro ⟨v, hv, hvi⟩
        rw [hs] at hv
        obtain ⟨d, hd, hvd⟩ := (S.smooth.prod n₀ (hprod n₀ hn₀) v).1 hv
        obtain ⟨c, hcc, hdc⟩ := hcov n₀ hn₀ d hd
        refine ⟨c.layer, List.mem_map.2 ⟨c, hcc, rfl⟩, ?_⟩
        rw [((hc.good c hcc).faithful d hdc).vars, mem_indicesOf]
        exact ⟨v, hvd, hvi⟩
    apply List.Perm.eq_of_pairwise' (r := (· ≤ ·))
    · exact List.pairwise_insertionSort _ _
    · exact (indicesOf_sorted hsV).imp le_of_lt
    · refine (List.perm_insertionSort _ _).trans ?_
      rw [List.perm_ext_iff_of_nodup (List.nodup_dedup _) ((indicesOf_sorted hsV).imp ne_of_lt)]
      intro i
      rw [List.mem_dedup]
      exact hmem i
  · refine Regular.product _ _ _ ?_ ?_
    · intro L hL
      obtain ⟨c, hcc, rfl⟩ := List.mem_map.1 hL
      obtain ⟨m, hm⟩ := List.exists_mem_of_ne_nil _ (hc.good c hcc).ne
      exact ((hc.good c hcc).faithful m hm).regular
    · rw [List.forall₂_map_left_iff, List.forall₂_map_right_iff, List.forall₂_same]
      intro c hcc e he
      obtain ⟨⟨n, i⟩, hp, he'⟩ := List.mem_flatMap.1 he
      obtain ⟨b, hb, rfl⟩ := List.mem_map.1 he'
      obtain ⟨d, hd, rfl⟩ := List.mem_map.1 hb
      have hdc : d ∈ c.nodes := by simpa using (List.mem_filter.1 hd).2
      refine ⟨?_, ?_⟩
      · have := (List.mem_zipIdx hp).2.1
        simpa using this
      · rw [((hc.good c hcc).faithful d hdc).number]
        exact List.idxOf_lt_length_of_mem hdc
  · intro x f a hx hf ha
    have hvals : layerValues a (cs.map Converter.layer) = cs.map fun c => c.nodes.map f := by
      rw [layerValues_map, List.map_map]
      apply List.map_congr_left
      intro c hcc
      obtain ⟨m, hm⟩ := List.exists_mem_of_ne_nil _ (hc.good c hcc).ne
      exact ((hc.good c hcc).faithful m hm).values x f a hx hf ha
    simp only [layerValue]
    rw [hvals]
    apply List.ext_getElem (by simp)
    intro i h1 h2
    have hi : i < nodes.length := by simpa using h2
    have hn : nodes[i] ∈ nodes := List.getElem_mem hi
    rw [List.getElem_map, List.getElem_range, List.getElem_map, List.zip_map', List.flatMap_map]
    have hterm : ∀ c ∈ cs, productFactors (R c) (c.nodes.map f) i = (childrenIn g c nodes[i]).map f := by
      intro c hcc
      rw [productFactors, hblock c i hi, List.map_map, List.map_map]
      apply List.map_congr_left
      intro d hd
      simp only [Function.comp]
      rw [getD_idxOf_map (by simpa using (List.mem_filter.1 hd).2)]
    rw [List.flatMap_def, List.map_congr_left hterm, List.prod_flatten, List.map_map]
    have hpart := partition_prod cs (g.succ nodes[i]) (fun c d => d ∈ c.nodes) f
      (fun _ _ => hc.disjoint.imp fun h h1 => h _ h1) (fun d hd => hcov _ hn d hd)
    have hcomp : (cs.map (List.prod ∘ fun c => (childrenIn g c nodes[i]).map f))
        = cs.map fun c => (((g.succ nodes[i]).filter fun d => d ∈ c.nodes).map f).prod := rfl
    rw [hcomp, hpart, hf.prod _ (hprod _ hn), succ, List.map_map]
    rfl
  · intro hi v hv
    have := hi.products n₀ (hprod n₀ hn₀)
    rw [← hs, hv, Finset.card_singleton] at this
    omega
  · intro hi j hj
    have hcase : ∀ c ∈ cs, ∀ m ∈ c.nodes, (∃ v < j, OneVariable v c.layer) ∨
        (∃ k ≤ j, c.layer.variables = List.range k ∧ Aligned k c.layer) := by
      intro c hcc m hm
      have hm' := (hc.good c hcc).sub m hm
      have hF := (hc.good c hcc).faithful m hm
      have hsub : sc m ⊆ s := by
        rw [hs]
        exact hconv.productScope n₀ (hlev n₀ hn₀) (hprod n₀ hn₀) m hm'
      rcases hi.scopes m (hnext m hm') with h1 | h1
      · obtain ⟨v, hv⟩ := Finset.card_eq_one.1 h1
        refine Or.inl ⟨((sc r).sort (· ≤ ·)).idxOf v, ?_, hF.one hi v hv⟩
        have : ((sc r).sort (· ≤ ·)).idxOf v ∈ indicesOf (sc r) s := mem_indicesOf.2 ⟨v, hsub (by rw [hv]; simp), rfl⟩
        rw [hj] at this
        exact List.mem_range.1 this
      · have hr := indicesOf_initial (S.subset (hnext m hm')) h1
        refine Or.inr ⟨(sc m).card, ?_, hF.vars.trans hr, hF.aligned hi _ hr⟩
        have h2 := congrArg List.length hj
        rw [indicesOf_length, List.length_range] at h2
        rw [← h2]
        exact Finset.card_le_card hsub
    refine Aligned.product _ _ _ _ ?_ ?_
    · intro L hL hno
      obtain ⟨c, hcc, rfl⟩ := List.mem_map.1 hL
      obtain ⟨m, hm⟩ := List.exists_mem_of_ne_nil _ (hc.good c hcc).ne
      rcases hcase c hcc m hm with h | ⟨k, hk, hv, -⟩
      · exact absurd h hno
      · exact ⟨k, hk, hv⟩
    · intro L hL hno
      obtain ⟨c, hcc, rfl⟩ := List.mem_map.1 hL
      obtain ⟨m, hm⟩ := List.exists_mem_of_ne_nil _ (hc.good c hcc).ne
      rcases hcase c hcc m hm with h | ⟨k, hk, hv, ha⟩
      · exact absurd h hno
      · rw [hv, List.length_range]
        exact ha

/-! ### Leaves -/

theorem inputLayer_good {env : Env} {g : Circuit} {r : Node} {sc : Node → Finset Var} (S : Setting env g r sc)
    {level : List Node} (hl : ∀ n ∈ level, n ∈ g.ids) (s : Finset Var) (t : UnitType) (ht : t.isLeaf)
    (nodes : List Node) (hne : nodes ≠ []) (hnodes : ∀ n, n ∈ nodes ↔ n ∈ level ∧ typeOf g n = t ∧ sc n = s) :
    ∃ c, inputLayer env g ((indicesOf (sc r) s).headD 0) nodes = .ok c ∧ c.nodes = nodes ∧ Faithful env g sc (sc r) s c := by
  have hleaf : ∀ n ∈ nodes, ∃ d, g.kind? n = some (.leaf d) ∧ s = {d.var} := by
    intro n hn
    obtain ⟨h1, h2, h3⟩ := (hnodes n).1 hn
    obtain ⟨d, hd⟩ := (typeOf_leaf (hl n h1)).1 (by rw [h2]; exact ht)
    exact ⟨d, hd, by rw [← h3, S.smooth.leaf n d hd]⟩
  obtain ⟨n₀, hn₀⟩ := List.exists_mem_of_ne_nil _ hne
  obtain ⟨d₀, -, hs⟩ := hleaf n₀ hn₀
  have hsV : s ⊆ sc r := by
    rw [← ((hnodes n₀).1 hn₀).2.2]
    exact S.subset (hl n₀ ((hnodes n₀).1 hn₀).1)
  have hidx : indicesOf (sc r) s = [((sc r).sort (· ≤ ·)).idxOf d₀.var] := by rw [hs]; simp [indicesOf]
  have hF : ∃ F : Node → InputNode, ∀ n ∈ nodes, inputOf env g n = .ok (F n) ∧ ∀ d, g.kind? n = some (.leaf d) → ∀ y : ℝ,
        (∀ v probs, d = .symbolic v probs → ∃ j < env.states v, y = (j : ℝ)) → (F n y).exp = layerDensity env d y := by
    have : ∀ n, ∃ F : InputNode, n ∈ nodes → inputOf env g n = .ok F ∧ ∀ d, g.kind? n = some (.leaf d) → ∀ y : ℝ,
        (∀ v probs, d = .symbolic v probs → ∃ j < env.states v, y = (j : ℝ)) → (F y).exp = layerDensity env d y := by
      intro n
      by_cases hn : n ∈ nodes
      · obtain ⟨d, hd, -⟩ := hleaf n hn
        obtain ⟨F, h1, h2⟩ := inputNode_spec (S.valid n d hd) (S.convertible n d hd)
        refine ⟨F, fun _ => ⟨by simp [inputOf, leafOf, hd, h1], fun d' hd' => ?_⟩⟩
        rw [hd] at hd'
        injection hd' with hd'
        injection hd' with hd'
        subst hd'
        exact h2
      · exact ⟨.dirac 0 0, fun h => absurd h hn⟩
    choose F hF using this
    exact ⟨F, fun n hn => hF n hn⟩
  obtain ⟨F, hF⟩ := hF
  have hres : inputLayer env g ((indicesOf (sc r) s).headD 0) nodes = .ok ⟨.input ((indicesOf (sc r) s).headD 0) (nodes.map F), nodes⟩ := by
    rw [inputLayer, mapM_ok_map (f := F) (fun n hn => (hF n hn).1)]
    rfl
  refine ⟨_, hres, rfl, ⟨?_, by simp [Layer.numberOfNodes], .input _ _, ?_, ?_, ?_⟩⟩
  · simp only [Layer.variables, hidx, List.headD_cons]
  · intro x f a hx hf ha
    simp only [layerValue, hidx, List.headD_cons]
    rw [List.map_map]
    apply List.map_congr_left
    intro n hn
    obtain ⟨d, hd, hsd⟩ := hleaf n hn
    have hvar : d₀.var = d.var := by
      have := hs.symm.trans hsd
      simpa using this
    simp only [Function.comp]
    rw [hf.leaf n d hd, hvar, ha d.var (hsV (by rw [hsd]; simp)), (hF n hn).2 d hd]
    intro v probs h
    have := hx n v probs (by rw [hd, h])
    rw [h]
    exact this
  · intro _ v hv
    have hvar : d₀.var = v := by
      have := hs.symm.trans hv
      simpa using this
    simp only [hidx, List.headD_cons, hvar]
    exact .input _
  · intro _ j hj
    rw [hidx] at hj
    have hj1 : j = 1 := by
      have := congrArg List.length hj
      simpa using this.symm
    subst hj1
    have h0 : ((sc r).sort (· ≤ ·)).idxOf d₀.var = 0 := by simpa using hj
    simp only [hidx, List.headD_cons, h0]
    exact .one _ (.input _)

end PM.Jax
