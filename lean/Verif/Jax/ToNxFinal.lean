import Verif.Jax.ToNxValue
import Verif.Jax.ConvertLemmas
import Verif.Dist.LeafLemmas

/-!
# Scopes and values of the circuit of `to_nx`
-/

namespace PM.Jax
open Graph Spec

variable {vars : List Var} {prog : Bool} {L : Layer}

/-- `walk_circuitOf` with something else that is known of each layer. -/
theorem walk_inv (I : ℕ → Layer → Prop) (kid : ∀ b L, I b L → ∀ p ∈ L.kids.zip (bases (b + L.numberOfNodes) L.kids), I p.2 p.1)
    (hR : Regular L) (hT : Tidy vars.length L) (hD : NoDense prog L) (hI : I 0 L) {Q : ℕ → Prop}
    (own : ∀ (L' : Layer) (b : ℕ), Regular L' → Tidy vars.length L' → NoDense prog L' → Placed (circuitOf vars L) b L' →
      Kinds vars (circuitOf vars L) b L' → I b L' → ∀ i < L'.numberOfNodes, Q (b + i)) {n : ℕ} {k : Kind Leaf}
    (hn : (circuitOf vars L).kind? n = some k) : Q n := by
  have H : ∀ (L' : Layer), Regular L' → Tidy vars.length L' → NoDense prog L' → ∀ b, Placed (circuitOf vars L) b L' →
      Kinds vars (circuitOf vars L) b L' → I b L' → ∀ n, b ≤ n → n < b + L'.size → Q n := by
    refine Layer.induct fun L' ih hR hT hD b hP hK hI n h1 h2 => ?_
    rcases cover h1 h2 with ⟨i, hi, rfl⟩ | ⟨p, hp, h3, h4⟩
    · exact own L' b hR hT hD hP hK hI i hi
    · have hm := mem_kids_of_zip hp
      exact ih p.1 hm (regular_kids hR _ hm) (tidy_kids hT _ hm) (noDense_kids hD _ hm) p.2 (placed_kid hR hP hp) (kinds_kid hK hp)
        (kid _ _ hI _ hp) n h3 h4
  have hm : n ∈ (circuitOf vars L).ids := by
    simp only [kind?, Option.map_eq_some_iff] at hn
    obtain ⟨q, hq, -⟩ := hn
    have h1 := List.mem_of_find?_eq_some hq
    have h2 := List.find?_some hq
    simp only [beq_iff_eq] at h2
    exact List.mem_map.2 ⟨q, h1, h2⟩
  rw [circuitOf_ids, List.mem_range] at hm
  exact H L hR hT hD 0 (placed_circuitOf vars L) (kinds_circuitOf vars L) hI n (by omega) (by omega)

/-! ### Scopes -/

theorem filter_links {X Y : Type} (f : X → ℕ × ℕ × Option LogP) (g : ℕ → Y) (l : List X) (i : ℕ) :
    ((l.map f).filter fun e => e.1 == i).map (fun e => g e.2.1) = (l.filter fun x => (f x).1 == i).map fun x => g (f x).2.1 := by
  rw [List.filter_map, List.map_map]
  rfl

/-- The children of unit `i` of a sparse sum layer have the scope of the unit. -/
theorem smooth_same {ws : List Coo} {cs : List Layer} (hS : SmoothLayer (.sparseSum ws cs)) {i : ℕ} :
    ∀ s ∈ ((Layer.sparseSum ws cs).links.zip (layerScopes cs)).flatMap (fun p => (p.1.filter fun e => e.1 == i).map fun e => p.2.getD e.2.1 ∅),
      s = (nodeScopes (.sparseSum ws cs)).getD i ∅ := by
  intro s hs
  cases hS with
  | sparseSum _ _ _ same =>
    obtain ⟨p, hp, hs⟩ := List.mem_flatMap.1 hs
    simp only [Layer.links, sparseLinks, List.zip_map_left, List.mem_map] at hp
    obtain ⟨q, hq, rfl⟩ := hp
    obtain ⟨e, he, rfl⟩ := List.mem_map.1 hs
    obtain ⟨he, hi⟩ := List.mem_filter.1 he
    obtain ⟨e, he', rfl⟩ := List.mem_map.1 he
    have := same q hq e he'
    have hi : e.1 = i := by simpa using hi
    rw [← hi]
    exact this

theorem nodeScopes_product {n : ℕ} {es : List (List (ℕ × ℕ))} {cs : List Layer} {i : ℕ} (hi : i < n) :
    (nodeScopes (.product n es cs)).getD i ∅
      = unionOf (((Layer.product n es cs).links.zip (layerScopes cs)).flatMap
          fun p => (p.1.filter fun e => e.1 == i).map fun e => p.2.getD e.2.1 ∅) := by
  rw [nodeScopes, List.getD_eq_getElem _ _ (by simpa using hi), List.getElem_map, List.getElem_range]
  congr 1
  simp only [Layer.links, productLinks, List.zip_map_left, List.flatMap_map, Prod.map]
  congr 1
  funext p
  exact (filter_links (fun e : ℕ × ℕ => (e.1, e.2, none)) (fun j => p.2.getD j ∅) p.1 i).symm

theorem sum_terms_ne {ws : List Coo} {cs : List Layer} (hR : Regular (.sparseSum ws cs)) {X : Type}
    (vals : List X) (hlen : vals.length = cs.length) {i : ℕ} (hi : i < (Layer.sparseSum ws cs).numberOfNodes) :
    ∃ p ∈ (Layer.sparseSum ws cs).links.zip vals, ∃ e ∈ p.1, e.1 = i ∧ ∃ w, e.2.2 = some w ∧ w ≠ .negInf := by
  cases hR with
  | sparseSum _ _ n hc hne shapes idx weights =>
    have hn : (Layer.sparseSum ws cs).numberOfNodes = n := by
      cases shapes with
      | nil => exact absurd rfl hne
      | cons h _ => exact h.1
    obtain ⟨w, hw, e, he, h1, h2⟩ := weights i (hn ▸ hi)
    obtain ⟨j, hj, rfl⟩ := List.getElem_of_mem hw
    have hl := shapes.length_eq
    refine ⟨((Layer.sparseSum ws cs).links[j]'(by simpa [Layer.links, sparseLinks] using hj), vals[j]'(by omega)), ?_,
      (e.1, e.2.1, some e.2.2), ?_, h1, _, rfl, h2⟩
    · rw [List.mem_iff_getElem]
      exact ⟨j, by simp [Layer.links, sparseLinks]; omega, by simp⟩
    · simp only [Layer.links, sparseLinks, List.getElem_map]
      exact List.mem_map.2 ⟨e, he, rfl⟩

theorem scoped_circuitOf (hR : Regular L) (hT : Tidy vars.length L) (hD : NoDense prog L) (hS : SmoothLayer L) :
    Scoped (circuitOf vars L) (scopeAt vars L) := by
  let sc : ℕ → Finset ℕ := fun n => (L.collect (fun _ => nodeScopes) 0).getD n ∅
  let I : ℕ → Layer → Prop := fun b L' => SmoothLayer L' ∧ ∃ d, Seg sc b (L'.collect (fun _ => nodeScopes) d)
  have hI0 : I 0 L := ⟨hS, 0, seg_getD _ _⟩
  have kid : ∀ b L', I b L' → ∀ p ∈ L'.kids.zip (bases (b + L'.numberOfNodes) L'.kids), I p.2 p.1 := by
    rintro b L' ⟨h1, d, h2⟩ p hp
    exact ⟨smooth_kids h1 _ (mem_kids_of_zip hp), d + 1, (seg_collect (fun _ L => nodeScopes_length L) h2).2 p hp⟩
  have own : ∀ b L', I b L' → ∀ i < L'.numberOfNodes, sc (b + i) = (nodeScopes L').getD i ∅ := by
    rintro b L' ⟨-, d, h2⟩ i hi
    rw [(seg_collect (fun _ L => nodeScopes_length L) h2).1 i (by rw [nodeScopes_length]; exact hi), List.getD_eq_getElem]
  have hsucc : ∀ n, ((circuitOf vars L).succ n).map sc = ((circuitOf vars L).outEdges n).map fun e => sc e.dst := by
    intro n; rw [succ, List.map_map]; rfl
  have hat : ∀ n, scopeAt vars L n = (sc n).image fun i => vars.getD i 0 := fun _ => rfl
  constructor
  · intro n d hn
    refine walk_inv I kid hR hT hD hI0 (Q := fun n => ∀ d, (circuitOf vars L).kind? n = some (.leaf d) → scopeAt vars L n = {d.var}) ?_ hn d hn
    intro L' b hR' hT' _ hP hK hI i hi d hd
    rw [kinds_own hK hi] at hd
    rcases mem_kinds hd with ⟨v, nodes, f, rfl, hf, h⟩ | ⟨-, h⟩ | ⟨-, h⟩ | ⟨-, h⟩
    · injection h with h
      subst h
      rw [hat, own b _ hI i hi, nodeScopes, List.getD_eq_getElem _ _ (by simpa [Layer.numberOfNodes] using hi),
        List.getElem_map, Finset.image_singleton]
      cases f <;> rfl
    all_goals simp at h
  · intro n hn
    refine walk_inv I kid hR hT hD hI0 (Q := fun n => (circuitOf vars L).kind? n = some .sum → (circuitOf vars L).succ n ≠ []) ?_ hn hn
    intro L' b hR' hT' hD' hP hK hI i hi hd h0
    rw [kinds_own hK hi] at hd
    rcases mem_kinds hd with ⟨_, _, _, -, -, h⟩ | ⟨⟨ws, cs, rfl⟩, -⟩ | ⟨⟨ws, cs, rfl⟩, -⟩ | ⟨-, h⟩
    · simp at h
    · have h1 := hsucc (b + i)
      rw [h0, child_scopes hR' hP hI.2.choose_spec hi] at h1
      obtain ⟨p, hp, e, he, h2, -⟩ := sum_terms_ne hR' (layerScopes cs) (by simp [layerScopes_eq]) hi
      have : p.2.getD e.2.1 ∅ ∈ ((Layer.sparseSum ws cs).links.zip (layerScopes cs)).flatMap
          (fun p => (p.1.filter fun e => e.1 == i).map fun e => p.2.getD e.2.1 ∅) :=
        List.mem_flatMap.2 ⟨p, hp, List.mem_map.2 ⟨e, List.mem_filter.2 ⟨he, by simpa using h2⟩, rfl⟩⟩
      simp only [Layer.kids] at h1
      rw [← h1] at this
      simp at this
    · cases hD'
    · simp at h
  · intro n hn
    refine walk_inv I kid hR hT hD hI0 (Q := fun n => (circuitOf vars L).kind? n = some .sum → ∀ c ∈ (circuitOf vars L).succ n,
      scopeAt vars L c = scopeAt vars L n) ?_ hn hn
    intro L' b hR' hT' hD' hP hK hI i hi hd c hc
    rw [kinds_own hK hi] at hd
    rcases mem_kinds hd with ⟨_, _, _, -, -, h⟩ | ⟨⟨ws, cs, rfl⟩, -⟩ | ⟨⟨ws, cs, rfl⟩, -⟩ | ⟨-, h⟩
    · simp at h
    · have h1 : sc c ∈ ((circuitOf vars L).succ (b + i)).map sc := List.mem_map.2 ⟨c, hc, rfl⟩
      rw [hsucc, child_scopes hR' hP hI.2.choose_spec hi] at h1
      rw [hat, hat, own b _ hI i hi, smooth_same hI.1 _ h1]
    · cases hD'
    · simp at h
  · intro n hn
    refine walk_inv I kid hR hT hD hI0 (Q := fun n => (circuitOf vars L).kind? n = some .prod → ∀ v, v ∈ scopeAt vars L n ↔
      ∃ c ∈ (circuitOf vars L).succ n, v ∈ scopeAt vars L c) ?_ hn hn
    intro L' b hR' hT' hD' hP hK hI i hi hd v
    rw [kinds_own hK hi] at hd
    rcases mem_kinds hd with ⟨_, _, _, -, -, h⟩ | ⟨-, h⟩ | ⟨-, h⟩ | ⟨⟨n, es, cs, rfl⟩, -⟩
    · simp at h
    · simp at h
    · simp at h
    · have h1 := hsucc (b + i)
      rw [child_scopes hR' hP hI.2.choose_spec hi] at h1
      rw [hat, own b _ hI i hi, nodeScopes_product (n := n) hi]
      simp only [Layer.kids] at h1
      rw [← h1]
      simp only [Finset.mem_image, mem_unionOf, List.mem_map, hat]
      constructor
      · rintro ⟨a, ⟨_, ⟨c, hc, rfl⟩, ha⟩, rfl⟩
        exact ⟨c, hc, a, ha, rfl⟩
      · rintro ⟨c, hc, a, ha, rfl⟩
        exact ⟨a, ⟨_, ⟨c, hc, rfl⟩, ha⟩, rfl⟩

/-! ### Values -/

theorem inStates_kids {a : ℕ → ℝ} {L : Layer} (h : InStates a L) : ∀ c ∈ L.kids, InStates a c := by
  cases h with
  | input => simp [Layer.kids]
  | sparseSum _ _ h => exact h
  | denseSum _ _ h => exact h
  | product _ _ _ h => exact h

theorem normalized_mean (l : List (LogP × ℝ)) (h : ∃ p ∈ l, p.1 ≠ .negInf) :
    (l.map fun p => (p.1 - LogP.logsumexp (l.map Prod.fst)).exp * p.2).sum = weightedMean (l.map fun p => (p.1.exp, p.2)) := by
  have hne : LogP.logsumexp (l.map Prod.fst) ≠ .negInf := by
    rw [← LogP.exp_pos, LogP.exp_logsumexp]
    obtain ⟨p, hp, h⟩ := h
    have h1 : 0 < p.1.exp := LogP.exp_pos.2 h
    have h2 : p.1.exp ≤ ((l.map Prod.fst).map LogP.exp).sum :=
      List.single_le_sum (by
        intro y hy
        obtain ⟨q, -, rfl⟩ := List.mem_map.1 hy
        exact LogP.exp_nonneg _) _ (List.mem_map.2 ⟨p.1, List.mem_map.2 ⟨p, hp, rfl⟩, rfl⟩)
    linarith
  simp only [LogP.exp_sub hne, LogP.exp_logsumexp, weightedMean, List.map_map, Function.comp_def]
  generalize (l.map fun x => x.1.exp).sum = T
  clear hne h
  induction l with
  | nil => simp
  | cons p l ih =>
    rw [List.map_cons, List.sum_cons, ih, List.map_cons, List.sum_cons]
    ring

theorem sum_filter_zipIdx (logs : List LogP) (g : LogP → ℝ) (j s : ℕ) :
    ((((logs.zipIdx s).map fun p => ((p.2 : ℤ), g p.1)).filter fun kp => (kp.1 : ℝ) = ((s + j : ℕ) : ℝ)).map Prod.snd).sum
      = if h : j < logs.length then g logs[j] else 0 := by
  induction logs generalizing j s with
  | nil => simp
  | cons l logs ih =>
    rw [List.zipIdx_cons, List.map_cons]
    cases j with
    | zero =>
      have h0 : ((((logs.zipIdx (s + 1)).map fun p => ((p.2 : ℤ), g p.1)).filter fun kp => (kp.1 : ℝ) = ((s + 0 : ℕ) : ℝ))) = [] := by
        rw [List.filter_eq_nil_iff]
        intro kp hkp
        obtain ⟨q, hq, rfl⟩ := List.mem_map.1 hkp
        have := List.le_snd_of_mem_zipIdx hq
        simp only [decide_eq_true_eq, Int.cast_natCast, Nat.cast_inj]
        omega
      rw [List.filter_cons_of_pos (by simp), h0]
      simp
    | succ j =>
      rw [List.filter_cons_of_neg (by simp only [decide_eq_true_eq, Int.cast_natCast, Nat.cast_inj]; omega)]
      have := ih j (s + 1)
      rw [show s + (j + 1) = s + 1 + j by omega, this]
      simp

theorem density_inputLeaf {v : Var} {f : InputNode} (hv : ValidInput f) {y : ℝ}
    (hs : ∀ logs, f = .discrete logs → ∃ j : ℕ, j < logs.length ∧ y = (j : ℝ)) :
    leafDensity (inputLeaf v f) y = (f y).exp := by
  cases f with
  | uniform lo hi =>
    have : (lo : ℝ) < hi := hv
    simp only [leafDensity, inputLeaf, InputNode.logDensity]
    by_cases h : lo < y ∧ y < hi
    · rw [if_pos h, if_pos (by simpa [SimpleInterval.Mem, SimpleInterval.leftOK, SimpleInterval.rightOK] using h), LogP.exp_fin, Real.exp_neg, Real.exp_log (by linarith), one_div]
    · rw [if_neg h, if_neg (by simpa [SimpleInterval.Mem, SimpleInterval.leftOK, SimpleInterval.rightOK] using h), LogP.exp_negInf]
  | dirac loc cap =>
    have : (0 : ℝ) < cap := hv
    simp only [leafDensity, inputLeaf, InputNode.logDensity]
    split
    · rw [LogP.exp_log this.le]
    · rfl
  | gaussian loc ls ms =>
    simp only [leafDensity, inputLeaf, InputNode.logDensity]
    rw [LogP.exp_log (ProbabilityTheory.gaussianPDFReal_nonneg _ _ _), nnvar_eq]
  | discrete logs =>
    obtain ⟨j, hj, rfl⟩ := hs logs rfl
    simp only [leafDensity, inputLeaf, InputNode.logDensity]
    have := sum_filter_zipIdx logs (fun l => (l - LogP.logsumexp logs).exp) j 0
    rw [Nat.zero_add, dif_pos hj] at this
    rw [stateIndex_nat hj, List.getD_eq_getElem _ _ hj, this]

/-- The terms of unit `i` of a layer: its edges with the values of their targets. -/
theorem child_values {b : ℕ} {f : ℕ → ℝ} {a : ℕ → ℝ} {L : Layer} (hR : Regular L) {d : ℕ}
    (hs : Seg f b (L.collect (fun _ => layerValue a) d)) {i : ℕ} :
    ((ownEdges b L.links (bases (b + L.numberOfNodes) L.kids)).filter fun e => e.src == b + i).map (fun e => (e.weight, f e.dst))
      = (L.links.zip (layerValues a L.kids)).flatMap fun p => (p.1.filter fun e => e.1 == i).map fun e => (e.2.2, p.2.getD e.2.1 0) := by
  obtain ⟨h1, h2⟩ := seg_collect (fun _ L => layerValue_length a L) hs
  rw [layerValues_eq]
  refine own_terms L.links L.kids (b + L.numberOfNodes) (regular_fit hR) ?_
  intro p hp j hj
  have := (seg_collect (fun _ L => layerValue_length a L) (h2 p hp)).1 j (by rw [layerValue_length]; exact hj)
  rw [this, List.getD_eq_getElem]

theorem sparse_terms_eq (ws : List Coo) (vals : List (List ℝ)) (i : ℕ) :
    ((sparseLinks ws).zip vals).flatMap (fun p => (p.1.filter fun e => e.1 == i).map fun e => (e.2.2, p.2.getD e.2.1 0))
      = ((ws.zip vals).flatMap fun p => (p.1.entries.filter fun e => e.1 == i).map fun e => (e.2.2, p.2.getD e.2.1 0)).map
          fun q => (some q.1, q.2) := by
  simp only [sparseLinks, List.zip_map_left, List.flatMap_map, Prod.map, List.map_flatMap, List.map_map, id]
  congr 1
  funext p
  rw [List.filter_map, List.map_map]
  rfl

theorem value_circuitOf (hR : Regular L) (hT : Tidy vars.length L) (hD : NoDense prog L) (x : Var → ℝ)
    (hI : InStates (fun i => x (vars.getD i 0)) L) :
    CircuitValue (circuitOf vars L) (fun d => leafDensity d (x d.var))
      (fun n => (L.collect (fun _ => layerValue fun i => x (vars.getD i 0)) 0).getD n 0) := by
  set a : ℕ → ℝ := fun i => x (vars.getD i 0) with ha
  set f : ℕ → ℝ := fun n => (L.collect (fun _ => layerValue a) 0).getD n 0 with hf
  let I : ℕ → Layer → Prop := fun b L' => InStates a L' ∧ ∃ d, Seg f b (L'.collect (fun _ => layerValue a) d)
  have hI0 : I 0 L := ⟨hI, 0, seg_getD _ _⟩
  have kid : ∀ b L', I b L' → ∀ p ∈ L'.kids.zip (bases (b + L'.numberOfNodes) L'.kids), I p.2 p.1 := by
    rintro b L' ⟨h1, d, h2⟩ p hp
    exact ⟨inStates_kids h1 _ (mem_kids_of_zip hp), d + 1, (seg_collect (fun _ L => layerValue_length a L) h2).2 p hp⟩
  have own : ∀ b L', I b L' → ∀ i < L'.numberOfNodes, f (b + i) = (layerValue a L').getD i 0 := by
    rintro b L' ⟨-, d, h2⟩ i hi
    rw [(seg_collect (fun _ L => layerValue_length a L) h2).1 i (by rw [layerValue_length]; exact hi), List.getD_eq_getElem]
  constructor
  · intro n d hn
    refine walk_inv I kid hR hT hD hI0 (Q := fun n => ∀ d, (circuitOf vars L).kind? n = some (.leaf d) → f n = leafDensity d (x d.var)) ?_ hn d hn
    intro L' b hR' hT' _ hP hK hI i hi d hd
    rw [kinds_own hK hi] at hd
    rcases mem_kinds hd with ⟨v, nodes, q, rfl, hq, h⟩ | ⟨-, h⟩ | ⟨-, h⟩ | ⟨-, h⟩
    · injection h with h
      subst h
      have hi' : i < nodes.length := hi
      have hq' : nodes[i] = q := by rw [List.getElem?_eq_getElem hi'] at hq; exact Option.some.inj hq
      have hmem : q ∈ nodes := hq' ▸ List.getElem_mem hi'
      have hvar : (inputLeaf (vars.getD v 0) q).var = vars.getD v 0 := by cases q <;> rfl
      rw [own b _ hI i hi, layerValue, List.getD_eq_getElem _ _ (by simpa using hi'), List.getElem_map, hq', hvar]
      cases hT' with
      | input _ _ _ hp =>
        cases hI.1 with
        | input _ _ hs => exact (density_inputLeaf (hp q hmem) fun logs e => hs logs (e ▸ hmem)).symm
    all_goals simp at h
  · intro n hn
    refine walk_inv I kid hR hT hD hI0 (Q := fun n => (circuitOf vars L).kind? n = some .sum → f n =
      (((circuitOf vars L).outEdges n).map fun e => linWeight e * f e.dst).sum) ?_ hn hn
    intro L' b hR' hT' hD' hP hK hI i hi hd
    rw [kinds_own hK hi] at hd
    rcases mem_kinds hd with ⟨_, _, _, -, -, h⟩ | ⟨⟨ws, cs, rfl⟩, -⟩ | ⟨⟨ws, cs, rfl⟩, -⟩ | ⟨-, h⟩
    · simp at h
    · have hterms := child_values hR' hI.2.choose_spec (i := i)
      rw [show (Layer.sparseSum ws cs).links = sparseLinks ws from rfl, show (Layer.sparseSum ws cs).kids = cs from rfl,
        sparse_terms_eq] at hterms
      rw [own b _ hI i hi, placed_own hR' hP hi]
      simp only [Layer.ownAt, filter_normalized, List.map_map, Function.comp_def]
      set E := (ownEdges b (sparseLinks ws) (bases (b + (Layer.sparseSum ws cs).numberOfNodes) cs)).filter fun e => e.src == b + i with hE
      set T := (ws.zip (layerValues a cs)).flatMap fun p => (p.1.entries.filter fun e => e.1 == i).map fun e => (e.2.2, p.2.getD e.2.1 0) with hTdef
      have h1 : (E.map fun e' => e'.weight.getD 0) = T.map Prod.fst := by
        have := congrArg (List.map fun q : Option LogP × ℝ => q.1.getD 0) hterms
        simpa [List.map_map, Function.comp_def] using this
      rw [h1]
      have h2 : (E.map fun e => linWeight { e with weight := e.weight.map (· - LogP.logsumexp (T.map Prod.fst)) } * f e.dst)
          = T.map fun p => (p.1 - LogP.logsumexp (T.map Prod.fst)).exp * p.2 := by
        have := congrArg (List.map fun q : Option LogP × ℝ =>
          linWeight ⟨0, 0, q.1.map (· - LogP.logsumexp (T.map Prod.fst))⟩ * q.2) hterms
        rw [List.map_map, List.map_map] at this
        exact this
      rw [h2, normalized_mean]
      · rw [layerValue, List.getD_eq_getElem _ _ (by simpa using hi), List.getElem_map, List.getElem_range, hTdef, List.map_flatMap]
        simp only [List.map_map, Function.comp_def]
        rfl
      · obtain ⟨p, hp, e, he, h3, w, h4, h5⟩ := sum_terms_ne hR' (layerValues a cs) (by simp [layerValues_eq]) hi
        simp only [Layer.links, sparseLinks, List.zip_map_left, List.mem_map] at hp
        obtain ⟨q, hq, rfl⟩ := hp
        obtain ⟨e, he', rfl⟩ := List.mem_map.1 he
        refine ⟨(e.2.2, q.2.getD e.2.1 0), List.mem_flatMap.2 ⟨q, hq, List.mem_map.2 ⟨e, List.mem_filter.2 ⟨he', by simpa using h3⟩, rfl⟩⟩, ?_⟩
        injection h4 with h4
        simpa [h4] using h5
    · cases hD'
    · simp at h
  · intro n hn
    refine walk_inv I kid hR hT hD hI0 (Q := fun n => (circuitOf vars L).kind? n = some .prod → f n =
      (((circuitOf vars L).outEdges n).map fun e => f e.dst).prod) ?_ hn hn
    intro L' b hR' hT' hD' hP hK hI i hi hd
    rw [kinds_own hK hi] at hd
    rcases mem_kinds hd with ⟨_, _, _, -, -, h⟩ | ⟨-, h⟩ | ⟨-, h⟩ | ⟨⟨n, es, cs, rfl⟩, -⟩
    · simp at h
    · simp at h
    · simp at h
    · have hi' : i < n := hi
      have hterms := child_values hR' hI.2.choose_spec (i := i)
      rw [own b _ hI i hi, placed_own hR' hP hi, layerValue, List.getD_eq_getElem _ _ (by simpa using hi'), List.getElem_map,
        List.getElem_range]
      have := congrArg (List.map Prod.snd) hterms
      rw [List.map_map] at this
      rw [show (((Layer.product n es cs).ownAt b).filter fun e => e.src == b + i).map (fun e => f e.dst) = _ from this]
      simp only [Layer.links, Layer.kids, productLinks, List.zip_map_left, List.flatMap_map, Prod.map, List.map_flatMap, List.map_map, id]
      congr 2
      funext p
      rw [List.filter_map, List.map_map]
      rfl

end PM.Jax
