import Verif.Jax.ToNxMain
import Verif.Graph.EvalLemmas

/-!
# The structure of the circuit of `to_nx`
-/

namespace PM.Jax
open Graph Spec

/-- The values of `h` from `b` on are those of the list. -/
def Seg {X : Type} (h : ℕ → X) (b : ℕ) (l : List X) : Prop := ∀ i (hi : i < l.length), h (b + i) = l[i]

theorem seg_append {X : Type} {h : ℕ → X} {b : ℕ} {l m : List X} (hs : Seg h b (l ++ m)) : Seg h b l ∧ Seg h (b + l.length) m := by
  constructor
  · intro i hi
    rw [hs i (by simp; omega), List.getElem_append_left hi]
  · intro i hi
    rw [Nat.add_assoc, hs (l.length + i) (by simp; omega), List.getElem_append_right (by omega)]
    simp

theorem seg_getD {X : Type} (l : List X) (x : X) : Seg (fun n => l.getD n x) 0 l := by
  intro i hi
  simp [hi]

theorem seg_collects {X : Type} {own : ℕ → Layer → List X} (hlen : ∀ d L, (own d L).length = L.numberOfNodes) {h : ℕ → X} {d : ℕ} :
    ∀ (cs : List Layer) (b : ℕ), Seg h b (collects own d cs) → ∀ p ∈ cs.zip (bases b cs), Seg h p.2 (p.1.collect own d)
  | [], _, _, p, hp => by simp at hp
  | c :: cs, b, hs, p, hp => by
    simp only [collects] at hs
    obtain ⟨h1, h2⟩ := seg_append hs
    simp only [bases, List.zip_cons_cons, List.mem_cons] at hp
    rcases hp with rfl | hp
    · exact h1
    · rw [collect_length hlen] at h2
      exact seg_collects hlen cs _ h2 p hp

theorem seg_collect {X : Type} {own : ℕ → Layer → List X} (hlen : ∀ d L, (own d L).length = L.numberOfNodes) {h : ℕ → X} {d b : ℕ}
    {L : Layer} (hs : Seg h b (L.collect own d)) :
    Seg h b (own d L) ∧ ∀ p ∈ L.kids.zip (bases (b + L.numberOfNodes) L.kids), Seg h p.2 (p.1.collect own (d + 1)) := by
  rw [Layer.collect_eq] at hs
  obtain ⟨h1, h2⟩ := seg_append hs
  rw [hlen] at h2
  exact ⟨h1, seg_collects hlen _ _ h2⟩

/-- A number in the range of a list of child layers is in the range of one of them. -/
theorem kids_cover : ∀ (cs : List Layer) (b n : ℕ), b ≤ n → n < b + sizes cs → ∃ p ∈ cs.zip (bases b cs), p.2 ≤ n ∧ n < p.2 + p.1.size
  | [], b, n, h1, h2 => by simp [sizes] at h2; omega
  | c :: cs, b, n, h1, h2 => by
    by_cases h : n < b + c.size
    · exact ⟨(c, b), by simp [bases], h1, h⟩
    · obtain ⟨p, hp, h3⟩ := kids_cover cs (b + c.size) n (by omega) (by simp only [sizes] at h2; omega)
      exact ⟨p, by simp [bases, hp], h3⟩

theorem cover {L : Layer} {b n : ℕ} (h1 : b ≤ n) (h2 : n < b + L.size) :
    (∃ i < L.numberOfNodes, n = b + i) ∨
      ∃ p ∈ L.kids.zip (bases (b + L.numberOfNodes) L.kids), p.2 ≤ n ∧ n < p.2 + p.1.size := by
  by_cases h : n < b + L.numberOfNodes
  · exact .inl ⟨n - b, by omega, by omega⟩
  · exact .inr (kids_cover _ _ n (by omega) (by rw [Layer.size_eq] at h2; omega))

/-- The circuit has at the units from `b` on the edges of the layer. -/
def Placed (G : Circuit) (b : ℕ) (L : Layer) : Prop :=
  ∀ n, b ≤ n → n < b + L.size → G.outEdges n = (L.edgesAt b).filter fun e => e.src == n

theorem filter_edgesAts : ∀ (cs : List Layer) (b : ℕ), (∀ c ∈ cs, Regular c) → ∀ p ∈ cs.zip (bases b cs), ∀ n, p.2 ≤ n → n < p.2 + p.1.size →
    (edgesAts b cs).filter (fun e => e.src == n) = (p.1.edgesAt p.2).filter fun e => e.src == n
  | [], _, _, p, hp, _, _, _ => by simp at hp
  | c :: cs, b, hR, p, hp, n, h1, h2 => by
    simp only [bases, List.zip_cons_cons, List.mem_cons] at hp
    rw [edgesAts, List.filter_append]
    rcases hp with rfl | hp
    · rw [(List.filter_eq_nil_iff (l := edgesAts _ _)).2, List.append_nil]
      intro e he
      obtain ⟨q, hq, he⟩ := mem_edgesAts.1 he
      have b1 := (mem_bases hq).1
      have b2 := (edgesAt_bounds q.1 (hR q.1 (by simp [(List.of_mem_zip (show (q.1, q.2) ∈ _ from hq)).1])) _ e he).1
      simp only [beq_iff_eq]
      intro h
      have h : n = e.src := h.symm
      simp only at h2
      omega
    · rw [(List.filter_eq_nil_iff (l := c.edgesAt b)).2, List.nil_append]
      · exact filter_edgesAts cs _ (fun c' h => hR c' (by simp [h])) p hp n h1 h2
      · intro e he
        have b1 := (mem_bases hp).1
        have b2 := (edgesAt_bounds c (hR c (by simp)) _ e he).2.1
        simp only [beq_iff_eq]
        intro h
        have h : n = e.src := h.symm
        omega

theorem mem_kids_of_zip {L : Layer} {b : ℕ} {p : Layer × ℕ} (h : p ∈ L.kids.zip (bases b L.kids)) : p.1 ∈ L.kids :=
  (List.of_mem_zip (show (p.1, p.2) ∈ _ from h)).1

theorem placed_own {G : Circuit} {b : ℕ} {L : Layer} (hR : Regular L) (h : Placed G b L) {i : ℕ} (hi : i < L.numberOfNodes) :
    G.outEdges (b + i) = (L.ownAt b).filter fun e => e.src == b + i := by
  rw [h (b + i) (by omega) (by rw [Layer.size_eq]; omega), Layer.edgesAt_eq, List.filter_append, List.filter_eq_nil_iff.2, List.nil_append]
  intro e he
  obtain ⟨q, hq, he⟩ := mem_edgesAts.1 he
  have b1 := (mem_bases hq).1
  have b2 := (edgesAt_bounds q.1 (regular_kids hR q.1 (mem_kids_of_zip hq)) _ e he).1
  simp only [beq_iff_eq]
  intro h
  have h : b + i = e.src := h.symm
  omega

theorem placed_kid {G : Circuit} {b : ℕ} {L : Layer} (hR : Regular L) (h : Placed G b L) {p : Layer × ℕ}
    (hp : p ∈ L.kids.zip (bases (b + L.numberOfNodes) L.kids)) : Placed G p.2 p.1 := by
  intro n h1 h2
  obtain ⟨b1, b2⟩ := mem_bases hp
  rw [h n (by omega) (by rw [Layer.size_eq]; omega), Layer.edgesAt_eq, List.filter_append,
    filter_edgesAts _ _ (regular_kids hR) p hp n h1 h2, (List.filter_eq_nil_iff (l := L.ownAt b)).2, List.append_nil]
  intro e he
  obtain ⟨q, hq, l, hl, h3, h4⟩ := mem_ownAt he
  obtain ⟨c, hc1, hc2⟩ := zip_bases_triple hq
  have := (regular_fit hR _ hc1 l hl).1
  simp only [beq_iff_eq]
  intro h
  have h : n = e.src := h.symm
  omega

/-- The circuit of a layer. -/
noncomputable def circuitOf (vars : List Var) (L : Layer) : Circuit :=
  ⟨((L.collect (fun _ L => L.kinds vars) 0).zipIdx 0).map (fun p => (p.2, p.1)), L.edgesAt 0⟩

theorem circuitOf_ids (vars : List Var) (L : Layer) : (circuitOf vars L).ids = List.range L.size := by
  simp only [circuitOf, ids, List.map_map]
  rw [show (Prod.fst ∘ fun p : Kind Leaf × ℕ => (p.2, p.1)) = Prod.snd from rfl, List.zipIdx_map_snd, ← List.range_eq_range',
    kinds_collect_length]

theorem kind?_zipIdx (l : List (Kind Leaf)) (es : List Edge) : ∀ (n : ℕ),
    (⟨(l.zipIdx 0).map (fun p => (p.2, p.1)), es⟩ : Circuit).kind? n = l[n]? := by
  have key : ∀ (l : List (Kind Leaf)) (b n : ℕ),
      (((l.zipIdx b).map (fun p => ((p.2, p.1) : Node × Kind Leaf))).find? fun p => p.1 == n).map Prod.snd
        = if b ≤ n then l[n - b]? else none := by
    intro l
    induction l with
    | nil => intro b n; simp
    | cons k l ih =>
      intro b n
      simp only [List.zipIdx_cons, List.map_cons, List.find?_cons]
      by_cases h : b = n
      · subst h; simp
      · have : (b == n) = false := by simpa using h
        rw [this]
        simp only
        rw [ih]
        by_cases hb : b + 1 ≤ n
        · rw [if_pos hb, if_pos (by omega), show n - b = (n - (b + 1)) + 1 by omega, List.getElem?_cons_succ]
        · rw [if_neg hb, if_neg (by omega)]
  intro n
  have := key l 0 n
  simpa [kind?] using this

theorem seg_kinds (vars : List Var) (L : Layer) :
    Seg (circuitOf vars L).kind? 0 ((L.collect (fun _ L => L.kinds vars) 0).map some) := by
  intro i hi
  simp only [Nat.zero_add, circuitOf, kind?_zipIdx]
  rw [List.getElem_map, List.getElem?_eq_getElem (by simpa using hi)]

theorem collect_map {X Y : Type} (own : ℕ → Layer → List X) (φ : X → Y) :
    ∀ (L : Layer) (d : ℕ), (L.collect own d).map φ = L.collect (fun d L => (own d L).map φ) d := by
  refine Layer.induct fun L ih d => ?_
  have : ∀ cs : List Layer, (∀ c ∈ cs, ∀ d, (c.collect own d).map φ = c.collect (fun d L => (own d L).map φ) d) → ∀ d,
      (collects own d cs).map φ = collects (fun d L => (own d L).map φ) d cs := by
    intro cs
    induction cs with
    | nil => intro _ d; rfl
    | cons c cs ih => intro hc d; simp [collects, hc c (by simp), ih fun c' h => hc c' (by simp [h])]
  rw [Layer.collect_eq, Layer.collect_eq, List.map_append, this _ ih]

theorem placed_circuitOf (vars : List Var) (L : Layer) : Placed (circuitOf vars L) 0 L := fun _ _ _ => rfl

/-- The kinds of the units from `b` on are those of the layer. -/
def Kinds (vars : List Var) (G : Circuit) (b : ℕ) (L : Layer) : Prop :=
  ∃ d, Seg G.kind? b (L.collect (fun _ L => (L.kinds vars).map some) d)

theorem kinds_circuitOf (vars : List Var) (L : Layer) : Kinds vars (circuitOf vars L) 0 L := by
  refine ⟨0, ?_⟩
  rw [← collect_map (fun _ L => L.kinds vars)]
  exact seg_kinds vars L

theorem kinds_own {vars : List Var} {G : Circuit} {b : ℕ} {L : Layer} (h : Kinds vars G b L) {i : ℕ} (hi : i < L.numberOfNodes) :
    G.kind? (b + i) = (L.kinds vars)[i]? := by
  obtain ⟨d, h⟩ := h
  have h1 := (seg_collect (fun _ L => by simp [Layer.kinds_length]) h).1
  have h2 := h1 i (by simpa [Layer.kinds_length] using hi)
  simp only [List.getElem_map] at h2
  rw [h2, List.getElem?_eq_getElem]

theorem kinds_kid {vars : List Var} {G : Circuit} {b : ℕ} {L : Layer} (h : Kinds vars G b L) {p : Layer × ℕ}
    (hp : p ∈ L.kids.zip (bases (b + L.numberOfNodes) L.kids)) : Kinds vars G p.2 p.1 := by
  obtain ⟨d, h⟩ := h
  exact ⟨d + 1, (seg_collect (fun _ L => by simp [Layer.kinds_length]) h).2 p hp⟩

/-- To show something of all units of a layer and below, it suffices to show it for the units of each layer. -/
theorem walk {vars : List Var} {k : ℕ} {prog : Bool} {G : Circuit} {Q : ℕ → Prop}
    (own : ∀ (L : Layer) (b : ℕ), Regular L → Tidy k L → NoDense prog L → Placed G b L → Kinds vars G b L →
      ∀ i < L.numberOfNodes, Q (b + i)) :
    ∀ (L : Layer), Regular L → Tidy k L → NoDense prog L → ∀ b, Placed G b L → Kinds vars G b L → ∀ n, b ≤ n → n < b + L.size → Q n := by
  refine Layer.induct fun L ih hR hT hD b hP hK n h1 h2 => ?_
  rcases cover h1 h2 with ⟨i, hi, rfl⟩ | ⟨p, hp, h3, h4⟩
  · exact own L b hR hT hD hP hK i hi
  · have hm := mem_kids_of_zip hp
    exact ih p.1 hm (regular_kids hR _ hm) (tidy_kids hT _ hm) (noDense_kids hD _ hm) p.2 (placed_kid hR hP hp) (kinds_kid hK hp) n h3 h4

variable {vars : List Var} {prog : Bool} {L : Layer}

/-- `walk` for the whole circuit. -/
theorem walk_circuitOf (hR : Regular L) (hT : Tidy vars.length L) (hD : NoDense prog L) {Q : ℕ → Prop}
    (own : ∀ (L' : Layer) (b : ℕ), Regular L' → Tidy vars.length L' → NoDense prog L' → Placed (circuitOf vars L) b L' →
      Kinds vars (circuitOf vars L) b L' → ∀ i < L'.numberOfNodes, Q (b + i)) {n : ℕ} {k : Kind Leaf}
    (hn : (circuitOf vars L).kind? n = some k) : Q n := by
  have hm : n ∈ (circuitOf vars L).ids := by
    have := List.find?_some (p := fun p : Node × Kind Leaf => p.1 == n) (l := (circuitOf vars L).nodes) (a := (n, k))
    simp only [kind?, Option.map_eq_some_iff] at hn
    obtain ⟨q, hq, -⟩ := hn
    have h1 := List.mem_of_find?_eq_some hq
    have h2 := List.find?_some hq
    simp only [beq_iff_eq] at h2
    exact List.mem_map.2 ⟨q, h1, h2⟩
  rw [circuitOf_ids, List.mem_range] at hm
  exact walk own L hR hT hD 0 (placed_circuitOf vars L) (kinds_circuitOf vars L) n (by omega) (by omega)

theorem leafTerminal_circuitOf (hR : Regular L) (hT : Tidy vars.length L) (hD : NoDense prog L) : (circuitOf vars L).LeafTerminal := by
  intro n d hd
  revert d
  have : (∃ d, (circuitOf vars L).kind? n = some (.leaf d)) → (circuitOf vars L).succ n = [] := by
    rintro ⟨d, hd⟩
    revert d
    suffices H : ∀ n k, (circuitOf vars L).kind? n = some k → ∀ d, k = .leaf d → (circuitOf vars L).succ n = [] from
      fun d hd => H n _ hd d rfl
    intro n k hn
    have hQ := walk_circuitOf hR hT hD (Q := fun n => ∀ d, (circuitOf vars L).kind? n = some (.leaf d) → (circuitOf vars L).succ n = [])
      (by
        intro L' b hR' _ _ hP hK i hi d hd
        rw [kinds_own hK hi] at hd
        cases L' with
        | input v nodes => rw [succ, placed_own hR' hP hi]; simp [Layer.ownAt]
        | sparseSum ws cs =>
          simp only [Layer.kinds] at hd
          rw [List.getElem?_replicate] at hd
          split at hd <;> simp at hd
        | denseSum ws cs =>
          simp only [Layer.kinds] at hd
          rw [List.getElem?_replicate] at hd
          split at hd <;> simp at hd
        | product n es cs =>
          simp only [Layer.kinds] at hd
          rw [List.getElem?_replicate] at hd
          split at hd <;> simp at hd) hn
    intro d hk
    exact hQ d (hk ▸ hn)
  exact fun d hd => this ⟨d, hd⟩

theorem mem_kinds {vars : List Var} {L : Layer} {i : ℕ} {k : Kind Leaf} (h : (L.kinds vars)[i]? = some k) :
    (∃ v nodes f, L = .input v nodes ∧ nodes[i]? = some f ∧ k = .leaf (inputLeaf (vars.getD v 0) f)) ∨
    ((∃ ws cs, L = .sparseSum ws cs) ∧ k = .sum) ∨ ((∃ ws cs, L = .denseSum ws cs) ∧ k = .sum) ∨
    ((∃ n es cs, L = .product n es cs) ∧ k = .prod) := by
  cases L with
  | input v nodes =>
    simp only [Layer.kinds, List.getElem?_map, Option.map_eq_some_iff] at h
    obtain ⟨f, hf, rfl⟩ := h
    exact .inl ⟨v, nodes, f, rfl, hf, rfl⟩
  | sparseSum ws cs =>
    simp only [Layer.kinds, List.getElem?_replicate] at h
    split at h <;> simp at h
    exact .inr (.inl ⟨⟨ws, cs, rfl⟩, h.symm⟩)
  | denseSum ws cs =>
    simp only [Layer.kinds, List.getElem?_replicate] at h
    split at h <;> simp at h
    exact .inr (.inr (.inl ⟨⟨ws, cs, rfl⟩, h.symm⟩))
  | product n es cs =>
    simp only [Layer.kinds, List.getElem?_replicate] at h
    split at h <;> simp at h
    exact .inr (.inr (.inr ⟨⟨n, es, cs, rfl⟩, h.symm⟩))

theorem weighted_circuitOf (hR : Regular L) (hT : Tidy vars.length L) (hD : NoDense prog L) : Weighted (circuitOf vars L) := by
  intro n hn
  refine walk_circuitOf hR hT hD (Q := fun n => (circuitOf vars L).kind? n = some .sum → ∀ e ∈ (circuitOf vars L).outEdges n, e.weight.isSome)
    ?_ hn hn
  intro L' b hR' _ hD' hP hK i hi hs e he
  rw [kinds_own hK hi] at hs
  rw [placed_own hR' hP hi] at he
  rcases mem_kinds hs with ⟨_, _, _, -, -, h⟩ | ⟨⟨ws, cs, rfl⟩, -⟩ | ⟨⟨ws, cs, rfl⟩, -⟩ | ⟨-, h⟩
  · simp at h
  · have he := List.mem_of_mem_filter he
    simp only [Layer.ownAt, normalized, List.mem_map] at he
    obtain ⟨e', he', rfl⟩ := he
    obtain ⟨p, hp, l, hl, rfl⟩ := mem_ownEdges.1 he'
    obtain ⟨w, hw, hl'⟩ := List.mem_map.1 (List.of_mem_zip (show (p.1, p.2) ∈ _ from hp)).1
    rw [← hl'] at hl
    obtain ⟨e', -, rfl⟩ := List.mem_map.1 hl
    rfl
  · cases hD'
  · simp at h

theorem valid_circuitOf (hR : Regular L) (hT : Tidy vars.length L) (hD : NoDense prog L) :
    ∀ n d, (circuitOf vars L).kind? n = some (.leaf d) → d.Valid := by
  intro n d hn
  refine walk_circuitOf hR hT hD (Q := fun n => ∀ d, (circuitOf vars L).kind? n = some (.leaf d) → d.Valid) ?_ hn d hn
  intro L' b hR' hT' _ hP hK i hi d hd
  rw [kinds_own hK hi] at hd
  rcases mem_kinds hd with ⟨v, nodes, f, rfl, hf, h⟩ | ⟨-, h⟩ | ⟨-, h⟩ | ⟨-, h⟩
  · injection h with h
    subst h
    cases hT' with
    | input _ _ _ hp =>
      have hv := hp f (List.mem_of_getElem? hf)
      cases f with
      | uniform lo hi => exact hv
      | dirac loc cap => exact hv
      | gaussian loc ls ms =>
        have : (0 : ℝ) ≤ ms := hv
        show 0 < scale ls ms
        have := Real.exp_pos ls
        unfold scale
        linarith
      | discrete logs =>
        refine ⟨?_, ?_⟩
        · intro kp hkp
          obtain ⟨q, -, rfl⟩ := List.mem_map.1 hkp
          exact LogP.exp_nonneg _
        · rw [List.map_map]
          rw [show (Prod.fst ∘ fun p : LogP × ℕ => ((p.2 : ℤ), (p.1 - LogP.logsumexp logs).exp)) = (fun j : ℕ => (j : ℤ)) ∘ Prod.snd from rfl,
            ← List.map_map, List.zipIdx_map_snd]
          exact (List.nodup_range' (s := 0) (n := logs.length)).map fun a b h => by exact_mod_cast h
  · simp at h
  · simp at h
  · simp at h

end PM.Jax
