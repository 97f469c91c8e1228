import Verif.Circuit.MountLayered
import Verif.Circuit.ValueLemmas

/-!
# Circuits that are put together from parts

`Denotes g r V F`: `g` is a well-formed circuit with root `r` and variables `V`, and the value at the root is `F ℓ` for
all leaf values `ℓ`.
-/

namespace PM.Graph

open Spec

structure Denotes (g : Circuit) (r : Node) (V : Finset Var) (F : (Leaf → ℝ) → ℝ) : Prop where
  layered : Layered g r
  scope : ∃ sc, Scoped g sc ∧ Decomposable g sc ∧ sc r = V
  valid : ∀ n d, g.kind? n = some (.leaf d) → d.Valid
  value : ∀ ℓ f, CircuitValue g ℓ f → f r = F ℓ

theorem Denotes.congr {g : Circuit} {r : Node} {V : Finset Var} {F F' : (Leaf → ℝ) → ℝ} (h : Denotes g r V F)
    (hF : ∀ ℓ, F ℓ = F' ℓ) : Denotes g r V F' :=
  ⟨h.layered, h.scope, h.valid, fun ℓ f hf => (h.value ℓ f hf).trans (hF ℓ)⟩

/-- `LeafUnit(distribution)`. -/
theorem denotes_leaf (n : Node) {d : Leaf} (hd : d.Valid) : Denotes (newUnit n (.leaf d)) n {d.var} (fun ℓ => ℓ d) := by
  have hk : ∀ m k, (newUnit n (.leaf d)).kind? m = some k → m = n ∧ k = .leaf d := by
    intro m k h
    have hm := mem_ids_of_kind? h
    simp only [ids_newUnit, List.mem_singleton] at hm
    subst hm
    rw [kind?_newUnit] at h
    exact ⟨rfl, by injection h with h; exact h.symm⟩
  refine ⟨layered_newUnit _ _, ⟨fun _ => {d.var}, ⟨?_, ?_, ?_, ?_⟩, ?_, rfl⟩, ?_, ?_⟩
  · intro m e h
    obtain ⟨_, h⟩ := hk m _ h
    injection h with h
    rw [h]
  · intro m h; obtain ⟨_, h⟩ := hk m _ h; cases h
  · intro m h; obtain ⟨_, h⟩ := hk m _ h; cases h
  · intro m h; obtain ⟨_, h⟩ := hk m _ h; cases h
  · intro m h; obtain ⟨_, h⟩ := hk m _ h; cases h
  · intro m e h
    obtain ⟨_, h⟩ := hk m _ h
    injection h with h
    rw [h]
    exact hd
  · intro ℓ f hf
    exact hf.leaf n d (kind?_newUnit _ _)

section parts

variable {ι : Type} {G : ι → Circuit} {o : ι → Node} {w : ι → Option LogP} {V : ι → Finset Var}
  {F : ι → (Leaf → ℝ) → ℝ} {u : Node} {is : List ι}

/-- The list of arguments of a loop over `add_subcircuit`. -/
def partsOf (G : ι → Circuit) (o : ι → Node) (w : ι → Option LogP) (is : List ι) : List (Circuit × Node × Option LogP) :=
  is.map fun i => (G i, o i, w i)

theorem assembled_parts {k : Kind Leaf} (hk : ∀ d, k ≠ .leaf d) (hw : k = .sum → ∀ i ∈ is, (w i).isSome)
    (hd : ∀ i ∈ is, Layered (G i) (o i)) (hu : ∀ i ∈ is, u ∉ (G i).ids)
    (hp : is.Pairwise fun i j => DisjointIds (G i) (G j)) :
    Assembled (newUnit u k) u (partsOf G o w is) ((newUnit u k).addAll u (partsOf G o w is)) u := by
  refine assembled_addAll _ (layered_newUnit u k) (by simp) ?_ ?_ ?_ ?_ ?_
  · intro d h
    rw [kind?_newUnit] at h
    injection h with h
    exact hk d h
  · intro h x hx
    rw [kind?_newUnit] at h
    injection h with h
    obtain ⟨i, hi, rfl⟩ := List.mem_map.1 hx
    exact hw h i hi
  · intro x hx
    obtain ⟨i, hi, rfl⟩ := List.mem_map.1 hx
    exact hd i hi
  · intro x hx n hn
    obtain ⟨i, hi, rfl⟩ := List.mem_map.1 hx
    simp only [ids_newUnit, List.mem_singleton] at hn
    subst hn
    exact hu i hi
  · exact List.pairwise_map.2 hp

/-- A scope function for the assembled circuit that agrees with those of the parts. -/
theorem exists_scope (U : Finset Var) (sc : ι → Node → Finset Var) (hu : ∀ i ∈ is, u ∉ (G i).ids)
    (hp : is.Pairwise fun i j => DisjointIds (G i) (G j)) :
    ∃ s : Node → Finset Var, s u = U ∧ ∀ i ∈ is, ∀ n ∈ (G i).ids, s n = sc i n := by
  classical
  induction is with
  | nil => exact ⟨fun _ => U, rfl, by simp⟩
  | cons i is ih =>
    rw [List.pairwise_cons] at hp
    obtain ⟨s, h1, h2⟩ := ih (fun j hj => hu j (by simp [hj])) hp.2
    refine ⟨fun n => if n ∈ (G i).ids then sc i n else s n, ?_, ?_⟩
    · simp only [hu i (by simp), if_false, h1]
    · intro j hj n hn
      rcases List.mem_cons.1 hj with rfl | hj
      · simp only [hn, if_true]
      · have : n ∉ (G i).ids := fun h => hp.1 j hj n h hn
        simp only [this, if_false]
        exact h2 j hj n hn

theorem mem_ids_assembled {k : Kind Leaf} {g : Circuit} (hA : Assembled (newUnit u k) u (partsOf G o w is) g u) {n : Node} :
    n ∈ g.ids ↔ n = u ∨ ∃ i ∈ is, n ∈ (G i).ids := by
  rw [hA.ids n]
  simp [partsOf]

theorem kind_assembled {k : Kind Leaf} {g : Circuit} (hA : Assembled (newUnit u k) u (partsOf G o w is) g u) :
    g.kind? u = some k := by
  rw [hA.kindL u (by simp), kind?_newUnit]

theorem kind_assembled_part {k : Kind Leaf} {g : Circuit} (hA : Assembled (newUnit u k) u (partsOf G o w is) g u) {i : ι}
    (hi : i ∈ is) {n : Node} (hn : n ∈ (G i).ids) : g.kind? n = (G i).kind? n :=
  hA.kindR _ (List.mem_map_of_mem (f := fun i => (G i, o i, w i)) hi) n hn

theorem out_assembled_part {k : Kind Leaf} {g : Circuit} (hA : Assembled (newUnit u k) u (partsOf G o w is) g u) {i : ι}
    (hi : i ∈ is) {n : Node} (hn : n ∈ (G i).ids) : g.outEdges n = (G i).outEdges n :=
  hA.outR _ (List.mem_map_of_mem (f := fun i => (G i, o i, w i)) hi) n hn

theorem out_assembled {k : Kind Leaf} {g : Circuit} (hA : Assembled (newUnit u k) u (partsOf G o w is) g u) :
    g.outEdges u = is.map fun i => ⟨u, o i, w i⟩ := by
  rw [hA.outU]
  simp [partsOf]

theorem succ_assembled {k : Kind Leaf} {g : Circuit} (hA : Assembled (newUnit u k) u (partsOf G o w is) g u) :
    g.succ u = is.map o := by
  unfold succ
  rw [out_assembled hA]
  simp

theorem value_assembled {k : Kind Leaf} {g : Circuit} (hA : Assembled (newUnit u k) u (partsOf G o w is) g u)
    {ℓ : Leaf → ℝ} {f : Node → ℝ} (hf : CircuitValue g ℓ f) {i : ι} (hi : i ∈ is) : CircuitValue (G i) ℓ f := by
  refine ⟨?_, ?_, ?_⟩
  · intro n d h
    exact hf.leaf n d ((kind_assembled_part hA hi (mem_ids_of_kind? h)).trans h)
  · intro n h
    have hn := mem_ids_of_kind? h
    rw [hf.sum n ((kind_assembled_part hA hi hn).trans h), out_assembled_part hA hi hn]
  · intro n h
    have hn := mem_ids_of_kind? h
    rw [hf.prod n ((kind_assembled_part hA hi hn).trans h), out_assembled_part hA hi hn]

theorem valid_assembled {k : Kind Leaf} {g : Circuit} (hk : ∀ d, k ≠ .leaf d) {P : Leaf → Prop}
    (hA : Assembled (newUnit u k) u (partsOf G o w is) g u)
    (hv : ∀ i ∈ is, ∀ n d, (G i).kind? n = some (.leaf d) → P d) : ∀ n d, g.kind? n = some (.leaf d) → P d := by
  intro n d h
  rcases (mem_ids_assembled hA).1 (mem_ids_of_kind? h) with rfl | ⟨i, hi, hn⟩
  · rw [kind_assembled hA] at h
    injection h with h
    exact absurd h (hk d)
  · rw [kind_assembled_part hA hi hn] at h
    exact hv i hi n d h

theorem scoped_assembled {k : Kind Leaf} {g : Circuit} (hk : ∀ d, k ≠ .leaf d)
    (hA : Assembled (newUnit u k) u (partsOf G o w is) g u) {sc : ι → Node → Finset Var} {s : Node → Finset Var}
    (hWF : ∀ i ∈ is, (G i).WF)
    (hs : ∀ i ∈ is, ∀ n ∈ (G i).ids, s n = sc i n) (hsc : ∀ i ∈ is, Scoped (G i) (sc i))
    (hdc : ∀ i ∈ is, Decomposable (G i) (sc i)) (hne : k = .sum → is ≠ [])
    (hsum : k = .sum → ∀ i ∈ is, s (o i) = s u)
    (hprod : k = .prod → (∀ v, v ∈ s u ↔ ∃ i ∈ is, v ∈ s (o i)) ∧ is.Pairwise fun i j => Disjoint (s (o i)) (s (o j))) :
    Scoped g s ∧ Decomposable g s := by
  have hsucc : ∀ i ∈ is, ∀ n ∈ (G i).ids, g.succ n = (G i).succ n := by
    intro i hi n hn
    unfold succ
    rw [out_assembled_part hA hi hn]
  have hcm : ∀ i ∈ is, ∀ n, ∀ c ∈ (G i).succ n, c ∈ (G i).ids := by
    intro i hi n c hc
    obtain ⟨e, he, _, rfl⟩ := mem_succ.1 hc
    exact (hWF i hi).dstMem e he
  refine ⟨⟨?_, ?_, ?_, ?_⟩, ?_⟩
  · intro n d h
    rcases (mem_ids_assembled hA).1 (mem_ids_of_kind? h) with rfl | ⟨i, hi, hn⟩
    · rw [kind_assembled hA] at h
      injection h with h
      exact absurd h (hk d)
    · rw [kind_assembled_part hA hi hn] at h
      rw [hs i hi n hn, (hsc i hi).leaf n d h]
  · intro n h
    rcases (mem_ids_assembled hA).1 (mem_ids_of_kind? h) with rfl | ⟨i, hi, hn⟩
    · rw [kind_assembled hA] at h
      injection h with h
      rw [succ_assembled hA]
      simpa using hne h
    · rw [kind_assembled_part hA hi hn] at h
      rw [hsucc i hi n hn]
      exact (hsc i hi).sumNe n h
  · intro n h c hc
    rcases (mem_ids_assembled hA).1 (mem_ids_of_kind? h) with rfl | ⟨i, hi, hn⟩
    · rw [kind_assembled hA] at h
      injection h with h
      rw [succ_assembled hA] at hc
      obtain ⟨i, hi, rfl⟩ := List.mem_map.1 hc
      exact hsum h i hi
    · rw [kind_assembled_part hA hi hn] at h
      rw [hsucc i hi n hn] at hc
      rw [hs i hi n hn, hs i hi c (hcm i hi n c hc)]
      exact (hsc i hi).sum n h c hc
  · intro n h v
    rcases (mem_ids_assembled hA).1 (mem_ids_of_kind? h) with rfl | ⟨i, hi, hn⟩
    · rw [kind_assembled hA] at h
      injection h with h
      rw [succ_assembled hA, (hprod h).1 v]
      simp
    · rw [kind_assembled_part hA hi hn] at h
      rw [hsucc i hi n hn, hs i hi n hn, (hsc i hi).prod n h v]
      refine exists_congr fun c => and_congr_right fun hc => ?_
      rw [hs i hi c (hcm i hi n c hc)]
  · intro n h
    rcases (mem_ids_assembled hA).1 (mem_ids_of_kind? h) with rfl | ⟨i, hi, hn⟩
    · rw [kind_assembled hA] at h
      injection h with h
      rw [succ_assembled hA]
      exact List.pairwise_map.2 (hprod h).2
    · rw [kind_assembled_part hA hi hn] at h
      rw [hsucc i hi n hn]
      refine (hdc i hi n h).imp_of_mem ?_
      intro a b ha hb hab
      rw [hs i hi a (hcm i hi n a ha), hs i hi b (hcm i hi n b hb)]
      exact hab

/-- A new sum unit with weighted subcircuits over the same variables. -/
theorem denotes_sum {W : ι → LogP} {U : Finset Var} (hne : is ≠ []) (hd : ∀ i ∈ is, Denotes (G i) (o i) U (F i))
    (hu : ∀ i ∈ is, u ∉ (G i).ids) (hp : is.Pairwise fun i j => DisjointIds (G i) (G j)) :
    Denotes ((newUnit u .sum).addAll u (partsOf G o (fun i => some (W i)) is)) u U
      (fun ℓ => (is.map fun i => (W i).exp * F i ℓ).sum) ∧
    ∀ n, n ∈ ((newUnit u .sum).addAll u (partsOf G o (fun i => some (W i)) is)).ids ↔ n = u ∨ ∃ i ∈ is, n ∈ (G i).ids := by
  classical
  have hA := assembled_parts (w := fun i => some (W i)) (k := .sum) (u := u) (by simp) (fun _ _ _ => rfl)
    (fun i hi => (hd i hi).layered) hu hp
  refine ⟨⟨hA.layered, ?_, ?_, ?_⟩, fun n => mem_ids_assembled hA⟩
  · have hsc : ∃ sc : ι → Node → Finset Var, ∀ i ∈ is, Scoped (G i) (sc i) ∧ Decomposable (G i) (sc i) ∧ sc i (o i) = U := by
      refine ⟨fun i => if hi : i ∈ is then (hd i hi).scope.choose else fun _ => ∅, fun i hi => ?_⟩
      simp only [hi, dif_pos]
      exact (hd i hi).scope.choose_spec
    obtain ⟨sc, hsc⟩ := hsc
    obtain ⟨s, hsu, hs⟩ := exists_scope U sc hu hp
    obtain ⟨h1, h2⟩ := scoped_assembled (by simp) hA (fun i hi => (hd i hi).layered.wf) hs (fun i hi => (hsc i hi).1)
      (fun i hi => (hsc i hi).2.1) (fun _ => hne)
      (fun _ i hi => by rw [hs i hi _ (root_mem (hd i hi).layered.root).1, (hsc i hi).2.2, hsu])
      (fun h => by cases h)
    exact ⟨s, h1, h2, hsu⟩
  · exact valid_assembled (by simp) hA fun i hi => (hd i hi).valid
  · intro ℓ f hf
    rw [hf.sum u (kind_assembled hA), out_assembled hA, List.map_map]
    congr 1
    apply List.map_congr_left
    intro i hi
    simp only [Function.comp, linWeight]
    rw [(hd i hi).value ℓ f (value_assembled hA hf hi)]

/-- A new product unit with subcircuits over disjoint variables. -/
theorem denotes_prod {U : Finset Var} (hd : ∀ i ∈ is, Denotes (G i) (o i) (V i) (F i))
    (hu : ∀ i ∈ is, u ∉ (G i).ids) (hp : is.Pairwise fun i j => DisjointIds (G i) (G j))
    (hU : ∀ v, v ∈ U ↔ ∃ i ∈ is, v ∈ V i) (hdis : is.Pairwise fun i j => Disjoint (V i) (V j)) :
    Denotes ((newUnit u .prod).addAll u (partsOf G o (fun _ => none) is)) u U
      (fun ℓ => (is.map fun i => F i ℓ).prod) ∧
    ∀ n, n ∈ ((newUnit u .prod).addAll u (partsOf G o (fun _ => none) is)).ids ↔ n = u ∨ ∃ i ∈ is, n ∈ (G i).ids := by
  classical
  have hA := assembled_parts (w := fun _ => none) (k := .prod) (u := u) (by simp) (fun h => by cases h)
    (fun i hi => (hd i hi).layered) hu hp
  refine ⟨⟨hA.layered, ?_, ?_, ?_⟩, fun n => mem_ids_assembled hA⟩
  · have hsc : ∃ sc : ι → Node → Finset Var,
        ∀ i ∈ is, Scoped (G i) (sc i) ∧ Decomposable (G i) (sc i) ∧ sc i (o i) = V i := by
      refine ⟨fun i => if hi : i ∈ is then (hd i hi).scope.choose else fun _ => ∅, fun i hi => ?_⟩
      simp only [hi, dif_pos]
      exact (hd i hi).scope.choose_spec
    obtain ⟨sc, hsc⟩ := hsc
    obtain ⟨s, hsu, hs⟩ := exists_scope U sc hu hp
    have hso : ∀ i ∈ is, s (o i) = V i := fun i hi => by
      rw [hs i hi _ (root_mem (hd i hi).layered.root).1, (hsc i hi).2.2]
    obtain ⟨h1, h2⟩ := scoped_assembled (by simp) hA (fun i hi => (hd i hi).layered.wf) hs (fun i hi => (hsc i hi).1)
      (fun i hi => (hsc i hi).2.1) (fun h => by cases h) (fun h => by cases h)
      (fun _ => ⟨fun v => by
        rw [hsu, hU v]
        exact exists_congr fun i => and_congr_right fun hi => by rw [hso i hi],
        hdis.imp_of_mem fun {i j} hi hj h => by rw [hso i hi, hso j hj]; exact h⟩)
    exact ⟨s, h1, h2, hsu⟩
  · exact valid_assembled (by simp) hA fun i hi => (hd i hi).valid
  · intro ℓ f hf
    rw [hf.prod u (kind_assembled hA), out_assembled hA, List.map_map]
    congr 1
    apply List.map_congr_left
    intro i hi
    simp only [Function.comp]
    rw [(hd i hi).value ℓ f (value_assembled hA hf hi)]

/-- The leaves of an assembled circuit are those of its parts. -/
theorem leaves_sum {W : ι → LogP} {P : Leaf → Prop} (hd : ∀ i ∈ is, Layered (G i) (o i)) (hu : ∀ i ∈ is, u ∉ (G i).ids)
    (hp : is.Pairwise fun i j => DisjointIds (G i) (G j))
    (hv : ∀ i ∈ is, ∀ n d, (G i).kind? n = some (.leaf d) → P d) : ∀ n d,
      ((newUnit u .sum).addAll u (partsOf G o (fun i => some (W i)) is)).kind? n = some (.leaf d) → P d :=
  valid_assembled (by simp) (assembled_parts (w := fun i => some (W i)) (k := .sum) (u := u) (by simp) (fun _ _ _ => rfl)
    hd hu hp) hv

/-- The leaves of an assembled circuit are those of its parts. -/
theorem leaves_prod {P : Leaf → Prop} (hd : ∀ i ∈ is, Layered (G i) (o i)) (hu : ∀ i ∈ is, u ∉ (G i).ids)
    (hp : is.Pairwise fun i j => DisjointIds (G i) (G j))
    (hv : ∀ i ∈ is, ∀ n d, (G i).kind? n = some (.leaf d) → P d) : ∀ n d,
      ((newUnit u .prod).addAll u (partsOf G o (fun _ => none) is)).kind? n = some (.leaf d) → P d :=
  valid_assembled (by simp) (assembled_parts (w := fun _ => none) (k := .prod) (u := u) (by simp) (fun h => by cases h)
    hd hu hp) hv

theorem leaves_newUnit {n : Node} {d : Leaf} {P : Leaf → Prop} (h : P d) :
    ∀ m e, (newUnit n (.leaf d)).kind? m = some (.leaf e) → P e := by
  intro m e hk
  have hm := mem_ids_of_kind? hk
  simp only [ids_newUnit, List.mem_singleton] at hm
  subst hm
  rw [kind?_newUnit] at hk
  injection hk with hk
  injection hk with hk
  exact hk ▸ h

end parts

/-- The value of the root, for given leaf values. -/
theorem Denotes.exists_value {g : Circuit} {r : Node} {V : Finset Var} {F : (Leaf → ℝ) → ℝ} (h : Denotes g r V F)
    (ℓ : Leaf → ℝ) : ∃ f, CircuitValue g ℓ f ∧ f r = F ℓ := by
  obtain ⟨f, hf⟩ := exists_circuitValue h.layered.graded.acyclic ℓ
  exact ⟨f, hf, h.value ℓ f hf⟩

end PM.Graph
