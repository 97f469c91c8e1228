import Verif.Circuit.Denotes
import Verif.Circuit.CopyLemmas
import Verif.Circuit.CondPass

/-! # Circuits that are put together from parts that were built on their own -/

namespace PM.Graph

open Spec

/-- A copy denotes the same. -/
theorem Denotes.copyAt {g : Circuit} {r : Node} {V : Finset Var} {F : (Leaf → ℝ) → ℝ} (h : Denotes g r V F) (off : ℕ) :
    Denotes (g.copyAt off) (off + r) V F := by
  have hw := h.layered.wf
  refine ⟨Layered.copyAt h.layered off, ?_, ?_, ?_⟩
  · obtain ⟨sc, h1, h2, h3⟩ := h.scope
    refine ⟨_, Scoped.copyAt hw h1 off, Decomposable.copyAt hw h2 off, ?_⟩
    simp only [Nat.add_sub_cancel_left, h3]
  · intro n d hk
    obtain ⟨m, rfl, hm⟩ := exists_of_kind?_copyAt hk
    exact h.valid m d hm
  · intro ℓ f hf
    refine h.value ℓ (fun n => f (off + n)) ⟨?_, ?_, ?_⟩
    · intro n d hk
      exact hf.leaf (off + n) d (by rw [kind?_copyAt, hk])
    · intro n hk
      rw [hf.sum (off + n) (by rw [kind?_copyAt, hk]), outEdges_copyAt hw, List.map_map]
      rfl
    · intro n hk
      rw [hf.prod (off + n) (by rw [kind?_copyAt, hk]), outEdges_copyAt hw, List.map_map]
      rfl

section parts

variable {ι : Type} {G : ι → Circuit} {o : ι → Node} {w : ι → Option LogP} {V : ι → Finset Var}
  {F : ι → (Leaf → ℝ) → ℝ} {u : Node}

theorem mem_ids_attach {g h : Circuit} {r u : Node} {w : Option LogP} (hL : Layered h r) {n : Node} :
    n ∈ (g.attach h u r w).ids ↔ n ∈ g.ids ∨ n ∈ (h.copyAt g.fresh).ids := by
  have hL' := Layered.copyAt hL g.fresh
  unfold attach
  rw [mem_ids_addSubcircuit hL'.wf (root_mem hL'.root).1]
  refine or_congr_right ⟨fun h => reachable_mem_ids hL'.wf (root_mem hL'.root).1 h, fun hn => ?_⟩
  exact reachable_of_root hL'.wf hL'.graded.acyclic hL'.root n hn

/-- The parts get numbers past those of the circuit and of each other. -/
theorem exists_offsets : ∀ (is : List ι) (g : Circuit), (∀ i ∈ is, Layered (G i) (o i)) →
    ∃ offs : List ℕ, offs.length = is.length ∧
      g.attachAll u (partsOf G o w is) = g.addAll u (partsOf (fun p : ι × ℕ => (G p.1).copyAt p.2) (fun p => p.2 + o p.1)
        (fun p => w p.1) (is.zip offs)) ∧
      (∀ off ∈ offs, ∀ n ∈ g.ids, n < off) ∧
      (is.zip offs).Pairwise fun p q => DisjointIds ((G p.1).copyAt p.2) ((G q.1).copyAt q.2)
  | [], g, _ => ⟨[], rfl, rfl, by simp, by simp⟩
  | i :: is, g, h => by
    obtain ⟨offs, h1, h2, h3, h4⟩ := exists_offsets is (g.attach (G i) u (o i) (w i)) fun j hj => h j (by simp [hj])
    have hi := h i (by simp)
    refine ⟨g.fresh :: offs, by simp [h1], ?_, ?_, ?_⟩
    · exact h2
    · intro off ho n hn
      rcases List.mem_cons.1 ho with rfl | ho
      · exact lt_fresh hn
      · exact h3 off ho n ((mem_ids_attach hi).2 (.inl hn))
    · rw [List.zip_cons_cons, List.pairwise_cons]
      refine ⟨?_, h4⟩
      intro q hq n hn hn'
      have h5 := h3 q.2 (List.of_mem_zip hq).2 n ((mem_ids_attach hi).2 (.inr hn))
      obtain ⟨m, _, rfl⟩ := exists_of_mem_copyAt hn'
      nomega

/-- What an assembled circuit knows about the part `i` below the edge `e`. -/
structure Part (g : Circuit) (u : Node) (G : Circuit) (o : Node) (w : Option LogP) (F : (Leaf → ℝ) → ℝ) (e : Edge) : Prop where
  src : e.src = u
  weight : e.weight = w
  kind : g.kind? e.dst = G.kind? o
  value : ∀ ℓ f, CircuitValue g ℓ f → f e.dst = F ℓ

theorem part_of {k : Kind Leaf} {g : Circuit} {is : List ι} {offs : List ℕ}
    (hA : Assembled (newUnit u k) u (partsOf (fun p : ι × ℕ => (G p.1).copyAt p.2) (fun p => p.2 + o p.1)
        (fun p => w p.1) (is.zip offs)) g u)
    (hl : offs.length = is.length) (hd : ∀ i ∈ is, Denotes (G i) (o i) (V i) (F i)) :
    List.Forall₂ (fun i e => Part g u (G i) (o i) (w i) (F i) e) is (g.outEdges u) := by
  rw [out_assembled hA, List.forall₂_map_right_iff]
  rw [List.forall₂_iff_get]
  refine ⟨by simp [hl], ?_⟩
  intro a ha hb
  simp only [List.get_eq_getElem, List.getElem_zip]
  have hm : (is[a], offs[a]'(by omega)) ∈ is.zip offs := by
    rw [List.mem_iff_getElem]
    exact ⟨a, hb, by simp⟩
  have hia : is[a] ∈ is := List.getElem_mem ha
  have hD := (hd _ hia).copyAt (offs[a]'(by omega))
  refine ⟨rfl, rfl, ?_, ?_⟩
  · rw [kind_assembled_part hA hm (root_mem hD.layered.root).1, kind?_copyAt]
  · intro ℓ f hf
    exact hD.value ℓ f (value_assembled hA hf hm)

/-- A new sum unit with weighted subcircuits over the same variables, built on their own. -/
theorem denotes_attach_sum {W : ι → LogP} {U : Finset Var} {is : List ι} (hne : is ≠ [])
    (hd : ∀ i ∈ is, Denotes (G i) (o i) U (F i)) :
    Denotes ((newUnit u .sum).attachAll u (partsOf G o (fun i => some (W i)) is)) u U
      (fun ℓ => (is.map fun i => (W i).exp * F i ℓ).sum) ∧
    List.Forall₂ (fun i e => Part ((newUnit u .sum).attachAll u (partsOf G o (fun i => some (W i)) is)) u (G i) (o i)
      (some (W i)) (F i) e) is (((newUnit u .sum).attachAll u (partsOf G o (fun i => some (W i)) is)).outEdges u) ∧
    ((newUnit u .sum).attachAll u (partsOf G o (fun i => some (W i)) is)).kind? u = some .sum := by
  obtain ⟨offs, h1, h2, h3, h4⟩ := exists_offsets (u := u) (w := fun i => some (W i)) is (newUnit u .sum)
    fun i hi => (hd i hi).layered
  rw [h2]
  have hd' : ∀ p ∈ is.zip offs, Denotes ((G p.1).copyAt p.2) (p.2 + o p.1) U (F p.1) := fun p hp =>
    (hd p.1 (List.of_mem_zip hp).1).copyAt p.2
  have hu : ∀ p ∈ is.zip offs, u ∉ ((G p.1).copyAt p.2).ids := by
    intro p hp hn
    have := h3 p.2 (List.of_mem_zip hp).2 u (by simp)
    obtain ⟨m, _, hm⟩ := exists_of_mem_copyAt hn
    nomega
  constructor
  · refine (denotes_sum (W := fun p : ι × ℕ => W p.1) (F := fun p => F p.1) (is := is.zip offs) ?_ hd' hu h4).1.congr fun ℓ => ?_
    · intro h0
      apply hne
      have := congrArg List.length h0
      rw [List.length_zip, h1, min_self] at this
      exact List.length_eq_zero_iff.1 this
    · rw [← List.map_fst_zip (l₁ := is) (l₂ := offs) h1.ge, List.map_map]
      simp only [List.map_fst_zip h1.ge]
      rfl
  · have hA := assembled_parts (w := fun p : ι × ℕ => some (W p.1)) (k := .sum) (by simp) (fun _ _ _ => rfl)
      (fun p hp => (hd' p hp).layered) hu h4
    exact ⟨part_of hA h1 hd, kind_assembled hA⟩

/-- A new product unit with subcircuits over disjoint variables, built on their own. -/
theorem denotes_attach_prod {U : Finset Var} {is : List ι} (hd : ∀ i ∈ is, Denotes (G i) (o i) (V i) (F i))
    (hU : ∀ v, v ∈ U ↔ ∃ i ∈ is, v ∈ V i) (hdis : is.Pairwise fun i j => Disjoint (V i) (V j)) :
    Denotes ((newUnit u .prod).attachAll u (partsOf G o (fun _ => none) is)) u U
      (fun ℓ => (is.map fun i => F i ℓ).prod) ∧
    List.Forall₂ (fun i e => Part ((newUnit u .prod).attachAll u (partsOf G o (fun _ => none) is)) u (G i) (o i)
      none (F i) e) is (((newUnit u .prod).attachAll u (partsOf G o (fun _ => none) is)).outEdges u) ∧
    ((newUnit u .prod).attachAll u (partsOf G o (fun _ => none) is)).kind? u = some .prod := by
  obtain ⟨offs, h1, h2, h3, h4⟩ := exists_offsets (u := u) (w := fun _ : ι => none) is (newUnit u .prod)
    fun i hi => (hd i hi).layered
  rw [h2]
  have hd' : ∀ p ∈ is.zip offs, Denotes ((G p.1).copyAt p.2) (p.2 + o p.1) (V p.1) (F p.1) := fun p hp =>
    (hd p.1 (List.of_mem_zip hp).1).copyAt p.2
  have hu : ∀ p ∈ is.zip offs, u ∉ ((G p.1).copyAt p.2).ids := by
    intro p hp hn
    have := h3 p.2 (List.of_mem_zip hp).2 u (by simp)
    obtain ⟨m, _, hm⟩ := exists_of_mem_copyAt hn
    nomega
  constructor
  · refine (denotes_prod (F := fun p : ι × ℕ => F p.1) (V := fun p => V p.1) (is := is.zip offs) hd' hu h4 ?_ ?_).1.congr fun ℓ => ?_
    · intro v
      rw [hU v]
      constructor
      · rintro ⟨i, hi, hv⟩
        rw [← List.map_fst_zip (l₁ := is) (l₂ := offs) h1.ge, List.mem_map] at hi
        obtain ⟨p, hp, rfl⟩ := hi
        exact ⟨p, hp, hv⟩
      · rintro ⟨p, hp, hv⟩
        exact ⟨p.1, (List.of_mem_zip hp).1, hv⟩
    · rw [← List.map_fst_zip (l₁ := is) (l₂ := offs) h1.ge, List.pairwise_map] at hdis
      exact hdis
    · rw [← List.map_fst_zip (l₁ := is) (l₂ := offs) h1.ge, List.map_map]
      simp only [List.map_fst_zip h1.ge]
      rfl
  · have hA := assembled_parts (w := fun _ : ι × ℕ => none) (k := .prod) (by simp) (fun h => by cases h)
      (fun p hp => (hd' p hp).layered) hu h4
    exact ⟨part_of hA h1 hd, kind_assembled hA⟩

end parts

end PM.Graph
