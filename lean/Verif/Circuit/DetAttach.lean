import Verif.Circuit.Neat
import Verif.Spec.Support

/-! # Determinism and non-empty products of circuits that are put together from parts -/

namespace PM.Graph

open Spec

/-- No two children of a sum unit can produce the same point. -/
def Exclusive (g : Circuit) : Prop :=
  ∀ S : Node → Set (Var → ℝ), PossiblePoints g S → ∀ n, g.kind? n = some .sum →
    (g.succ n).Pairwise fun a c => ∀ x, ¬ (x ∈ S a ∧ x ∈ S c)

theorem PossiblePoints_copyAt {g : Circuit} (hw : g.WF) {off : ℕ} {S : Node → Set (Var → ℝ)} (h : PossiblePoints (g.copyAt off) S) :
    PossiblePoints g fun n => S (off + n) := by
  refine ⟨fun n d hk => h.leaf _ d (by rw [kind?_copyAt]; exact hk), fun n hk x => ?_, fun n hk x => ?_⟩
  · rw [h.sum (off + n) (by rw [kind?_copyAt]; exact hk)]
    constructor
    · rintro ⟨c, hc, hx⟩
      obtain ⟨m, hm, rfl⟩ := List.mem_map.1 ((succ_copyAt_perm hw off n).mem_iff.1 hc)
      exact ⟨m, hm, hx⟩
    · rintro ⟨c, hc, hx⟩
      exact ⟨off + c, (succ_copyAt_perm hw off n).mem_iff.2 (List.mem_map.2 ⟨c, hc, rfl⟩), hx⟩
  · rw [h.prod (off + n) (by rw [kind?_copyAt]; exact hk)]
    constructor
    · intro h c hc
      exact h _ ((succ_copyAt_perm hw off n).mem_iff.2 (List.mem_map.2 ⟨c, hc, rfl⟩))
    · intro h c hc
      obtain ⟨m, hm, rfl⟩ := List.mem_map.1 ((succ_copyAt_perm hw off n).mem_iff.1 hc)
      exact h m hm

theorem Exclusive.copyAt {g : Circuit} (hw : g.WF) (h : Exclusive g) (off : ℕ) : Exclusive (g.copyAt off) := by
  intro S hS n hk
  obtain ⟨m, rfl, hm⟩ := exists_of_kind?_copyAt hk
  refine (List.Perm.pairwise_iff (fun {_ _} hab x hx => hab x hx.symm) (succ_copyAt_perm hw off m)).2 ?_
  rw [List.pairwise_map]
  exact h _ (PossiblePoints_copyAt hw hS) m hm

theorem productsNonempty_copyAt {g : Circuit} (hw : g.WF) (h : ProductsNonempty g) (off : ℕ) : ProductsNonempty (g.copyAt off) := by
  intro n hk h0
  obtain ⟨m, rfl, hm⟩ := exists_of_kind?_copyAt hk
  have := (succ_copyAt_perm hw off m)
  rw [h0] at this
  exact h m hm (List.map_eq_nil_iff.1 this.symm.eq_nil)

section parts

variable {ι : Type} {G : ι → Circuit} {o : ι → Node} {w : ι → Option LogP} {u : Node}

theorem succ_assembled_part {k : Kind Leaf} {g : Circuit} {is : List ι} (hA : Assembled (newUnit u k) u (partsOf G o w is) g u)
    {i : ι} (hi : i ∈ is) {n : Node} (hn : n ∈ (G i).ids) : g.succ n = (G i).succ n := by
  simp only [Graph.succ, out_assembled_part hA hi hn]

theorem possible_assembled {k : Kind Leaf} {g : Circuit} {is : List ι} (hA : Assembled (newUnit u k) u (partsOf G o w is) g u)
    {S : Node → Set (Var → ℝ)} (hS : PossiblePoints g S) {i : ι} (hi : i ∈ is) : PossiblePoints (G i) S := by
  refine ⟨fun n d hk => ?_, fun n hk => ?_, fun n hk => ?_⟩
  all_goals have hn := mem_ids_of_kind? hk
  · exact hS.leaf n d (by rw [kind_assembled_part hA hi hn]; exact hk)
  · rw [← succ_assembled_part hA hi hn]
    exact hS.sum n (by rw [kind_assembled_part hA hi hn]; exact hk)
  · rw [← succ_assembled_part hA hi hn]
    exact hS.prod n (by rw [kind_assembled_part hA hi hn]; exact hk)

/-- The sum units inside the parts stay exclusive. -/
theorem exclusive_attach {k : Kind Leaf} {is : List ι} (hk : ∀ d, k ≠ .leaf d) (hw : k = .sum → ∀ i ∈ is, (w i).isSome)
    (hd : ∀ i ∈ is, Layered (G i) (o i)) (hx : ∀ i ∈ is, Exclusive (G i))
    (hu : k = .sum → ∀ S, PossiblePoints ((newUnit u k).attachAll u (partsOf G o w is)) S →
      (((newUnit u k).attachAll u (partsOf G o w is)).succ u).Pairwise fun a c => ∀ x, ¬ (x ∈ S a ∧ x ∈ S c)) :
    Exclusive ((newUnit u k).attachAll u (partsOf G o w is)) := by
  obtain ⟨offs, h1, hA, _, _⟩ := attachAll_assembled (w := w) (u := u) (k := k) hk hw hd
  intro S hS n hkn
  rcases (mem_ids_assembled hA).1 (mem_ids_of_kind? hkn) with rfl | ⟨p, hp, hn⟩
  · rw [kind_assembled hA] at hkn
    injection hkn with hkn
    exact hu hkn S hS
  · have hpi := (List.of_mem_zip hp).1
    rw [succ_assembled_part hA hp hn]
    rw [kind_assembled_part hA hp hn] at hkn
    exact (hx p.1 hpi).copyAt (hd p.1 hpi).wf p.2 S (possible_assembled hA hS hp) n hkn

theorem productsNonempty_attach {k : Kind Leaf} {is : List ι} (hk : ∀ d, k ≠ .leaf d) (hw : k = .sum → ∀ i ∈ is, (w i).isSome)
    (hd : ∀ i ∈ is, Layered (G i) (o i)) (hx : ∀ i ∈ is, ProductsNonempty (G i)) (hne : is ≠ []) :
    ProductsNonempty ((newUnit u k).attachAll u (partsOf G o w is)) := by
  obtain ⟨offs, h1, hA, _, _⟩ := attachAll_assembled (w := w) (u := u) (k := k) hk hw hd
  intro n hkn
  rcases (mem_ids_assembled hA).1 (mem_ids_of_kind? hkn) with rfl | ⟨p, hp, hn⟩
  · rw [succ_assembled hA]
    intro h0
    have := congrArg List.length h0
    rw [List.length_map, List.length_zip, h1, min_self] at this
    exact hne (List.length_eq_zero_iff.1 this)
  · have hpi := (List.of_mem_zip hp).1
    rw [succ_assembled_part hA hp hn]
    rw [kind_assembled_part hA hp hn] at hkn
    exact productsNonempty_copyAt (hd p.1 hpi).wf (hx p.1 hpi) p.2 n hkn

end parts

end PM.Graph
