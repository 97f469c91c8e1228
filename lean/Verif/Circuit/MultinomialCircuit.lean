import Verif.Dist.MultinomialLemmas
import Verif.Circuit.Denotes
import Verif.Circuit.ProbLemmas
import Verif.Circuit.CondPass

/-! # Lemmas about `MultinomialDistribution.as_probabilistic_circuit` -/

namespace PM.Multinomial

open Graph Spec NdArray

theorem pairwise_zipIdx {α : Type} (l : List α) {R : α → α → Prop} (h : l.Pairwise R) :
    l.zipIdx.Pairwise fun p q => p.2 < q.2 ∧ R p.1 q.1 := by
  rw [List.pairwise_iff_getElem] at h ⊢
  intro i j hi hj hij
  simp only [List.length_zipIdx] at hi hj
  simp only [List.getElem_zipIdx]
  exact ⟨by omega, h i j hi hj hij⟩

theorem pairwise_zip_left {α β : Type} {l : List α} {m : List β} {R : α → α → Prop} (h : l.Pairwise R) :
    (l.zip m).Pairwise fun p q => R p.1 q.1 := by
  rw [List.pairwise_iff_getElem] at h ⊢
  intro i j hi hj hij
  simp only [List.length_zip] at hi hj
  simp only [List.getElem_zip]
  exact h i j (by omega) (by omega) hij

theorem valid_oneHot (v : SymVar) (a : ℕ) : (oneHot v a).Valid := by
  simp [oneHot, Leaf.Valid]

theorem stateProduct_parts {vs : List SymVar} (hn : (vs.map SymVar.var).Nodup) (base : Node) (row : List ℕ) :
    (∀ p ∈ (vs.zip row).zipIdx, base ∉ (Graph.newUnit (base + 1 + p.2) (.leaf (oneHot p.1.1 p.1.2))).ids) ∧
    (vs.zip row).zipIdx.Pairwise fun p q => DisjointIds (Graph.newUnit (base + 1 + p.2) (.leaf (oneHot p.1.1 p.1.2)))
      (Graph.newUnit (base + 1 + q.2) (.leaf (oneHot q.1.1 q.1.2))) := by
  have hpw : vs.Pairwise fun a b => a.var ≠ b.var := List.pairwise_map.1 hn
  have hz := pairwise_zipIdx _ (pairwise_zip_left (m := row) hpw)
  refine ⟨fun p _ => by simp only [ids_newUnit, List.mem_singleton]; nomega, hz.imp fun {p q} h n hn hn' => ?_⟩
  simp only [ids_newUnit, List.mem_singleton] at hn hn'
  have := h.1
  nomega

/-- The leaves of the product unit of a state. -/
theorem leaves_stateProduct {vs : List SymVar} (hn : (vs.map SymVar.var).Nodup) (base : Node) (row : List ℕ) :
    ∀ n d, (stateProduct vs base row).kind? n = some (.leaf d) → ∃ p ∈ vs.zip row, d = oneHot p.1 p.2 := by
  obtain ⟨h1, h2⟩ := stateProduct_parts hn base row
  refine leaves_prod (G := fun p : (SymVar × ℕ) × ℕ => Graph.newUnit (base + 1 + p.2) (.leaf (oneHot p.1.1 p.1.2)))
    (o := fun p => base + 1 + p.2) (fun p _ => layered_newUnit _ _) h1 h2 ?_
  intro p hp
  exact leaves_newUnit ⟨p.1, List.fst_mem_of_mem_zipIdx hp, rfl⟩

/-- The product unit of one state. -/
theorem denotes_stateProduct {vs : List SymVar} (hn : (vs.map SymVar.var).Nodup) (base : Node) {row : List ℕ}
    (hl : row.length = vs.length) :
    Denotes (stateProduct vs base row) base (vs.map SymVar.var).toFinset
      (fun ℓ => ((vs.zip row).map fun p => ℓ (oneHot p.1 p.2)).prod) ∧
    ∀ n, n ∈ (stateProduct vs base row).ids ↔ n = base ∨ ∃ k < vs.length, n = base + 1 + k := by
  have hpw : vs.Pairwise fun a b => a.var ≠ b.var := List.pairwise_map.1 hn
  have hz := pairwise_zipIdx _ (pairwise_zip_left (m := row) hpw)
  have h := denotes_prod (u := base) (is := (vs.zip row).zipIdx) (U := (vs.map SymVar.var).toFinset)
    (G := fun p => Graph.newUnit (base + 1 + p.2) (.leaf (oneHot p.1.1 p.1.2))) (o := fun p => base + 1 + p.2)
    (V := fun p => {p.1.1.var}) (F := fun p ℓ => ℓ (oneHot p.1.1 p.1.2))
    (fun p _ => denotes_leaf _ (valid_oneHot _ _))
    (fun p _ => by simp only [ids_newUnit, List.mem_singleton]; nomega)
    (hz.imp fun {p q} h n hn hn' => by
      simp only [ids_newUnit, List.mem_singleton] at hn hn'
      have := h.1
      nomega)
    (fun v => by
      simp only [List.mem_toFinset, List.mem_map, Finset.mem_singleton]
      constructor
      · rintro ⟨a, ha, rfl⟩
        obtain ⟨k, hk, rfl⟩ := List.mem_iff_getElem.1 ha
        refine ⟨(((vs.zip row)[k]'(by simp [hl, hk])), k), ?_, ?_⟩
        · rw [List.mem_iff_getElem]
          exact ⟨k, by simp [hl, hk], by simp⟩
        · simp
      · rintro ⟨p, hp, rfl⟩
        exact ⟨p.1.1, (List.of_mem_zip (List.fst_mem_of_mem_zipIdx hp)).1, rfl⟩)
    (hz.imp fun {p q} h => by simpa using h.2)
  refine ⟨h.1.congr fun ℓ => ?_, fun n => ?_⟩
  · have : (fun i : (SymVar × ℕ) × ℕ => ℓ (oneHot i.1.1 i.1.2)) = (fun p : SymVar × ℕ => ℓ (oneHot p.1 p.2)) ∘ Prod.fst := rfl
    rw [this, ← List.map_map, List.zipIdx_map_fst 0]
  · rw [show stateProduct vs base row = _ from rfl]
    refine (h.2 n).trans (or_congr_right ?_)
    constructor
    · rintro ⟨p, hp, hn⟩
      simp only [ids_newUnit, List.mem_singleton] at hn
      refine ⟨p.2, ?_, hn⟩
      have := List.snd_lt_of_mem_zipIdx hp
      simp only [List.length_zip] at this
      omega
    · rintro ⟨k, hk, rfl⟩
      refine ⟨((vs.zip row)[k]'(by simp [hl, hk]), k), ?_, by simp⟩
      rw [List.mem_iff_getElem]
      exact ⟨k, by simp [hl, hk], by simp⟩

variable {T : Multinomial}

theorem likelihood_eq (hT : Table T) {row : List ℕ} (hr : IsCell T.probs.shape row) :
    T.likelihood row = .ok (T.probs.get row) := by
  rw [likelihood, at?, if_pos (mem_cells.2 hr)]
  simp only [bind, Except.bind, pure, Except.pure]
  rw [LogP.exp_log (hT.nonneg row hr)]

/-- The circuit. -/
noncomputable def theCircuit (T : Multinomial) : Circuit :=
  (Graph.newUnit 0 .sum).addAll 0 (partsOf (fun p : List ℕ × ℕ => stateProduct T.vars (1 + p.2 * (T.vars.length + 1)) p.1)
    (fun p => 1 + p.2 * (T.vars.length + 1)) (fun p => some (LogP.log (T.probs.get p.1))) (cells T.probs.shape).zipIdx)

theorem asCircuit_eq (hT : Table T) (hne : T.vars ≠ []) : T.asCircuit = .ok T.theCircuit := by
  have hs : shapeOf T.vars = T.probs.shape := hT.shape.symm
  have h : ((cells (shapeOf T.vars)).zipIdx).mapM (fun p => do
      let base := 1 + p.2 * (T.vars.length + 1)
      let q ← T.likelihood p.1
      return (stateProduct T.vars base p.1, base, some (LogP.log q))) =
      Except.ok (partsOf (fun p : List ℕ × ℕ => stateProduct T.vars (1 + p.2 * (T.vars.length + 1)) p.1)
        (fun p => 1 + p.2 * (T.vars.length + 1)) (fun p => some (LogP.log (T.probs.get p.1))) (cells T.probs.shape).zipIdx) := by
    rw [hs]
    refine mapM_ok_map (f := fun p : List ℕ × ℕ => (stateProduct T.vars (1 + p.2 * (T.vars.length + 1)) p.1,
      1 + p.2 * (T.vars.length + 1), some (LogP.log (T.probs.get p.1)))) ?_
    intro p hp
    rw [likelihood_eq hT (mem_cells.1 (List.fst_mem_of_mem_zipIdx hp))]
    rfl
  rw [asCircuit, if_neg hne]
  simp only [bind, Except.bind, pure, Except.pure] at h ⊢
  rw [h]
  rfl

theorem cells_ne_nil (hT : Table T) : cells T.probs.shape ≠ [] := by
  intro h
  have := hT.total_pos
  simp [total, h] at this

theorem denotes_asCircuit (hT : Table T) : Denotes T.theCircuit 0 (T.vars.map SymVar.var).toFinset
    (fun ℓ => ((cells T.probs.shape).map fun i => T.probs.get i * ((T.vars.zip i).map fun p => ℓ (oneHot p.1 p.2)).prod).sum) := by
  have hlen : ∀ p ∈ (cells T.probs.shape).zipIdx, p.1.length = T.vars.length := by
    intro p hp
    rw [(mem_cells.1 (List.fst_mem_of_mem_zipIdx hp)).length_eq, hT.shape, List.length_map]
  have hz := pairwise_zipIdx (R := fun _ _ : List ℕ => True) (cells T.probs.shape) (List.pairwise_of_forall (fun _ _ => trivial))
  have h := denotes_sum (u := 0) (is := (cells T.probs.shape).zipIdx) (U := (T.vars.map SymVar.var).toFinset)
    (G := fun p : List ℕ × ℕ => stateProduct T.vars (1 + p.2 * (T.vars.length + 1)) p.1)
    (o := fun p => 1 + p.2 * (T.vars.length + 1)) (W := fun p => LogP.log (T.probs.get p.1))
    (F := fun p ℓ => ((T.vars.zip p.1).map fun p => ℓ (oneHot p.1 p.2)).prod)
    (by
      intro h
      apply cells_ne_nil hT
      simpa using h)
    (fun p hp => (denotes_stateProduct hT.vars _ (hlen p hp)).1)
    (fun p hp => by
      rw [(denotes_stateProduct hT.vars _ (hlen p hp)).2]
      rintro (h | ⟨k, _, h⟩) <;> nomega)
    (hz.imp_of_mem fun {p q} hp hq hpq n hn hn' => by
      rw [(denotes_stateProduct hT.vars _ (hlen p hp)).2] at hn
      rw [(denotes_stateProduct hT.vars _ (hlen q hq)).2] at hn'
      have h1 : (p.2 + 1) * (T.vars.length + 1) ≤ q.2 * (T.vars.length + 1) := Nat.mul_le_mul_right _ hpq.1
      rw [Nat.add_mul, Nat.one_mul] at h1
      rcases hn with rfl | ⟨k, hk, rfl⟩ <;> rcases hn' with h2 | ⟨k', hk', h2⟩ <;> nomega)
  refine h.1.congr fun ℓ => ?_
  have hF : ∀ p ∈ (cells T.probs.shape).zipIdx, (LogP.log (T.probs.get p.1)).exp *
      ((T.vars.zip p.1).map fun p => ℓ (oneHot p.1 p.2)).prod =
      ((fun i => T.probs.get i * ((T.vars.zip i).map fun p => ℓ (oneHot p.1 p.2)).prod) ∘ Prod.fst) p := by
    intro p hp
    simp only [Function.comp]
    rw [LogP.exp_log (hT.nonneg _ (mem_cells.1 (List.fst_mem_of_mem_zipIdx hp)))]
  rw [List.map_congr_left hF, ← List.map_map, List.zipIdx_map_fst 0]

theorem leaves_asCircuit (hT : Table T) : ∀ n d, T.theCircuit.kind? n = some (.leaf d) →
    ∃ i, IsCell T.probs.shape i ∧ ∃ p ∈ T.vars.zip i, d = oneHot p.1 p.2 := by
  have hlen : ∀ p ∈ (cells T.probs.shape).zipIdx, p.1.length = T.vars.length := by
    intro p hp
    rw [(mem_cells.1 (List.fst_mem_of_mem_zipIdx hp)).length_eq, hT.shape, List.length_map]
  have hz := pairwise_zipIdx (R := fun _ _ : List ℕ => True) (cells T.probs.shape) (List.pairwise_of_forall (fun _ _ => trivial))
  refine leaves_sum (u := 0) (is := (cells T.probs.shape).zipIdx)
    (G := fun p : List ℕ × ℕ => stateProduct T.vars (1 + p.2 * (T.vars.length + 1)) p.1)
    (o := fun p => 1 + p.2 * (T.vars.length + 1)) (W := fun p => LogP.log (T.probs.get p.1))
    (fun p hp => (denotes_stateProduct hT.vars _ (hlen p hp)).1.layered)
    (fun p hp => by
      rw [(denotes_stateProduct hT.vars _ (hlen p hp)).2]
      rintro (h | ⟨k, _, h⟩) <;> nomega)
    (hz.imp_of_mem fun {p q} hp hq hpq n hn hn' => by
      rw [(denotes_stateProduct hT.vars _ (hlen p hp)).2] at hn
      rw [(denotes_stateProduct hT.vars _ (hlen q hq)).2] at hn'
      have h1 : (p.2 + 1) * (T.vars.length + 1) ≤ q.2 * (T.vars.length + 1) := Nat.mul_le_mul_right _ hpq.1
      rw [Nat.add_mul, Nat.one_mul] at h1
      rcases hn with rfl | ⟨k, hk, rfl⟩ <;> rcases hn' with h2 | ⟨k', hk', h2⟩ <;> nomega) ?_
  intro p hp n d hk
  exact ⟨p.1, mem_cells.1 (List.fst_mem_of_mem_zipIdx hp), leaves_stateProduct hT.vars _ _ n d hk⟩

theorem prod_indicator {α : Type} {P : α → Prop} [DecidablePred P] (l : List α) :
    (l.map fun a => if P a then (1 : ℝ) else 0).prod = if ∀ a ∈ l, P a then 1 else 0 := by
  induction l with
  | nil => simp
  | cons a l ih =>
    rw [List.map_cons, List.prod_cons, ih]
    by_cases h1 : P a <;> by_cases h2 : ∀ a ∈ l, P a <;> simp [h1]

open Classical in
/-- If every one-hot leaf has the value `1` or `0`, the circuit sums the cells all of whose leaves are `1`. -/
theorem circuit_indicator (T : Multinomial) {ℓ : Leaf → ℝ} {P : SymVar → ℕ → Prop}
    (hℓ : ∀ i, IsCell T.probs.shape i → ∀ p ∈ T.vars.zip i, ℓ (oneHot p.1 p.2) = if P p.1 p.2 then 1 else 0) :
    ((cells T.probs.shape).map fun i => T.probs.get i * ((T.vars.zip i).map fun p => ℓ (oneHot p.1 p.2)).prod).sum =
      cellMass T.probs {i | ∀ p ∈ T.vars.zip i, P p.1 p.2} := by
  rw [cellMass_eq]
  have h1 : ∀ i ∈ cells T.probs.shape, T.probs.get i * ((T.vars.zip i).map fun p => ℓ (oneHot p.1 p.2)).prod =
      if ∀ p ∈ T.vars.zip i, P p.1 p.2 then T.probs.get i else 0 := by
    intro i hi
    rw [List.map_congr_left (hℓ i (mem_cells.1 hi)), prod_indicator (P := fun p : SymVar × ℕ => P p.1 p.2)]
    split <;> simp
  rw [List.map_congr_left h1]
  generalize cells T.probs.shape = l
  induction l with
  | nil => rfl
  | cons i l ih =>
    rw [List.map_cons, List.sum_cons, ih, List.filter_cons]
    simp only [Set.mem_ofPred_eq, decide_eq_true_eq]
    by_cases h : ∀ p ∈ T.vars.zip i, P p.1 p.2
    · rw [if_pos h, if_pos h, List.map_cons, List.sum_cons]
    · rw [if_neg h, if_neg h, zero_add]

theorem density_oneHot (v : SymVar) (a : ℕ) (x : ℝ) :
    leafDensity (oneHot v a) x = if x = (a : ℝ) then 1 else 0 := by
  simp only [oneHot, leafDensity]
  by_cases h : x = (a : ℝ)
  · subst h; simp
  · rw [if_neg h, List.filter_cons_of_neg (by simpa using fun h' => h h'.symm)]
    simp

theorem lookup_oneHot {a : ℕ} {S : List ℤ} (hS : S.Nodup) :
    (S.map (Leaf.lookup [((a : ℤ), 1)])).sum = if (a : ℤ) ∈ S then (1 : ℝ) else 0 := by
  have h1 : ∀ k, Leaf.lookup [((a : ℤ), 1)] k = if (a : ℤ) = k then (1 : ℝ) else 0 := by
    intro k
    simp only [Leaf.lookup, List.find?_cons, List.find?_nil]
    by_cases h : (a : ℤ) = k
    · simp [h]
    · have : ((a : ℤ) == k) = false := by simpa using h
      simp [this, h]
  induction S with
  | nil => simp
  | cons k S ih =>
    rw [List.nodup_cons] at hS
    rw [List.map_cons, List.sum_cons, ih hS.2, h1]
    by_cases h : (a : ℤ) = k
    · have : (a : ℤ) ∉ S := fun h' => hS.1 (h ▸ h')
      simp [h, hS.1]
    · simp [h]

end PM.Multinomial
