import Verif.Circuit.Batch
import Verif.Circuit.ProbLemmas
import Verif.Dist.BatchLemmas
import Verif.Graph.RefineError
import Verif.Spec.Batch
import Verif.Spec.Support

/-! Helper lemmas: queries on arrays, row by row. -/

namespace PM

open Spec Graph Classical MeasureTheory

theorem idxOf_sorted {l : List ℕ} (h : l.Pairwise (· < ·)) {v : ℕ} (hv : v ∈ l) :
    l.idxOf v = (l.filter (· < v)).length := by
  induction l with
  | nil => cases hv
  | cons a l ih =>
    obtain ⟨h1, h2⟩ := List.pairwise_cons.1 h
    by_cases hav : a = v
    · subst hav
      have : l.filter (fun x => decide (x < a)) = [] := by
        rw [List.filter_eq_nil_iff]
        intro b hb
        have := h1 b hb
        simp only [decide_eq_true_eq]
        omega
      simp [this]
    · have hvl : v ∈ l := (List.mem_cons.1 hv).resolve_left (fun h => hav h.symm)
      have hlt := h1 v hvl
      rw [List.idxOf_cons_ne _ hav, ih h2 hvl, List.filter_cons_of_pos (by simpa using hlt), List.length_cons]

theorem columnIndex_eq {vs : Finset Var} {v : Var} (h : v ∈ vs) :
    columnIndex vs v = .ok (vs.filter (· < v)).card := by
  rw [columnIndex, if_pos h, idxOf_sorted (vs.sortedLT_sort).pairwise (by simpa using h)]
  congr 1
  rw [← List.toFinset_card_of_nodup ((Finset.sort_nodup vs (· ≤ ·)).filter _)]
  congr 1
  ext x
  simp

theorem rank_lt {vs : Finset Var} {v : Var} (h : v ∈ vs) : (vs.filter (· < v)).card < vs.card := by
  apply Finset.card_lt_card
  refine ⟨Finset.filter_subset _ _, fun hsub => ?_⟩
  have := hsub h
  simp at this

theorem stackRows_map {R V : Type} [Inhabited V] (rows : List R) {fs : List (R → V)} (h : fs ≠ []) :
    stackRows (fs.map fun f => rows.map f) = .ok (rows.map fun x => fs.map fun f => f x) := by
  obtain ⟨f, fs, rfl⟩ := List.exists_cons_of_ne_nil h
  simp only [List.map_cons, stackRows]
  rw [if_pos (by simp)]
  congr 1
  apply List.ext_getElem
  · simp
  · intro i h1 h2
    have hi : i < rows.length := by simpa using h1
    simp [hi]

variable {g : Circuit} {r : Node} {sc : Node → Finset Var}

/-- If every row has a meaning, the array has the meaning made of them. -/
theorem batch_meaning {V : Type} [Inhabited V] (hL : Layered g r) (hs : Scoped g sc) (hp : ProductsNonempty g) {T : EventTable}
    {leafB : Leaf → List ℝ → Except PyErr (List V)} {sumR : List (LogP × V) → V} {prodR : List V → V}
    {A : List ℝ → Alg Leaf V} {v : List ℝ → Node → V} (hA : ∀ row ∈ T.rows, g.Meaning (A row) r (v row))
    (hsum : ∀ row l s, (A row).sum l = .ok s → sumR l = s) (hprod : ∀ row l s, (A row).prod l = .ok s → prodR l = s)
    (n : Node) (hn : g.Reachable r n)
    (hleaf : ∀ d, g.kind? n = some (.leaf d) →
      (batchAlg (sc r) T leafB sumR prodR).leaf d = .ok (T.rows.map fun row => v row n)) :
    g.evalUnit (batchAlg (sc r) T leafB sumR prodR) (fun c => some (T.rows.map fun row => v row c)) n
      = .ok (T.rows.map fun row => v row n) := by
  have hm := reachable_mem_ids hL.wf (root_mem hL.root).1 hn
  obtain ⟨k, hk⟩ := exists_kind? hm
  cases k with
  | leaf d => simp only [evalUnit, hk]; exact hleaf d hk
  | sum =>
    have hne : g.outEdges n ≠ [] := by
      have := hs.sumNe n hk
      simpa [succ] using this
    simp only [evalUnit, hk]
    rw [mapM_readWeight_ok (hL.weighted n hk), mapM_readResult_ok (val := fun c => T.rows.map fun row => v row c) (fun c _ => rfl)]
    change (batchAlg (sc r) T leafB sumR prodR).sum _ = _
    rw [zip_map_out g n (fun c => T.rows.map fun row => v row c)]
    simp only [batchAlg, List.map_map, Function.comp_def]
    have hst := stackRows_map T.rows (fs := (g.outEdges n).map fun e => fun row => v row e.dst) (by simpa using hne)
    simp only [List.map_map, Function.comp_def] at hst
    rw [hst]
    simp only [bind, Except.bind, pure, Except.pure, List.map_map, Function.comp_def]
    congr 1
    apply List.map_congr_left
    intro row hrow
    have h1 := hA row hrow n hn
    simp only [evalUnit, hk] at h1
    rw [mapM_readWeight_ok (hL.weighted n hk), mapM_readResult_ok (val := v row) (fun c _ => rfl)] at h1
    have h2 := hsum row _ _ h1
    rw [zip_map_out g n (v row)] at h2
    rw [← h2, List.zip_map']
  | prod =>
    have hne := hp n hk
    simp only [evalUnit, hk]
    rw [mapM_readResult_ok (val := fun c => T.rows.map fun row => v row c) (fun c _ => rfl)]
    change (batchAlg (sc r) T leafB sumR prodR).prod _ = _
    simp only [batchAlg]
    have hst := stackRows_map T.rows (fs := (g.succ n).map fun c => fun row => v row c) (by simpa using hne)
    simp only [List.map_map, Function.comp_def] at hst
    rw [hst]
    simp only [bind, Except.bind, pure, Except.pure, List.map_map, Function.comp_def]
    congr 1
    apply List.map_congr_left
    intro row hrow
    have h1 := hA row hrow n hn
    simp only [evalUnit, hk] at h1
    rw [mapM_readResult_ok (val := v row) (fun c _ => rfl)] at h1
    exact hprod row _ _ h1

theorem batch_leaf {V : Type} [Inhabited V] {vs : Finset Var} {T : EventTable}
    {leafB : Leaf → List ℝ → Except PyErr (List V)} {sumR : List (LogP × V) → V} {prodR : List V → V} {d : Leaf}
    (hd : d.var ∈ vs) (hc : (vs.filter (· < d.var)).card < T.columns) :
    (batchAlg vs T leafB sumR prodR).leaf d = leafB d (T.rows.map fun row => rowPoint vs row d.var) := by
  simp only [batchAlg, columnIndex_eq hd, bind, Except.bind, EventTable.column, if_pos hc]
  rfl

theorem batch_leaf_error {V : Type} [Inhabited V] {vs : Finset Var} {T : EventTable}
    {leafB : Leaf → List ℝ → Except PyErr (List V)} {sumR : List (LogP × V) → V} {prodR : List V → V} {d : Leaf}
    (hd : d.var ∈ vs) (hc : T.columns ≤ (vs.filter (· < d.var)).card) :
    (batchAlg vs T leafB sumR prodR).leaf d = .error .indexError := by
  simp only [batchAlg, columnIndex_eq hd, bind, Except.bind, EventTable.column, if_neg (not_lt.2 hc)]

theorem leaf_var_mem (hL : Layered g r) (hs : Scoped g sc) {n : Node} {d : Leaf} (hk : g.kind? n = some (.leaf d)) :
    d.var ∈ sc r :=
  scope_mono hL.wf hL.leaves hs (root_mem hL.root).1
    (reachable_of_root hL.wf hL.graded.acyclic hL.root n (mem_ids_of_kind? hk)) (by simp [hs.leaf n d hk])

/-! ### The lower orthant -/

theorem mem_lowerOrthant {vars : Finset Var} {x y : Var → ℝ} :
    SimpleEvent.Mem (lowerOrthant vars x) y ↔ ∀ v ∈ vars, y v ≤ x v := by
  simp [SimpleEvent.Mem, lowerOrthant, VSet.Mem, SimpleInterval.Mem, SimpleInterval.leftOK, SimpleInterval.rightOK]

theorem lowerOrthant_eventFor {g : Circuit} {vars : Finset Var} (hn : ∀ n d, g.kind? n = some (.leaf d) → Numeric d)
    (x : Var → ℝ) : EventFor g vars (lowerOrthant vars x) := by
  refine ⟨?_, ?_, ?_, ?_⟩
  · simp [SimpleEvent.keys, lowerOrthant, Function.comp_def, Finset.nodup_toList]
  · intro v hv
    simpa [SimpleEvent.keys, lowerOrthant] using hv
  · intro p hp
    obtain ⟨v, _, rfl⟩ := List.mem_map.1 hp
    refine ⟨by simp, ?_⟩
    intro i hi
    simp only [List.mem_singleton] at hi
    subst hi
    simp [SimpleInterval.IsEmpty, EReal.bot_ne_coe]
  · intro p hp n d hk _
    obtain ⟨v, _, rfl⟩ := List.mem_map.1 hp
    have := hn n d hk
    cases d <;> first | exact this.elim | trivial

theorem allowed_lowerOrthant {vars : Finset Var} {x : Var → ℝ} {v : Var} (hv : v ∈ vars) :
    allowed (lowerOrthant vars x) v = Set.Iic (x v) := by
  ext t
  simp only [allowed, Set.mem_ofPred_eq, Set.mem_Iic]
  constructor
  · intro h
    have := h (v, .interval [⟨⊥, (x v : EReal), .opn, .closed⟩]) (List.mem_map.2 ⟨v, by simpa using hv, rfl⟩) rfl
    simpa [VSet.Mem, SimpleInterval.Mem, SimpleInterval.leftOK, SimpleInterval.rightOK] using this
  · intro h p hp hpv
    obtain ⟨w, _, rfl⟩ := List.mem_map.1 hp
    simp only at hpv
    subst hpv
    simpa [VSet.Mem, SimpleInterval.Mem, SimpleInterval.leftOK, SimpleInterval.rightOK] using h

/-- `cdf` of a leaf is the mass of the half line. -/
theorem leaf_cdf_eq {d : Leaf} (hv : d.Valid) (hn : Numeric d) (hk : KeysIncreasing d) (x : ℝ) :
    d.cdf x = .ok ((leafLaw d).real (Set.Iic x)) := by
  have hfin := finite_leafLaw hv
  cases d with
  | uniform v lo hi l r => simp only [Leaf.cdf]; rw [uniformCdf_eq v hv l r, measF_coe]
  | dirac v loc cap =>
    simp only [Leaf.cdf, leafLaw, measureReal_def]
    rw [Measure.dirac_apply' _ measurableSet_Iic]
    by_cases h : loc ≤ x <;> simp [h]
  | symbolic v probs => exact hn.elim
  | integer v probs =>
    have h1 := Props.C30_cdf_sorted_partial hk (xs := [x]) (by simp)
    rw [Props.cdfArray_single] at h1
    simp only [List.map_cons, List.map_nil, Except.ok.injEq, List.cons.injEq, and_true] at h1
    simp only [Leaf.cdf, leafLaw, measureReal_def]
    rw [discrete_law_apply probs hv.1 measurableSet_Iic, h1, ENNReal.toReal_ofReal]
    · congr 1
      clear h1 hk hfin hv hn
      induction probs with
      | nil => rfl
      | cons a l ih =>
        by_cases h : (a.1 : ℝ) ≤ x
        · rw [List.filter_cons_of_pos (by simpa using h), List.map_cons, List.sum_cons, List.map_cons, List.sum_cons, ih,
            Set.indicator_of_mem (show (a.1 : ℝ) ∈ Set.Iic x from h)]
        · rw [List.filter_cons_of_neg (by simpa using h), List.map_cons, List.sum_cons, ih,
            Set.indicator_of_notMem (show (a.1 : ℝ) ∉ Set.Iic x from h), zero_add]
    · apply List.sum_nonneg
      intro y hy
      obtain ⟨q, hq, rfl⟩ := List.mem_map.1 hy
      exact Set.indicator_nonneg (fun _ _ => hv.1 q hq) _
  | gaussian v μ σ =>
    simp only [Leaf.cdf]
    rw [gaussCdf_eq, measF_coe, gauss_law_eq v μ hv]
  | truncGaussian v I μ σ =>
    simp only [Leaf.cdf]
    rw [truncCdf_eq v μ hv.1 hv.2, measF_coe]

end PM
