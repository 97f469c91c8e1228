import Mathlib.Data.List.GetD
import Mathlib.Algebra.BigOperators.Ring.List
import Mathlib.Tactic.Linarith
import Mathlib.Tactic.FieldSimp
import Verif.Spec.Layers

namespace PM.Jax
open Spec

theorem foldl_modify_length {α ε : Type} (f : ε → α → α) (row : ε → ℕ) (es : List ε) (res : List α) :
    (es.foldl (fun r e => r.modify (row e) (f e)) res).length = res.length := by
  induction es generalizing res with
  | nil => rfl
  | cons e es ih => rw [List.foldl_cons, ih, List.length_modify]

/-- Reading position `i` after a series of in-place updates through a map `φ` that turns the updates into sums. -/
theorem foldl_modify_sum {α ε : Type} (φ : α → ℝ) (f : ε → α → α) (val : ε → ℝ) (row : ε → ℕ) (d : α)
    (hf : ∀ e a, φ (f e a) = φ a + val e) (es : List ε) (res : List α) (i : ℕ) (hi : i < res.length) :
    φ ((es.foldl (fun r e => r.modify (row e) (f e)) res).getD i d)
      = φ (res.getD i d) + ((es.filter fun e => row e == i).map val).sum := by
  induction es generalizing res with
  | nil => simp
  | cons e es ih =>
    have hl : (res.modify (row e) (f e)).length = res.length := List.length_modify ..
    rw [List.foldl_cons, ih _ (by rw [hl]; exact hi), List.filter_cons]
    have h1 : (res.modify (row e) (f e)).getD i d = if row e = i then f e (res.getD i d) else res.getD i d := by
      rw [List.getD_eq_getElem _ _ (by rw [hl]; exact hi), List.getElem_modify, List.getD_eq_getElem _ _ hi]
    rw [h1]
    by_cases h : row e = i
    · simp [h, hf]; ring
    · simp [h]

theorem foldl_modify_prod {α ε : Type} (φ : α → ℝ) (f : ε → α → α) (val : ε → ℝ) (row : ε → ℕ) (d : α)
    (hf : ∀ e a, φ (f e a) = φ a * val e) (es : List ε) (res : List α) (i : ℕ) (hi : i < res.length) :
    φ ((es.foldl (fun r e => r.modify (row e) (f e)) res).getD i d)
      = φ (res.getD i d) * ((es.filter fun e => row e == i).map val).prod := by
  induction es generalizing res with
  | nil => simp
  | cons e es ih =>
    have hl : (res.modify (row e) (f e)).length = res.length := List.length_modify ..
    rw [List.foldl_cons, ih _ (by rw [hl]; exact hi), List.filter_cons]
    have h1 : (res.modify (row e) (f e)).getD i d = if row e = i then f e (res.getD i d) else res.getD i d := by
      rw [List.getD_eq_getElem _ _ (by rw [hl]; exact hi), List.getElem_modify, List.getD_eq_getElem _ _ hi]
    rw [h1]
    by_cases h : row e = i
    · simp [h, hf]; ring
    · simp [h]

theorem getD_clamped {α : Type} (l : List α) (d : α) {c : ℕ} (h : c < l.length) :
    l.getD (min c (l.length - 1)) d = l.getD c d := by
  rw [Nat.min_eq_left (by omega)]

theorem exp_getD (l : List LogP) (c : ℕ) : (l.getD c .negInf).exp = (l.map LogP.exp).getD c 0 := by
  by_cases h : c < l.length
  · rw [List.getD_eq_getElem _ _ h, List.getD_eq_getElem _ _ (by simpa using h), List.getElem_map]
  · rw [List.getD_eq_default _ _ (by omega), List.getD_eq_default _ _ (by simpa using h)]; rfl

/-! ### Sparse sums -/

theorem sparseStep_length (res : List ℝ) (p : Coo × List LogP) : (sparseStep res p).length = res.length :=
  foldl_modify_length _ _ _ _

theorem sparseFold_length (ps : List (Coo × List LogP)) (res : List ℝ) :
    (ps.foldl sparseStep res).length = res.length := by
  induction ps generalizing res with
  | nil => rfl
  | cons p ps ih => rw [List.foldl_cons, ih, sparseStep_length]

theorem sparseStep_getD (res : List ℝ) (p : Coo × List LogP) (hb : ∀ e ∈ p.1.entries, e.2.1 < p.2.length) (i : ℕ)
    (hi : i < res.length) :
    (sparseStep res p).getD i 0
      = res.getD i 0 + ((sparseTerms p.1 (p.2.map LogP.exp) i).map fun q => q.1 * q.2).sum := by
  have h := foldl_modify_sum (α := ℝ) id
    (fun (e : ℕ × ℕ × LogP) a => a + (e.2.2 + p.2.getD (min e.2.1 (p.2.length - 1)) .negInf).exp)
    (fun e => (e.2.2 + p.2.getD (min e.2.1 (p.2.length - 1)) .negInf).exp) (fun e => e.1) 0 (fun _ _ => rfl) p.1.entries res i hi
  refine Eq.trans h ?_
  simp only [id]
  congr 2
  rw [sparseTerms, List.map_map]
  apply List.map_congr_left
  intro e he
  have he' := (List.mem_filter.1 he).1
  simp only [Function.comp]
  rw [LogP.exp_add, getD_clamped _ _ (hb e he'), exp_getD]

theorem sparseFold_getD (ps : List (Coo × List LogP)) (hb : ∀ p ∈ ps, ∀ e ∈ p.1.entries, e.2.1 < p.2.length) (res : List ℝ)
    (i : ℕ) (hi : i < res.length) :
    (ps.foldl sparseStep res).getD i 0
      = res.getD i 0
        + ((ps.flatMap fun p => sparseTerms p.1 (p.2.map LogP.exp) i).map fun q => q.1 * q.2).sum := by
  induction ps generalizing res with
  | nil => simp
  | cons p ps ih =>
    rw [List.foldl_cons, ih (fun q hq => hb q (List.mem_cons_of_mem _ hq)) _ (by rw [sparseStep_length]; exact hi),
      sparseStep_getD _ _ (hb p (List.mem_cons_self ..)) i hi, List.flatMap_cons, List.map_append, List.sum_append, add_assoc]

theorem maxLog_ne (l : List LogP) {a : LogP} (ha : a ∈ l) (h : a ≠ .negInf) : maxLog l ≠ .negInf := by
  induction l with
  | nil => simp at ha
  | cons b l ih =>
    cases b with
    | negInf =>
      rcases List.mem_cons.1 ha with rfl | ha
      · exact absurd rfl h
      · exact ih ha
    | fin b =>
      simp only [maxLog]
      cases maxLog l <;> simp

theorem exp_sparseNormalization (ws : List Coo) (i : ℕ)
    (h : ∃ w ∈ ws, ∃ e ∈ w.entries, e.1 = i ∧ e.2.2 ≠ LogP.negInf) :
    (sparseNormalization ws i).exp
      = (((ws.flatMap Coo.entries).filter fun e => e.1 == i).map fun e => e.2.2.exp).sum := by
  obtain ⟨w, hw, e, he, hi, hn⟩ := h
  have hm : maxLog ((ws.flatMap Coo.entries).map fun e => e.2.2) ≠ .negInf :=
    maxLog_ne _ (List.mem_map.2 ⟨e, List.mem_flatMap.2 ⟨w, hw, he⟩, rfl⟩) hn
  simp only [sparseNormalization]
  generalize maxLog ((ws.flatMap Coo.entries).map fun e => e.2.2) = m at hm
  rw [LogP.exp_add, LogP.exp_log]
  · have : (fun e : ℕ × ℕ × LogP => (e.2.2 - m).exp) = fun e => e.2.2.exp * (m.exp)⁻¹ := by
      funext e; rw [LogP.exp_sub hm, div_eq_mul_inv]
    rw [this, List.sum_map_mul_right]
    have : m.exp ≠ 0 := fun h => hm (LogP.exp_eq_zero.1 h)
    field_simp
  · apply List.sum_nonneg
    intro x hx
    obtain ⟨a, _, rfl⟩ := List.mem_map.1 hx
    exact LogP.exp_nonneg _

theorem sum_pos_of_mem {l : List LogP} {a : LogP} (ha : a ∈ l) (h : a ≠ .negInf) : 0 < (l.map LogP.exp).sum := by
  have : a.exp ≤ (l.map LogP.exp).sum := by
    apply List.single_le_sum
    · intro x hx
      obtain ⟨b, _, rfl⟩ := List.mem_map.1 hx
      exact LogP.exp_nonneg _
    · exact List.mem_map_of_mem ha
  exact lt_of_lt_of_le (LogP.exp_pos.2 h) this

theorem map_fst_sparseTerms (w : Coo) (values : List ℝ) (i : ℕ) :
    (sparseTerms w values i).map Prod.fst = ((w.entries.filter fun e => e.1 == i).map fun e => e.2.2).map LogP.exp := by
  simp [sparseTerms, List.map_map, Function.comp_def]

theorem weights_sparse (ws : List Coo) (vs : List (List ℝ)) (hl : ws.length = vs.length) (i : ℕ) :
    (((ws.zip vs).flatMap fun p => sparseTerms p.1 p.2 i).map fun p => p.1)
      = ((ws.flatMap Coo.entries).filter fun e => e.1 == i).map fun e => e.2.2.exp := by
  induction ws generalizing vs with
  | nil => simp
  | cons w ws ih =>
    cases vs with
    | nil => simp at hl
    | cons v vs =>
      simp only [List.zip_cons_cons, List.flatMap_cons, List.map_append, List.filter_append]
      rw [ih vs (by simpa using hl)]
      congr 1
      simp [sparseTerms, List.map_map, Function.comp_def]

theorem zip_map_exp {β : Type} (ws : List β) (outs : List (List LogP)) {γ : Type} (F : β → List ℝ → List γ) :
    ((ws.zip outs).flatMap fun p => F p.1 (p.2.map LogP.exp))
      = (ws.zip (outs.map (List.map LogP.exp))).flatMap fun p => F p.1 p.2 := by
  rw [List.zip_map_right, List.flatMap_map]
  rfl

/-- The output of a sparse sum layer, node by node. -/
theorem sparseSumOut_eq (ws : List Coo) (outs : List (List LogP)) (n : ℕ) (hne : ws ≠ [])
    (hlen : ws.length = outs.length) (hrows : ∀ w ∈ ws, w.rows = n)
    (hb : ∀ p ∈ ws.zip outs, ∀ e ∈ p.1.entries, e.2.1 < p.2.length)
    (hw : ∀ i < n, ∃ w ∈ ws, ∃ e ∈ w.entries, e.1 = i ∧ e.2.2 ≠ LogP.negInf) :
    ∃ out, sparseSumOut ws outs = .ok out ∧
      out.map LogP.exp = (List.range n).map fun i =>
        weightedMean ((ws.zip (outs.map (List.map LogP.exp))).flatMap fun p => sparseTerms p.1 p.2 i) := by
  cases hws : ws with
  | nil => exact absurd hws hne
  | cons w ws' =>
    refine ⟨_, rfl, ?_⟩
    rw [← hws]
    have hwn : w.rows = n := hrows w (by rw [hws]; exact List.mem_cons_self ..)
    rw [hwn]
    apply List.ext_getElem
    · simp [sparseFold_length]
    · intro i h1 h2
      have hi : i < n := by simpa using h2
      have hl : ((ws.zip outs).foldl sparseStep (List.replicate n 0)).length = n := by rw [sparseFold_length]; simp
      simp only [List.getElem_map, List.getElem_zipIdx, List.getElem_range, Nat.zero_add]
      have hget := sparseFold_getD (ws.zip outs) hb (List.replicate n 0) i (by simpa using hi)
      rw [List.getD_eq_getElem _ _ (by rw [hl]; exact hi)] at hget
      rw [hget]
      have hz : (List.replicate n (0 : ℝ)).getD i 0 = 0 := by
        rw [List.getD_eq_getElem _ _ (by simpa using hi)]; simp
      rw [hz, zero_add]
      have hN := exp_sparseNormalization ws i (hw i hi)
      have hpos : 0 < (sparseNormalization ws i).exp := by
        obtain ⟨w', hw', e, he, hei, hen⟩ := hw i hi
        rw [hN]
        have := sum_pos_of_mem (l := ((ws.flatMap Coo.entries).filter fun e => e.1 == i).map fun e => e.2.2) (a := e.2.2)
          (List.mem_map.2 ⟨e, List.mem_filter.2 ⟨List.mem_flatMap.2 ⟨w', hw', he⟩, by simpa using hei⟩, rfl⟩) hen
        simpa [List.map_map, Function.comp_def] using this
      rw [LogP.exp_sub (LogP.exp_pos.1 hpos), LogP.exp_log, hN, weightedMean,
        weights_sparse ws _ (by simpa using hlen), zip_map_exp ws outs (fun w v => sparseTerms w v i)]
      apply List.sum_nonneg
      intro x hx
      obtain ⟨q, hq, rfl⟩ := List.mem_map.1 hx
      obtain ⟨p, hp, hq⟩ := List.mem_flatMap.1 hq
      obtain ⟨e, he, rfl⟩ := List.mem_map.1 hq
      refine mul_nonneg (LogP.exp_nonneg _) ?_
      rw [← exp_getD]
      exact LogP.exp_nonneg _

/-! ### Dense sums -/

theorem denseStep_length (res : List ℝ) (p : List (List LogP) × List LogP) (h : p.1.length = res.length) :
    (denseStep res p).length = res.length := by
  simp [denseStep, h]

theorem denseFold_length (ps : List (List (List LogP) × List LogP)) (res : List ℝ) (h : ∀ p ∈ ps, p.1.length = res.length) :
    (ps.foldl denseStep res).length = res.length := by
  induction ps generalizing res with
  | nil => rfl
  | cons p ps ih =>
    have hp := denseStep_length res p (h p (List.mem_cons_self ..))
    rw [List.foldl_cons, ih _ (fun q hq => by rw [hp]; exact h q (List.mem_cons_of_mem _ hq)), hp]

theorem sum_zipWith_exp (row o : List LogP) :
    ((List.zipWith (· + ·) row o).map LogP.exp).sum
      = (((row.map LogP.exp).zip (o.map LogP.exp)).map fun q => q.1 * q.2).sum := by
  induction row generalizing o with
  | nil => simp
  | cons r row ih =>
    cases o with
    | nil => simp
    | cons a o => simp only [List.zipWith_cons_cons, List.map_cons, List.sum_cons, List.zip_cons_cons, ih o, LogP.exp_add]

theorem denseStep_getD (res : List ℝ) (p : List (List LogP) × List LogP) (h : p.1.length = res.length) (i : ℕ)
    (hi : i < res.length) :
    (denseStep res p).getD i 0
      = res.getD i 0 + ((denseTerms p.1 (p.2.map LogP.exp) i).map fun q => q.1 * q.2).sum := by
  rw [List.getD_eq_getElem _ _ (by rw [denseStep_length _ _ h]; exact hi), List.getD_eq_getElem _ _ hi]
  simp only [denseStep, List.getElem_zipWith, denseTerms]
  rw [LogP.exp_logsumexp, sum_zipWith_exp, List.getD_eq_getElem _ _ (by omega)]

theorem denseFold_getD (ps : List (List (List LogP) × List LogP)) (res : List ℝ) (h : ∀ p ∈ ps, p.1.length = res.length)
    (i : ℕ) (hi : i < res.length) :
    (ps.foldl denseStep res).getD i 0
      = res.getD i 0
        + ((ps.flatMap fun p => denseTerms p.1 (p.2.map LogP.exp) i).map fun q => q.1 * q.2).sum := by
  induction ps generalizing res with
  | nil => simp
  | cons p ps ih =>
    have hp := denseStep_length res p (h p (List.mem_cons_self ..))
    rw [List.foldl_cons, ih _ (fun q hq => by rw [hp]; exact h q (List.mem_cons_of_mem _ hq)) (by rw [hp]; exact hi),
      denseStep_getD _ _ (h p (List.mem_cons_self ..)) i hi, List.flatMap_cons, List.map_append, List.sum_append, add_assoc]

theorem weights_dense (ws : List (List (List LogP))) (vs : List (List ℝ)) (i : ℕ)
    (h : List.Forall₂ (fun (w : List (List LogP)) (v : List ℝ) => ∀ row ∈ w, row.length = v.length) ws vs) :
    (((ws.zip vs).flatMap fun p => denseTerms p.1 p.2 i).map fun p => p.1)
      = (ws.flatMap fun w => w.getD i []).map LogP.exp := by
  induction h with
  | nil => simp
  | @cons w v ws vs hwv _ ih =>
    simp only [List.zip_cons_cons, List.flatMap_cons, List.map_append]
    rw [ih]
    congr 1
    rw [denseTerms]
    by_cases hi : i < w.length
    · have := hwv w[i] (List.getElem_mem hi)
      rw [List.getD_eq_getElem _ _ hi]
      exact List.map_fst_zip (by simp [this])
    · rw [List.getD_eq_default _ _ (by omega)]; simp

/-- The output of a dense sum layer, node by node. -/
theorem denseSumOut_eq (ws : List (List (List LogP))) (outs : List (List LogP)) (n : ℕ) (hne : ws ≠ [])
    (hshape : List.Forall₂ (fun (w : List (List LogP)) (o : List LogP) => w.length = n ∧ ∀ row ∈ w, row.length = o.length) ws outs)
    (hw : ∀ i < n, ∃ w ∈ ws, ∃ l ∈ w.getD i [], l ≠ LogP.negInf) :
    ∃ out, denseSumOut ws outs = .ok out ∧
      out.map LogP.exp = (List.range n).map fun i =>
        weightedMean ((ws.zip (outs.map (List.map LogP.exp))).flatMap fun p => denseTerms p.1 p.2 i) := by
  cases hws : ws with
  | nil => exact absurd hws hne
  | cons w ws' =>
    refine ⟨_, rfl, ?_⟩
    rw [← hws]
    have hall : ∀ p ∈ ws.zip outs, p.1.length = n := by
      intro p hp
      have := List.forall₂_iff_zip.1 hshape
      exact (this.2 (show (p.1, p.2) ∈ ws.zip outs from hp)).1
    have hwn : w.length = n := by
      rw [hws] at hshape
      cases hshape with
      | cons h _ => exact h.1
    rw [hwn]
    apply List.ext_getElem
    · rw [List.length_map, List.length_map, List.length_zipIdx, denseFold_length _ _ (by simpa using hall)]; simp
    · intro i h1 h2
      have hi : i < n := by simpa using h2
      have hl : ((ws.zip outs).foldl denseStep (List.replicate n 0)).length = n := by
        rw [denseFold_length _ _ (by simpa using hall)]; simp
      simp only [List.getElem_map, List.getElem_zipIdx, List.getElem_range, Nat.zero_add]
      have hget := denseFold_getD (ws.zip outs) (List.replicate n 0) (by simpa using hall) i (by simpa using hi)
      rw [List.getD_eq_getElem _ _ (by rw [hl]; exact hi)] at hget
      rw [hget]
      have hz : (List.replicate n (0 : ℝ)).getD i 0 = 0 := by
        rw [List.getD_eq_getElem _ _ (by simpa using hi)]; simp
      rw [hz, zero_add]
      have hN : (denseNormalization ws i).exp = ((ws.flatMap fun w => w.getD i []).map LogP.exp).sum := LogP.exp_logsumexp _
      have hpos : 0 < (denseNormalization ws i).exp := by
        obtain ⟨w', hw', l, hl', hn⟩ := hw i hi
        rw [hN]
        exact sum_pos_of_mem (List.mem_flatMap.2 ⟨w', hw', hl'⟩) hn
      rw [LogP.exp_sub (LogP.exp_pos.1 hpos), LogP.exp_log, hN, weightedMean, weights_dense,
        zip_map_exp ws outs (fun w v => denseTerms w v i)]
      · rw [List.forall₂_map_right_iff]
        exact hshape.imp fun w o h => by simpa using h.2
      · apply List.sum_nonneg
        intro x hx
        obtain ⟨q, hq, rfl⟩ := List.mem_map.1 hx
        obtain ⟨p, hp, hq⟩ := List.mem_flatMap.1 hq
        have h1 := (List.of_mem_zip hq).1
        have h2 := (List.of_mem_zip hq).2
        obtain ⟨a, _, ha⟩ := List.mem_map.1 h1
        obtain ⟨b, _, hb⟩ := List.mem_map.1 h2
        rw [← ha, ← hb]
        exact mul_nonneg (LogP.exp_nonneg _) (LogP.exp_nonneg _)

/-! ### Products -/

theorem productStep_length (res : List LogP) (p : List (ℕ × ℕ) × List LogP) : (productStep res p).length = res.length :=
  foldl_modify_length _ _ _ _

theorem productFold_length (ps : List (List (ℕ × ℕ) × List LogP)) (res : List LogP) :
    (ps.foldl productStep res).length = res.length := by
  induction ps generalizing res with
  | nil => rfl
  | cons p ps ih => rw [List.foldl_cons, ih, productStep_length]

theorem productStep_getD (res : List LogP) (p : List (ℕ × ℕ) × List LogP) (hb : ∀ e ∈ p.1, e.2 < p.2.length) (i : ℕ)
    (hi : i < res.length) :
    ((productStep res p).getD i .negInf).exp
      = (res.getD i .negInf).exp * (productFactors p.1 (p.2.map LogP.exp) i).prod := by
  have h := foldl_modify_prod (α := LogP) LogP.exp
    (fun (e : ℕ × ℕ) a => a + p.2.getD (min e.2 (p.2.length - 1)) .negInf)
    (fun e => (p.2.getD (min e.2 (p.2.length - 1)) .negInf).exp) (fun e => e.1) .negInf
    (fun _ _ => LogP.exp_add _ _) p.1 res i hi
  refine Eq.trans h ?_
  congr 2
  rw [productFactors]
  apply List.map_congr_left
  intro e he
  rw [getD_clamped _ _ (hb e (List.mem_filter.1 he).1), exp_getD]

theorem productFold_getD (ps : List (List (ℕ × ℕ) × List LogP)) (hb : ∀ p ∈ ps, ∀ e ∈ p.1, e.2 < p.2.length)
    (res : List LogP) (i : ℕ) (hi : i < res.length) :
    ((ps.foldl productStep res).getD i .negInf).exp
      = (res.getD i .negInf).exp * (ps.flatMap fun p => productFactors p.1 (p.2.map LogP.exp) i).prod := by
  induction ps generalizing res with
  | nil => simp
  | cons p ps ih =>
    rw [List.foldl_cons, ih (fun q hq => hb q (List.mem_cons_of_mem _ hq)) _ (by rw [productStep_length]; exact hi),
      productStep_getD _ _ (hb p (List.mem_cons_self ..)) i hi, List.flatMap_cons, List.prod_append, mul_assoc]

/-- The output of a product layer, node by node. -/
theorem productOut_eq (n : ℕ) (es : List (List (ℕ × ℕ))) (outs : List (List LogP))
    (hb : ∀ p ∈ es.zip outs, ∀ e ∈ p.1, e.2 < p.2.length) :
    (productOut n es outs).map LogP.exp = (List.range n).map fun i =>
      ((es.zip (outs.map (List.map LogP.exp))).flatMap fun p => productFactors p.1 p.2 i).prod := by
  apply List.ext_getElem
  · simp [productOut, productFold_length]
  · intro i h1 h2
    have hi : i < n := by simpa using h2
    have hl : (productOut n es outs).length = n := by rw [productOut, productFold_length]; simp
    simp only [List.getElem_map, List.getElem_range]
    have hget := productFold_getD (es.zip outs) hb (List.replicate n 0) i (by simpa using hi)
    have hz : (List.replicate n (0 : LogP)).getD i .negInf = 0 := by
      rw [List.getD_eq_getElem _ _ (by simpa using hi)]; simp
    rw [hz, LogP.exp_zero, one_mul, zip_map_exp es outs (fun w v => productFactors w v i)] at hget
    rw [← hget, List.getD_eq_getElem]
    rfl

/-! ### Whole circuits -/

/-- The array `x` shows every input layer below the value that the assignment gives to its variable. -/
inductive View (a : ℕ → ℝ) : Layer → List ℝ → Prop where
  | input (v : ℕ) (nodes : List InputNode) : View a (.input v nodes) [a v]
  | sparseSum (ws : List Coo) (cs : List Layer) (x : List ℝ) (h : ∀ c ∈ cs, View a c x) : View a (.sparseSum ws cs) x
  | denseSum (ws : List (List (List LogP))) (cs : List Layer) (x : List ℝ) (h : ∀ c ∈ cs, View a c x) :
      View a (.denseSum ws cs) x
  | product (n : ℕ) (es : List (List (ℕ × ℕ))) (cs : List Layer) (x : List ℝ)
      (h : ∀ c ∈ cs, View a c (gather x 0 c.variables)) : View a (.product n es cs) x

theorem layerValues_eq (a : ℕ → ℝ) (cs : List Layer) : layerValues a cs = cs.map (layerValue a) := by
  induction cs with
  | nil => simp [layerValues]
  | cons c cs ih => simp [layerValues, ih]

theorem layerValue_length (a : ℕ → ℝ) (L : Layer) : (layerValue a L).length = L.numberOfNodes := by
  cases L <;> simp [layerValue, Layer.numberOfNodes]

theorem childLikelihoods_ok (a : ℕ → ℝ) (cs : List Layer) (x : List ℝ)
    (h : ∀ c ∈ cs, ∃ out, c.logLikelihood x = .ok out ∧ out.map LogP.exp = layerValue a c) :
    ∃ outs, childLikelihoods cs x = .ok outs ∧ outs.map (List.map LogP.exp) = cs.map (layerValue a) := by
  induction cs with
  | nil => exact ⟨[], rfl, rfl⟩
  | cons c cs ih =>
    obtain ⟨out, h1, h2⟩ := h c (List.mem_cons_self ..)
    obtain ⟨outs, h3, h4⟩ := ih fun d hd => h d (List.mem_cons_of_mem _ hd)
    refine ⟨out :: outs, ?_, by simp [h2, h4]⟩
    simp only [childLikelihoods, h1, h3, bind, Except.bind]

theorem slicedLikelihoods_ok (a : ℕ → ℝ) (cs : List Layer) (x : List ℝ)
    (h : ∀ c ∈ cs, ∃ out, c.logLikelihood (gather x 0 c.variables) = .ok out ∧ out.map LogP.exp = layerValue a c) :
    ∃ outs, slicedLikelihoods cs x = .ok outs ∧ outs.map (List.map LogP.exp) = cs.map (layerValue a) := by
  induction cs with
  | nil => exact ⟨[], rfl, rfl⟩
  | cons c cs ih =>
    obtain ⟨out, h1, h2⟩ := h c (List.mem_cons_self ..)
    obtain ⟨outs, h3, h4⟩ := ih fun d hd => h d (List.mem_cons_of_mem _ hd)
    refine ⟨out :: outs, ?_, by simp [h2, h4]⟩
    simp only [slicedLikelihoods, h1, h3, bind, Except.bind]

theorem lengths_of_values (a : ℕ → ℝ) (cs : List Layer) (outs : List (List LogP))
    (h : outs.map (List.map LogP.exp) = cs.map (layerValue a)) :
    List.Forall₂ (fun (c : Layer) (o : List LogP) => o.length = c.numberOfNodes) cs outs := by
  induction cs generalizing outs with
  | nil => cases outs with
    | nil => exact .nil
    | cons o os => simp at h
  | cons c cs ih => cases outs with
    | nil => simp at h
    | cons o os =>
      simp only [List.map_cons, List.cons.injEq] at h
      refine .cons ?_ (ih os h.2)
      have := congrArg List.length h.1
      rw [layerValue_length] at this
      simpa using this

theorem forall₂_trans {α β γ : Type} {R : α → β → Prop} {S : β → γ → Prop} {T : α → γ → Prop} {l : List α} {m : List β}
    {n : List γ} (h1 : List.Forall₂ R l m) (h2 : List.Forall₂ S m n) (h : ∀ a b c, R a b → S b c → T a c) :
    List.Forall₂ T l n := by
  induction h1 generalizing n with
  | nil => cases h2; exact .nil
  | cons hr _ ih => cases h2 with
    | cons hs h2 => exact .cons (h _ _ _ hr hs) (ih h2)

theorem mem_zip_of_forall₂ {α β : Type} {R : α → β → Prop} {l : List α} {m : List β} (h : List.Forall₂ R l m) {p : α × β}
    (hp : p ∈ l.zip m) : R p.1 p.2 :=
  (List.forall₂_iff_zip.1 h).2 (show (p.1, p.2) ∈ l.zip m from hp)

/-- With the right view the likelihood of a regular layer is its meaning. -/
theorem logLikelihood_eq (a : ℕ → ℝ) {L : Layer} (hL : Regular L) :
    ∀ x, View a L x → ∃ out, L.logLikelihood x = .ok out ∧ out.map LogP.exp = layerValue a L := by
  induction hL with
  | input v nodes =>
    intro x hx
    cases hx
    refine ⟨nodes.map fun f => f (a v), by simp [Layer.logLikelihood], by simp [layerValue]⟩
  | sparseSum ws cs n _ hne hshape hidx hw ih =>
    intro x hx
    cases hx with
    | sparseSum _ _ _ hx =>
      obtain ⟨outs, h1, h2⟩ := childLikelihoods_ok a cs x fun c hc => ih c hc x (hx c hc)
      have hlen := lengths_of_values a cs outs h2
      have hboth := forall₂_trans hshape hlen (T := fun (w : Coo) (o : List LogP) => w.rows = n ∧ w.cols = o.length)
        fun w c o h h' => ⟨h.1, h.2.trans h'.symm⟩
      have hrows : ∀ w ∈ ws, w.rows = n := by
        intro w hw'
        obtain ⟨k, hk, rfl⟩ := List.getElem_of_mem hw'
        exact ((List.forall₂_iff_get.1 hshape).2 k hk (by rw [← hshape.length_eq]; exact hk)).1
      obtain ⟨out, h3, h4⟩ := sparseSumOut_eq ws outs n hne hboth.length_eq hrows
        (fun p hp e he => by
          rw [← (mem_zip_of_forall₂ hboth hp).2]
          exact (hidx p.1 (List.of_mem_zip (show (p.1, p.2) ∈ _ from hp)).1 e he).2) hw
      refine ⟨out, by simp only [Layer.logLikelihood, h1, bind, Except.bind, h3], ?_⟩
      rw [h4, layerValue, layerValues_eq, h2]
      congr 1
      cases ws with
      | nil => exact absurd rfl hne
      | cons w ws => simp only [Layer.numberOfNodes]; rw [hrows w (List.mem_cons_self ..)]
  | denseSum ws cs n _ hne hshape hw ih =>
    intro x hx
    cases hx with
    | denseSum _ _ _ hx =>
      obtain ⟨outs, h1, h2⟩ := childLikelihoods_ok a cs x fun c hc => ih c hc x (hx c hc)
      have hlen := lengths_of_values a cs outs h2
      have hboth := forall₂_trans hshape hlen
        (T := fun (w : List (List LogP)) (o : List LogP) => w.length = n ∧ ∀ row ∈ w, row.length = o.length)
        fun w c o h h' => ⟨h.1, fun row hr => (h.2 row hr).trans h'.symm⟩
      obtain ⟨out, h3, h4⟩ := denseSumOut_eq ws outs n hne hboth hw
      refine ⟨out, by simp only [Layer.logLikelihood, h1, bind, Except.bind, h3], ?_⟩
      rw [h4, layerValue, layerValues_eq, h2]
      congr 1
      cases hshape with
      | nil => exact absurd rfl hne
      | cons h _ => simp only [Layer.numberOfNodes]; rw [h.1]
  | product n es cs _ hidx ih =>
    intro x hx
    cases hx with
    | product _ _ _ _ hx =>
      obtain ⟨outs, h1, h2⟩ := slicedLikelihoods_ok a cs x fun c hc => ih c hc _ (hx c hc)
      have hlen := lengths_of_values a cs outs h2
      have hboth := forall₂_trans hidx hlen
        (T := fun (e : List (ℕ × ℕ)) (o : List LogP) => ∀ p ∈ e, p.2 < o.length)
        fun e c o h h' p hp => by rw [h']; exact (h p hp).2
      refine ⟨productOut n es outs, by simp only [Layer.logLikelihood, h1, bind, Except.bind], ?_⟩
      rw [productOut_eq n es outs fun p hp e he => mem_zip_of_forall₂ hboth hp e he, layerValue, layerValues_eq, h2]

theorem variables_oneVariable {v : ℕ} {L : Layer} (h : OneVariable v L) : L.variables = [v] := by
  induction h with
  | input nodes => simp [Layer.variables]
  | sparseSum ws cs hne _ ih => cases cs with
    | nil => exact absurd rfl hne
    | cons c cs => simp only [Layer.variables, firstVariables]; exact ih c (List.mem_cons_self ..)
  | denseSum ws cs hne _ ih => cases cs with
    | nil => exact absurd rfl hne
    | cons c cs => simp only [Layer.variables, firstVariables]; exact ih c (List.mem_cons_self ..)

theorem view_oneVariable (a : ℕ → ℝ) {v : ℕ} {L : Layer} (h : OneVariable v L) : View a L [a v] := by
  induction h with
  | input nodes => exact .input v nodes
  | sparseSum ws cs _ _ ih => exact .sparseSum ws cs _ ih
  | denseSum ws cs _ _ ih => exact .denseSum ws cs _ ih

theorem gather_range {k : ℕ} (x : List ℝ) (hk : k ≤ x.length) : gather x 0 (List.range k) = x.take k := by
  apply List.ext_getElem
  · simp [gather, hk]
  · intro i h1 h2
    have hi : i < k := by simpa [gather] using h1
    simp only [gather, List.getElem_map, List.getElem_range, List.getElem_take]
    rw [getD_clamped _ _ (by omega), List.getD_eq_getElem _ _ (by omega)]

theorem view_aligned (a : ℕ → ℝ) {k : ℕ} {L : Layer} (h : Aligned k L) :
    ∀ x : List ℝ, x.length = k → (∀ v < k, x.getD v 0 = a v) → View a L x := by
  induction h with
  | one c h =>
    intro x hx ha
    match x, hx with
    | [y], _ =>
      have : y = a 0 := ha 0 (by omega)
      subst this
      exact view_oneVariable a h
  | sparseSum k ws cs _ ih => exact fun x hx ha => .sparseSum ws cs x fun c hc => ih c hc x hx ha
  | denseSum k ws cs _ ih => exact fun x hx ha => .denseSum ws cs x fun c hc => ih c hc x hx ha
  | product k n es cs hinit _ ih =>
    intro x hx ha
    refine .product n es cs x fun c hc => ?_
    by_cases hone : ∃ v < k, OneVariable v c
    · obtain ⟨v, hv, h⟩ := hone
      have hg : gather x 0 c.variables = [a v] := by
        rw [variables_oneVariable h]
        simp only [gather, List.map_cons, List.map_nil, List.cons.injEq, and_true]
        rw [getD_clamped _ _ (by omega), ha v hv]
      rw [hg]
      exact view_oneVariable a h
    · obtain ⟨j, hj, hvar⟩ := hinit c hc hone
      have hlen : c.variables.length = j := by rw [hvar]; simp
      have hg : gather x 0 c.variables = x.take j := by rw [hvar]; exact gather_range x (by omega)
      rw [hg]
      refine ih c hc hone _ (by simp [hlen]; omega) fun v hv => ?_
      rw [← ha v (by omega), List.getD_eq_getElem _ _ (by simp; omega), List.getD_eq_getElem _ _ (by omega), List.getElem_take]

end PM.Jax
