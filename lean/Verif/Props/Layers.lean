import Mathlib.Algebra.BigOperators.Group.List.Lemmas
import Mathlib.Tactic.NormNum
import Mathlib.Tactic.IntervalCases
import Verif.Jax.LayersLemmas

/-!
# C46, C62: layers of the jax circuits compute mixtures and products
-/

namespace PM.Props
open Jax Spec

/-- C46 (sparse sum layer): the likelihood of node `i` is the weighted mean of the likelihoods of the child nodes its stored entries point
to, over all child layers.  `outs` are the log-likelihoods the child layers return for `x`. -/
theorem C46_sparse (ws : List Coo) (cs : List Layer) (x : List ℝ) (outs : List (List LogP)) (n : ℕ)
    (children : childLikelihoods cs x = .ok outs) (nonempty : ws ≠ []) (length : ws.length = outs.length)
    (rows : ∀ w ∈ ws, w.rows = n) (columns : ∀ p ∈ ws.zip outs, ∀ e ∈ p.1.entries, e.2.1 < p.2.length)
    (weights : ∀ i < n, ∃ w ∈ ws, ∃ e ∈ w.entries, e.1 = i ∧ e.2.2 ≠ LogP.negInf) :
    ∃ out, (Layer.sparseSum ws cs).logLikelihood x = .ok out ∧
      out.map LogP.exp = (List.range n).map fun i =>
        weightedMean ((ws.zip (outs.map (List.map LogP.exp))).flatMap fun p => sparseTerms p.1 p.2 i) := by
  obtain ⟨out, h1, h2⟩ := sparseSumOut_eq ws outs n nonempty length rows columns weights
  exact ⟨out, by simp only [Layer.logLikelihood, children, bind, Except.bind, h1], h2⟩

/-- C46 (dense sum layer). -/
theorem C46_dense (ws : List (List (List LogP))) (cs : List Layer) (x : List ℝ) (outs : List (List LogP)) (n : ℕ)
    (children : childLikelihoods cs x = .ok outs) (nonempty : ws ≠ [])
    (shapes : List.Forall₂ (fun (w : List (List LogP)) (o : List LogP) => w.length = n ∧ ∀ row ∈ w, row.length = o.length) ws outs)
    (weights : ∀ i < n, ∃ w ∈ ws, ∃ l ∈ w.getD i [], l ≠ LogP.negInf) :
    ∃ out, (Layer.denseSum ws cs).logLikelihood x = .ok out ∧
      out.map LogP.exp = (List.range n).map fun i =>
        weightedMean ((ws.zip (outs.map (List.map LogP.exp))).flatMap fun p => denseTerms p.1 p.2 i) := by
  obtain ⟨out, h1, h2⟩ := denseSumOut_eq ws outs n nonempty shapes weights
  exact ⟨out, by simp only [Layer.logLikelihood, children, bind, Except.bind, h1], h2⟩

/-- C46 (product layer): the likelihood of node `i` is the product of the likelihoods of the child nodes its edges point to; `outs` are the
log-likelihoods the child layers return for their columns of `x`. -/
theorem C46_product (n : ℕ) (es : List (List (ℕ × ℕ))) (cs : List Layer) (x : List ℝ) (outs : List (List LogP))
    (children : slicedLikelihoods cs x = .ok outs) (indices : ∀ p ∈ es.zip outs, ∀ e ∈ p.1, e.2 < p.2.length) :
    ∃ out, (Layer.product n es cs).logLikelihood x = .ok out ∧
      out.map LogP.exp = (List.range n).map fun i =>
        ((es.zip (outs.map (List.map LogP.exp))).flatMap fun p => productFactors p.1 p.2 i).prod :=
  ⟨productOut n es outs, by simp only [Layer.logLikelihood, children, bind, Except.bind], productOut_eq n es outs indices⟩

theorem weightedMean_perm {l m : List (ℝ × ℝ)} (h : l.Perm m) : weightedMean l = weightedMean m := by
  simp only [weightedMean]
  rw [(h.map _).sum_eq, (h.map _).sum_eq]

/-- C46 (splitting): two sparse sum layers whose weighted child values are the same up to their order, however they are distributed over
child layers, return the same numbers. -/
theorem C46_split (ws ws' : List Coo) (cs cs' : List Layer) (x : List ℝ) (outs outs' : List (List LogP)) (n : ℕ)
    (children : childLikelihoods cs x = .ok outs) (nonempty : ws ≠ []) (length : ws.length = outs.length)
    (rows : ∀ w ∈ ws, w.rows = n) (columns : ∀ p ∈ ws.zip outs, ∀ e ∈ p.1.entries, e.2.1 < p.2.length)
    (weights : ∀ i < n, ∃ w ∈ ws, ∃ e ∈ w.entries, e.1 = i ∧ e.2.2 ≠ LogP.negInf)
    (children' : childLikelihoods cs' x = .ok outs') (nonempty' : ws' ≠ []) (length' : ws'.length = outs'.length)
    (rows' : ∀ w ∈ ws', w.rows = n) (columns' : ∀ p ∈ ws'.zip outs', ∀ e ∈ p.1.entries, e.2.1 < p.2.length)
    (weights' : ∀ i < n, ∃ w ∈ ws', ∃ e ∈ w.entries, e.1 = i ∧ e.2.2 ≠ LogP.negInf)
    (same : ∀ i < n, ((ws.zip (outs.map (List.map LogP.exp))).flatMap fun p => sparseTerms p.1 p.2 i).Perm
      ((ws'.zip (outs'.map (List.map LogP.exp))).flatMap fun p => sparseTerms p.1 p.2 i)) :
    ∃ out, (Layer.sparseSum ws cs).logLikelihood x = .ok out ∧ (Layer.sparseSum ws' cs').logLikelihood x = .ok out := by
  obtain ⟨out, h1, h2⟩ := C46_sparse ws cs x outs n children nonempty length rows columns weights
  obtain ⟨out', h3, h4⟩ := C46_sparse ws' cs' x outs' n children' nonempty' length' rows' columns' weights'
  have : out.map LogP.exp = out'.map LogP.exp := by
    rw [h2, h4]
    apply List.map_congr_left
    intro i hi
    exact weightedMean_perm (same i (List.mem_range.1 hi))
  have := List.map_injective_iff.2 LogP.exp_injective this
  exact ⟨out, h1, this ▸ h3⟩

/-! ### Concrete layers -/

namespace LayerEx

/-- A node that gives the value `v` the likelihood one and all others zero. -/
noncomputable def at' (v : ℝ) : InputNode := .dirac v 1

/-- Two point nodes. -/
noncomputable def points (index : ℕ) (u v : ℝ) : Layer := .input index [at' u, at' v]

/-- Weights 1 and 3 for the two children. -/
noncomputable def weights : Coo := ⟨1, 2, [(0, 0, .fin 0), (0, 1, .fin (Real.log 3))]⟩

/-- The mixture of two points. -/
noncomputable def mixture (index : ℕ) (u v : ℝ) : Layer := .sparseSum [weights] [points index u v]

theorem regular_mixture (index : ℕ) (u v : ℝ) : Regular (mixture index u v) := by
  refine .sparseSum _ _ 1 ?_ (by simp) (.cons ⟨rfl, rfl⟩ .nil) ?_ ?_
  · intro c hc; simp only [List.mem_singleton] at hc; subst hc; exact .input _ _
  · intro w hw e he
    simp only [List.mem_singleton] at hw
    subst hw
    simp only [weights, List.mem_cons, List.not_mem_nil, or_false] at he ⊢
    rcases he with rfl | rfl <;> simp
  · intro i hi
    refine ⟨weights, by simp, (0, 0, .fin 0), by simp [weights], ?_, by simp⟩
    simp only; omega

end LayerEx

open LayerEx

/-- The hypotheses of C46 hold for a mixture of two points with weights 1 : 3. -/
example : ∃ out, (mixture 0 5 7).logLikelihood [7] = .ok out ∧ out.map LogP.exp = [3 / 4] := by
  have hch : childLikelihoods [points 0 5 7] [7] = .ok [[at' 5 7, at' 7 7]] := by
    simp [childLikelihoods, points, Layer.logLikelihood, bind, Except.bind]
  obtain ⟨out, h1, h2⟩ := C46_sparse [weights] [points 0 5 7] [7] [[at' 5 7, at' 7 7]] 1 hch (by simp) (by simp) (by simp [weights])
    (by
      intro p hp e he
      simp only [List.zip_cons_cons, List.zip_nil_right, List.mem_singleton] at hp
      subst hp
      simp only [weights, List.mem_cons, List.not_mem_nil, or_false] at he
      rcases he with rfl | rfl <;> simp)
    (by
      intro i hi
      exact ⟨weights, by simp, (0, 0, .fin 0), by simp [weights], by simp only; omega, by simp⟩)
  refine ⟨out, h1, ?_⟩
  rw [h2]
  simp [weightedMean, sparseTerms, weights, at', InputNode.logDensity, Real.exp_log]
  norm_num

/-! ### C62 -/

/-- C62, full statement: for every well-formed layered circuit over the variables `0, …, k-1` and every row of values the log-likelihood is
the logarithm of the meaning of the circuit at that row. -/
def C62_full : Prop :=
  ∀ (L : Layer) (x : List ℝ), Regular L → L.variables = List.range x.length →
    ∃ out, L.logLikelihood x = .ok out ∧ out.map LogP.exp = layerValue (fun v => x.getD v 0) L

/-- C62 for circuits in which every child of a product layer is over one variable or over an initial segment of the variables.  Missing:
the other circuits, for which the claim is false (`C62_full_false`). -/
theorem C62_aligned_partial (L : Layer) (x : List ℝ) (regular : Regular L) (aligned : Aligned x.length L) :
    ∃ out, L.logLikelihood x = .ok out ∧ out.map LogP.exp = layerValue (fun v => x.getD v 0) L :=
  logLikelihood_eq _ regular x (view_aligned _ aligned x rfl fun _ _ => rfl)

/-- The product of a mixture over `0` and a mixture over `1`; a nested product over an initial segment. -/
noncomputable def shallow : Layer := .product 1 [[(0, 0)], [(0, 0)]] [mixture 0 5 7, mixture 1 8 9]

theorem regular_shallow : Regular shallow := by
  refine .product _ _ _ ?_ (.cons ?_ (.cons ?_ .nil))
  · intro c hc
    simp only [List.mem_cons, List.not_mem_nil, or_false] at hc
    rcases hc with rfl | rfl <;> exact regular_mixture ..
  · intro p hp; simp only [List.mem_singleton] at hp; subst hp; simp [mixture, Layer.numberOfNodes, weights]
  · intro p hp; simp only [List.mem_singleton] at hp; subst hp; simp [mixture, Layer.numberOfNodes, weights]

theorem oneVariable_mixture (i : ℕ) (u v : ℝ) : OneVariable i (mixture i u v) :=
  .sparseSum _ _ (by simp) (by intro c hc; simp only [List.mem_singleton] at hc; subst hc; exact .input _)

theorem aligned_shallow : Aligned 2 shallow := by
  have h : ∀ c ∈ [mixture 0 5 7, mixture 1 8 9], ∃ v < 2, OneVariable v c := by
    intro c hc
    simp only [List.mem_cons, List.not_mem_nil, or_false] at hc
    rcases hc with rfl | rfl
    · exact ⟨0, by omega, oneVariable_mixture ..⟩
    · exact ⟨1, by omega, oneVariable_mixture ..⟩
  exact .product _ _ _ _ (fun c hc hn => absurd (h c hc) hn) (fun c hc hn => absurd (h c hc) hn)

/-- The hypotheses of `C62_aligned_partial` hold for a product of two mixtures; the value is 3/4 · 1/4. -/
example : ∃ out, shallow.logLikelihood [7, 8] = .ok out ∧ out.map LogP.exp = [3 / 16] := by
  obtain ⟨out, h1, h2⟩ := C62_aligned_partial shallow [7, 8] regular_shallow aligned_shallow
  refine ⟨out, h1, ?_⟩
  rw [h2]
  simp [shallow, layerValue, layerValues, mixture, points, Layer.numberOfNodes, productFactors, weightedMean, sparseTerms, weights,
    at', InputNode.logDensity, Real.exp_log]
  norm_num

/-- The circuit of a nested product: variable 0 next to a sum over a product of variables 1 and 2. -/
noncomputable def nestedProducts : Layer :=
  .product 1 [[(0, 0)], [(0, 0)]]
    [.input 0 [at' 0],
     .sparseSum [⟨1, 1, [(0, 0, .fin 0)]⟩]
       [.product 1 [[(0, 0)], [(0, 0)]] [.input 1 [at' 1], .input 2 [at' 2]]]]

theorem regular_nested : Regular nestedProducts := by
  have hinner : Regular (.product 1 [[(0, 0)], [(0, 0)]] [.input 1 [at' 1], .input 2 [at' 2]]) := by
    refine .product _ _ _ ?_ (.cons ?_ (.cons ?_ .nil))
    · intro c hc
      simp only [List.mem_cons, List.not_mem_nil, or_false] at hc
      rcases hc with rfl | rfl <;> exact .input _ _
    · intro p hp; simp only [List.mem_singleton] at hp; subst hp; simp [Layer.numberOfNodes]
    · intro p hp; simp only [List.mem_singleton] at hp; subst hp; simp [Layer.numberOfNodes]
  have hsum : Regular (.sparseSum [⟨1, 1, [(0, 0, .fin 0)]⟩]
       [.product 1 [[(0, 0)], [(0, 0)]] [.input 1 [at' 1], .input 2 [at' 2]]]) := by
    refine .sparseSum _ _ 1 ?_ (by simp) (.cons ⟨rfl, rfl⟩ .nil) ?_ ?_
    · intro c hc; simp only [List.mem_singleton] at hc; subst hc; exact hinner
    · intro w hw e he
      simp only [List.mem_singleton] at hw
      subst hw
      simp only [List.mem_singleton] at he
      subst he
      simp
    · intro i hi
      exact ⟨_, List.mem_singleton.2 rfl, (0, 0, .fin 0), by simp, by simp only; omega, by simp⟩
  refine .product _ _ _ ?_ (.cons ?_ (.cons ?_ .nil))
  · intro c hc
    simp only [List.mem_cons, List.not_mem_nil, or_false] at hc
    rcases hc with rfl | rfl
    · exact .input _ _
    · exact hsum
  · intro p hp; simp only [List.mem_singleton] at hp; subst hp; simp [Layer.numberOfNodes]
  · intro p hp; simp only [List.mem_singleton] at hp; subst hp; simp [Layer.numberOfNodes]

/-- C62 fails for nested product layers: the inner product layer indexes the columns its parent has already selected with the indices of
the full row, so it reads the value of variable 2 for variable 1. -/
theorem C62_full_false : ¬ C62_full := by
  intro h
  obtain ⟨out, h1, h2⟩ := h nestedProducts [0, 1, 2] regular_nested (by decide)
  have hv : layerValue (fun v => [(0 : ℝ), 1, 2].getD v 0) nestedProducts = [1] := by
    simp [nestedProducts, layerValue, layerValues, Layer.numberOfNodes, productFactors, weightedMean, sparseTerms, at', InputNode.logDensity]
  have hu : uniqueSorted [1, 2] = [1, 2] := by decide
  have hl : nestedProducts.logLikelihood [0, 1, 2] = .ok [LogP.negInf] := by
    simp [nestedProducts, Layer.logLikelihood, slicedLikelihoods, childLikelihoods, Layer.variables, firstVariables, allVariables, hu, gather,
      bind, Except.bind, productOut, productStep, sparseSumOut, sparseStep, scatterAdd, at', InputNode.logDensity]
  rw [hl] at h1
  injection h1 with h1
  subst h1
  rw [hv] at h2
  simp at h2

end PM.Props
