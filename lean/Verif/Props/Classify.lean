import Verif.Jax.ClassifyLemmas
import Verif.Props.ToNx

/-! # C70: the joint model of a classification circuit -/

namespace PM.Props
open PM.Jax Spec LayerEx

/-- **C70, the full statement**: a classification circuit can be turned into a circuit over its variables and the class, and the likelihood
of a row with class `k` is the probability of the class times the likelihood that node `k` of the classification circuit gives to the row. -/
def C70_full : Prop :=
  ∀ (m : Model) (c : ℕ) (probs : Option (List ℝ)), m.vars.Pairwise (· < ·) → c ∉ m.vars → Regular m.root → 0 < m.root.numberOfNodes →
    Aligned m.vars.length m.root → m.root.variables = List.range m.vars.length → IndicesBelow m.vars.length m.root →
    ValidClasses m.root.numberOfNodes probs →
    ∃ m', asProbabilisticCircuit m c m.root.numberOfNodes probs = .ok m' ∧ m'.vars.Pairwise (· < ·) ∧
      (∀ v, v ∈ m'.vars ↔ v ∈ m.vars ∨ v = c) ∧
      ∀ (x : ℕ → ℝ) (k : ℕ), k < m.root.numberOfNodes → x c = k →
        ∃ outs q, m.root.logLikelihood (m.vars.map x) = .ok outs ∧ m'.root.logLikelihood (m'.vars.map x) = .ok [q] ∧
          q.exp = classProbability probs m.root.numberOfNodes k * (outs.getD k .negInf).exp

/-- The list of class probabilities that is used. -/
noncomputable def classList (probs : Option (List ℝ)) (n : ℕ) : List ℝ := probs.getD (List.replicate n (1 / n))

theorem classList_valid {probs : Option (List ℝ)} {n : ℕ} (hn : 0 < n) (h : ValidClasses n probs) :
    (classList probs n).length = n ∧ (∀ p ∈ classList probs n, 0 ≤ p) ∧ (∃ p ∈ classList probs n, 0 < p) ∧
      ∀ k < n, (classList probs n).getD k 0 / (classList probs n).sum = classProbability probs n k := by
  cases probs with
  | none =>
    have h0 : (0 : ℝ) < 1 / n := by positivity
    refine ⟨by simp [classList], ?_, ⟨1 / n, by simp [classList]; omega, h0⟩, ?_⟩
    · intro p hp
      rw [classList, Option.getD_none] at hp
      rw [List.eq_of_mem_replicate hp]
      exact h0.le
    · intro k hk
      have h1 : (n : ℝ) ≠ 0 := by positivity
      rw [classList, Option.getD_none, List.getD_eq_getElem _ _ (by simpa using hk)]
      simp [classProbability, h1]
  | some ps => exact ⟨h.1, h.2.1, h.2.2, fun k _ => rfl⟩

theorem sum_zipIdx_ite : ∀ (ps : List ℝ) (b k : ℕ) (y : ℝ), b ≤ k → k < b + ps.length →
    ((ps.zipIdx b).map fun p => p.1 * (if p.2 = k then y else 0)).sum = ps.getD (k - b) 0 * y
  | [], b, k, y, h1, h2 => by simp at h2; omega
  | p :: ps, b, k, y, h1, h2 => by
    rw [List.zipIdx_cons, List.map_cons, List.sum_cons]
    by_cases h : b = k
    · subst h
      have : ((ps.zipIdx (b + 1)).map fun q => q.1 * (if q.2 = b then y else 0)).sum = 0 := by
        apply List.sum_eq_zero
        intro z hz
        obtain ⟨q, hq, rfl⟩ := List.mem_map.1 hz
        have := List.le_snd_of_mem_zipIdx hq
        rw [if_neg (by omega), mul_zero]
      rw [this]
      simp
    · rw [if_neg h, sum_zipIdx_ite ps (b + 1) k y (by omega) (by simp at h2; omega)]
      rw [show k - b = (k - (b + 1)) + 1 by omega, List.getD_cons_succ]
      simp

theorem map_fst_zipIdx (ps : List ℝ) : ps.zipIdx.map Prod.fst = ps := by
  simp [List.zipIdx_eq_zip_range', List.map_fst_zip]

/-- The meaning of the new root. -/
theorem classRoot_value {i n k : ℕ} (hk : k < n) {ps : List ℝ} (hl : ps.length = n) (hp : ∀ p ∈ ps, 0 ≤ p) {L : Layer}
    (hL : L.numberOfNodes = n) {a : ℕ → ℝ} (ha : a i = (k : ℝ)) :
    layerValue a (classRoot i n ps L) = [ps.getD k 0 / ps.sum * (layerValue a L).getD k 0] := by
  have hprod : layerValue a (.product n [(List.range n).map fun k => (k, k), (List.range n).map fun k => (k, k)] [L, classLayer i n])
      = (List.range n).map fun j => if j = k then (layerValue a L).getD k 0 else 0 := by
    rw [layerValue]
    apply List.map_congr_left
    intro j hj
    rw [List.mem_range] at hj
    have hf : ∀ values : List ℝ, productFactors ((List.range n).map fun k => (k, k)) values j = [values.getD j 0] := by
      intro values
      rw [productFactors, List.filter_map, List.map_map]
      have : (List.range n).filter ((fun e : ℕ × ℕ => e.1 == j) ∘ fun k => (k, k)) = [j] := by
        have := List.filter_eq (l := List.range n) j
        simp only [Function.comp_def]
        rw [show (fun x : ℕ => x == j) = fun x => decide (x = j) from rfl]
        rw [this, List.count_eq_one_of_mem List.nodup_range (List.mem_range.2 hj)]
        rfl
      rw [this]
      rfl
    simp only [layerValues, List.zip_cons_cons, List.zip_nil_right, List.flatMap_cons, List.flatMap_nil, List.append_nil, hf,
      classLayer_value hk ha, List.singleton_append, List.prod_cons, List.prod_nil, mul_one]
    have : ((List.range n).map fun j => if j = k then (1 : ℝ) else 0).getD j 0 = if j = k then 1 else 0 := by
      rw [List.getD_eq_getElem _ _ (by simpa using hj)]
      simp
    rw [this]
    by_cases h : j = k
    · simp [h]
    · simp [h]
  have hfil : (ps.zipIdx.map fun p => ((0 : ℕ), p.2, LogP.log p.1)).filter (fun e => e.1 == 0) = ps.zipIdx.map fun p => (0, p.2, LogP.log p.1) := by
    rw [List.filter_eq_self]
    intro e he
    obtain ⟨p, -, rfl⟩ := List.mem_map.1 he
    rfl
  have hterms : sparseTerms ⟨1, n, ps.zipIdx.map fun p => (0, p.2, LogP.log p.1)⟩
      ((List.range n).map fun j => if j = k then (layerValue a L).getD k 0 else 0) 0
      = ps.zipIdx.map fun p => (p.1, if p.2 = k then (layerValue a L).getD k 0 else 0) := by
    rw [sparseTerms, hfil, List.map_map]
    apply List.map_congr_left
    intro p hpm
    simp only [Function.comp_apply]
    have h2 : p.2 < n := by
      have := List.snd_lt_of_mem_zipIdx hpm
      omega
    have h1 : p.1 ∈ ps := by
      have := List.mem_map_of_mem (f := Prod.fst) hpm
      rwa [map_fst_zipIdx] at this
    rw [LogP.exp_log (hp _ h1), List.getD_eq_getElem _ _ (by simpa using h2)]
    simp
  simp only [classRoot]
  rw [layerValue]
  simp only [Layer.numberOfNodes, List.range_one, List.map_cons, List.map_nil, layerValues, hprod, List.zip_cons_cons, List.zip_nil_right,
    List.flatMap_cons, List.flatMap_nil, List.append_nil, hterms, weightedMean, List.map_map]
  have e1 := sum_zipIdx_ite ps 0 k ((layerValue a L).getD k 0) (by omega) (by omega)
  have e2 : (ps.zipIdx.map ((fun p : ℝ × ℝ => p.1) ∘ fun p => (p.1, if p.2 = k then (layerValue a L).getD k 0 else 0))) = ps := map_fst_zipIdx ps
  rw [e2]
  have e3 : (ps.zipIdx.map ((fun p : ℝ × ℝ => p.1 * p.2) ∘ fun p => (p.1, if p.2 = k then (layerValue a L).getD k 0 else 0))).sum
      = ps.getD (k - 0) 0 * (layerValue a L).getD k 0 := e1
  rw [e3]
  simp only [Nat.sub_zero]
  ring_nf

theorem classRoot_regular {i n : ℕ} {ps : List ℝ} (hl : ps.length = n) (hp : ∃ p ∈ ps, 0 < p) {L : Layer}
    (hL : L.numberOfNodes = n) (hR : Regular L) : Regular (classRoot i n ps L) := by
  refine .sparseSum _ _ 1 ?_ (by simp) (.cons ⟨rfl, rfl⟩ .nil) ?_ ?_
  · simp only [List.mem_singleton, forall_eq]
    refine .product _ _ _ ?_ (.cons ?_ (.cons ?_ .nil))
    · simp only [List.mem_cons, List.not_mem_nil, or_false, forall_eq_or_imp, forall_eq]
      exact ⟨hR, .input _ _⟩
    · simp [hL]
    · simp [classLayer, Layer.numberOfNodes]
  · simp only [List.mem_singleton, forall_eq]
    intro e he
    obtain ⟨p, hpm, rfl⟩ := List.mem_map.1 he
    have := List.snd_lt_of_mem_zipIdx hpm
    exact ⟨by simp, by simp only; omega⟩
  · intro j hj
    obtain ⟨p, hpm, hpos⟩ := hp
    rw [← map_fst_zipIdx ps] at hpm
    obtain ⟨q, hq, rfl⟩ := List.mem_map.1 hpm
    refine ⟨_, List.mem_singleton.2 rfl, (0, q.2, LogP.log q.1), List.mem_map.2 ⟨q, hq, rfl⟩, by simp only; omega, ?_⟩
    rw [← LogP.exp_pos, LogP.exp_log hpos.le]
    exact hpos

/-- C70 for circuits with uniform and normal distributions as inputs.  The likelihood that the new layers describe is the right one for every
position of the class among the variables; the likelihood is also computed correctly if the class comes after all variables.  Missing: other
input layers, which cannot be copied, and the computation for other positions of the class; for both the claim is false
(`C70_full_false`, `C70_class_first`). -/
theorem C70_joint_partial {m : Model} {c : ℕ} {probs : Option (List ℝ)} (hv : m.vars.Pairwise (· < ·)) (hc : c ∉ m.vars)
    (hR : Regular m.root) (hn : 0 < m.root.numberOfNodes) (hI : IndicesBelow m.vars.length m.root) (hD : DenseInputs m.root)
    (hp : ValidClasses m.root.numberOfNodes probs) :
    ∃ m', asProbabilisticCircuit m c m.root.numberOfNodes probs = .ok m' ∧ m'.vars.Pairwise (· < ·) ∧
      (∀ v, v ∈ m'.vars ↔ v ∈ m.vars ∨ v = c) ∧ Regular m'.root ∧
      ∀ (x : ℕ → ℝ) (k : ℕ), k < m.root.numberOfNodes → x c = k →
        layerValue (byIndex m'.vars x) m'.root
          = [classProbability probs m.root.numberOfNodes k * (layerValue (byIndex m.vars x) m.root).getD k 0] ∧
        ((∀ v ∈ m.vars, v < c) → Aligned m.vars.length m.root → m.root.variables = List.range m.vars.length →
          ∃ outs q, m.root.logLikelihood (m.vars.map x) = .ok outs ∧ m'.root.logLikelihood (m'.vars.map x) = .ok [q] ∧
            q.exp = classProbability probs m.root.numberOfNodes k * (outs.getD k .negInf).exp) := by
  obtain ⟨A, B, hAB, hvars, hcA, hA, hB⟩ := uniqueSorted_insert hv hc
  obtain ⟨h1, h2, h3, h4⟩ := classList_valid hn hp
  have hidx : (A ++ c :: B).idxOf c = A.length := by
    rw [List.idxOf_append_of_notMem hcA]
    simp
  set n := m.root.numberOfNodes with hnd
  have hok : asProbabilisticCircuit m c n probs = .ok ⟨A ++ c :: B, classRoot A.length n (classList probs n) (m.root.shift A.length)⟩ := by
    simp only [asProbabilisticCircuit, ← hnd, ne_eq, not_true_eq_false, if_false, bind, Except.bind, deepcopy_ok _ hD, hvars, hidx]
    rw [if_neg (by simpa [classList] using h1)]
    rfl
  have hsort : (A ++ c :: B).Pairwise (· < ·) := by
    rw [hAB, List.pairwise_append] at hv
    rw [List.pairwise_append, List.pairwise_cons]
    refine ⟨hv.1, ⟨hB, hv.2.1⟩, ?_⟩
    intro a ha b hb
    rcases List.mem_cons.1 hb with rfl | hb
    · exact hA a ha
    · exact hv.2.2 a ha b hb
  have hreg := classRoot_regular (i := A.length) h1 h3 (by rw [numberOfNodes_shift]) (regular_shift A.length _ hR)
  have hval : ∀ (x : ℕ → ℝ) (k : ℕ), k < n → x c = k →
      layerValue (byIndex (A ++ c :: B) x) (classRoot A.length n (classList probs n) (m.root.shift A.length))
          = [classProbability probs n k * (layerValue (byIndex m.vars x) m.root).getD k 0] := by
    intro x k hk hx
    rw [classRoot_value hk h1 h2 (by rw [numberOfNodes_shift]) (by simp [byIndex, hx]), h4 k hk,
      layerValue_shift A.length _ (byIndex m.vars x) m.vars.length ?_ _ hI]
    intro v hv'
    simp only [byIndex]
    congr 1
    rw [hAB] at hv' ⊢
    by_cases h : A.length ≤ v
    · rw [if_pos h]
      rw [List.getD_append_right _ _ _ _ (by omega), List.getD_append_right _ _ _ _ h, show v + 1 - A.length = (v - A.length) + 1 by omega]
      simp
    · rw [if_neg h, List.getD_append _ _ _ _ (by omega), List.getD_append _ _ _ _ (by omega)]
  refine ⟨_, hok, hsort, ?_, hreg, ?_⟩
  · intro v
    rw [hAB]
    simp only [List.mem_append, List.mem_cons]
    tauto
  intro x k hk hx
  refine ⟨hval x k hk hx, ?_⟩
  intro hlast halign hvs
  have hB0 : B = [] := by
    cases B with
    | nil => rfl
    | cons b B =>
      have := hlast b (by rw [hAB]; simp)
      have := hB b (by simp)
      omega
  subst hB0
  rw [List.append_nil] at hAB
  have hshift : m.root.shift A.length = m.root := shift_last _ (hAB ▸ hI)
  obtain ⟨outs, ho1, ho2⟩ := C62_aligned_partial m.root (m.vars.map x) hR (by simpa using halign)
  have hal : Aligned ((A ++ [c]).map x).length (classRoot A.length n (classList probs n) (m.root.shift A.length)) := by
    rw [hshift]
    refine .sparseSum _ _ _ ?_
    simp only [List.mem_singleton, forall_eq]
    refine .product _ _ _ _ ?_ ?_
    · intro d hd hno
      simp only [List.mem_cons, List.not_mem_nil, or_false] at hd
      rcases hd with rfl | rfl
      · exact ⟨m.vars.length, by simp [hAB], hvs⟩
      · exact absurd ⟨A.length, by simp, .input _⟩ hno
    · intro d hd hno
      simp only [List.mem_cons, List.not_mem_nil, or_false] at hd
      rcases hd with rfl | rfl
      · rw [hvs, List.length_range]
        exact halign
      · exact absurd ⟨A.length, by simp, .input _⟩ hno
  obtain ⟨out, hq1, hq2⟩ := C62_aligned_partial _ _ hreg hal
  have he : ∀ (l : List ℕ) (L : Layer), IndicesBelow l.length L →
      layerValue (fun v => (l.map x).getD v 0) L = layerValue (byIndex l x) L := by
    intro l L hL
    have := layerValue_shift l.length (fun v => (l.map x).getD v 0) (byIndex l x) l.length (fun v hv' => by
      rw [if_neg (by omega)]
      simp only [byIndex]
      rw [List.getD_eq_getElem _ _ (by simpa using hv'), List.getD_eq_getElem _ _ hv', List.getElem_map]) L hL
    rwa [shift_last L hL] at this
  have hI' : IndicesBelow (A ++ [c]).length (classRoot A.length n (classList probs n) (m.root.shift A.length)) := by
    rw [hshift]
    refine .sparseSum _ _ ?_
    simp only [List.mem_singleton, forall_eq]
    refine .product _ _ _ ?_
    simp only [List.mem_cons, List.not_mem_nil, or_false, forall_eq_or_imp, forall_eq]
    refine ⟨?_, .input _ _ (by simp)⟩
    have mono : ∀ L : Layer, IndicesBelow m.vars.length L → IndicesBelow (A ++ [c]).length L := by
      refine Layer.induct fun L ih h => ?_
      cases h with
      | input v nodes h => exact .input _ _ (by rw [hAB] at h; simp; omega)
      | sparseSum ws cs children => exact .sparseSum _ _ fun d hd => ih d hd (children d hd)
      | denseSum ws cs children => exact .denseSum _ _ fun d hd => ih d hd (children d hd)
      | product n es cs children => exact .product _ _ _ fun d hd => ih d hd (children d hd)
    exact mono _ hI
  rw [he _ _ hI', hval x k hk hx] at hq2
  rw [he _ _ hI] at ho2
  match out, hq1, hq2 with
  | [q], hq1, hq2 =>
    refine ⟨outs, q, ho1, hq1, ?_⟩
    simp only [List.map_cons, List.map_nil, List.cons.injEq, and_true] at hq2
    rw [hq2, ← ho2, exp_getD]
  | [], _, hq2 => simp at hq2
  | _ :: _ :: _, _, hq2 => simp at hq2

/-- A layer with a single distribution over two states. -/
noncomputable def coinModel : Model := ⟨[1], .input 0 [.discrete [.fin 0, .fin 0]]⟩

theorem C70_full_false : ¬ C70_full := by
  intro h
  obtain ⟨m', h1, -⟩ := h coinModel 2 none (by simp [coinModel]) (by simp [coinModel]) (.input _ _) (by simp [coinModel, Layer.numberOfNodes])
    (.one _ (.input _)) rfl (.input _ _ (by simp [coinModel])) trivial
  have : asProbabilisticCircuit coinModel 2 coinModel.root.numberOfNodes none = .error .notImplementedError := rfl
  rw [this] at h1
  cases h1

/-- A product of uniform distributions on `(0, 1)` and `(2, 3)`, with a single class. -/
noncomputable def squareModel : Model := ⟨[1, 2], .product 1 [[(0, 0)], [(0, 0)]] [.input 0 [.uniform 0 1], .input 1 [.uniform 2 3]]⟩

theorem squareModel_regular : Regular squareModel.root := by
  refine .product _ _ _ ?_ (.cons (by simp [Layer.numberOfNodes]) (.cons (by simp [Layer.numberOfNodes]) .nil))
  simp only [List.mem_cons, List.not_mem_nil, or_false, forall_eq_or_imp, forall_eq]
  exact ⟨.input _ _, .input _ _⟩

theorem squareModel_aligned : Aligned 2 squareModel.root := by
  refine .product _ _ _ _ ?_ ?_
  · intro d hd hno
    simp only [List.mem_cons, List.not_mem_nil, or_false] at hd
    rcases hd with rfl | rfl
    · exact absurd ⟨0, by omega, .input _⟩ hno
    · exact absurd ⟨1, by omega, .input _⟩ hno
  · intro d hd hno
    simp only [List.mem_cons, List.not_mem_nil, or_false] at hd
    rcases hd with rfl | rfl
    · exact absurd ⟨0, by omega, .input _⟩ hno
    · exact absurd ⟨1, by omega, .input _⟩ hno

theorem squareModel_below : IndicesBelow 2 squareModel.root := by
  refine .product _ _ _ ?_
  simp only [List.mem_cons, List.not_mem_nil, or_false, forall_eq_or_imp, forall_eq]
  exact ⟨.input _ _ (by omega), .input _ _ (by omega)⟩

theorem squareModel_inputs : DenseInputs squareModel.root := by
  refine .product _ _ _ ?_
  simp only [List.mem_cons, List.not_mem_nil, or_false, forall_eq_or_imp, forall_eq]
  exact ⟨.input _ _ (by simp), .input _ _ (by simp)⟩

/-- If the class comes before the variables the computed likelihood can be wrong: here it is zero at a row where the classification circuit
gives the only class the likelihood one. -/
theorem C70_class_first : ∃ m', asProbabilisticCircuit squareModel 0 1 none = .ok m' ∧ m'.vars = [0, 1, 2] ∧
    squareModel.root.logLikelihood [1 / 2, 5 / 2] = .ok [.fin 0] ∧ m'.root.logLikelihood [0, 1 / 2, 5 / 2] = .ok [.negInf] := by
  refine ⟨⟨[0, 1, 2], classRoot 0 1 (classList none 1) (squareModel.root.shift 0)⟩, rfl, rfl, ?_, ?_⟩
  · norm_num [squareModel, Layer.logLikelihood, slicedLikelihoods, Layer.variables, gather, bind, Except.bind, productOut, productStep,
      InputNode.logDensity, LogP.zero_add']
  · have hv : (squareModel.root.shift 0).variables = [1, 2] := rfl
    have hw : (classLayer 0 1).variables = [0] := rfl
    have h1 : (squareModel.root.shift 0).logLikelihood [1 / 2, 5 / 2] = .ok [.negInf] := by
      norm_num [squareModel, Layer.shift, shifts, Layer.logLikelihood, slicedLikelihoods, Layer.variables, gather, bind, Except.bind, productOut,
        productStep, InputNode.logDensity]
    have hg : gather ([0, 1 / 2, 5 / 2] : List ℝ) 0 [1, 2] = [1 / 2, 5 / 2] := rfl
    have hg' : gather ([0, 1 / 2, 5 / 2] : List ℝ) 0 [0] = [0] := rfl
    have hcl : ∃ o, (classLayer 0 1).logLikelihood [0] = .ok [o] := ⟨_, rfl⟩
    obtain ⟨o, ho⟩ := hcl
    simp only [classRoot, Layer.logLikelihood, childLikelihoods, slicedLikelihoods, bind, Except.bind, hv, hw, hg, hg', h1, ho]
    have hp : productOut 1 [(List.range 1).map fun k => (k, k), (List.range 1).map fun k => (k, k)] [[.negInf], [o]] = [0 + LogP.negInf + o] := rfl
    have hlist : classList none 1 = [1] := by simp [classList]
    rw [hp, hlist]
    have : (0 + LogP.negInf + o) = .negInf := by rw [LogP.zero_add']; cases o <;> rfl
    rw [this]
    simp [sparseSumOut, sparseStep, scatterAdd]

/-- `squareModel` meets the hypotheses of the full statement and has copyable inputs. -/
example : squareModel.vars.Pairwise (· < ·) ∧ 0 ∉ squareModel.vars ∧ Regular squareModel.root ∧ squareModel.root.numberOfNodes = 1 ∧
    Aligned squareModel.vars.length squareModel.root ∧ squareModel.root.variables = List.range squareModel.vars.length ∧
    IndicesBelow squareModel.vars.length squareModel.root ∧ DenseInputs squareModel.root :=
  ⟨by simp [squareModel], by simp [squareModel], squareModel_regular, rfl, squareModel_aligned, rfl, squareModel_below, squareModel_inputs⟩

/-- Two classes, as two products of a continuous distribution each; the second class is three times as likely. -/
noncomputable def twoClasses : Model :=
  ⟨[1, 2], .denseSum [[[.fin 0, .negInf], [.fin 1, .fin 0]]] [.product 2 [[(0, 0), (1, 1)], [(0, 0), (1, 1)]]
    [.input 0 [.uniform 0 1, .gaussian 0 0 (1 / 10)], .input 1 [.uniform 2 3, .uniform 0 5]]]⟩

/-- The hypotheses of C70 are met by `twoClasses`. -/
example : twoClasses.vars.Pairwise (· < ·) ∧ 3 ∉ twoClasses.vars ∧ Regular twoClasses.root ∧ 0 < twoClasses.root.numberOfNodes ∧
    IndicesBelow twoClasses.vars.length twoClasses.root ∧ DenseInputs twoClasses.root ∧
    ValidClasses twoClasses.root.numberOfNodes (some [1 / 4, 3 / 4]) ∧ (∀ v ∈ twoClasses.vars, v < 3) ∧
    Aligned twoClasses.vars.length twoClasses.root ∧ twoClasses.root.variables = List.range twoClasses.vars.length := by
  refine ⟨by simp [twoClasses], by simp [twoClasses], ?_, by simp [twoClasses, Layer.numberOfNodes], ?_, ?_, ?_, by simp [twoClasses], ?_, rfl⟩
  · refine .denseSum _ _ 2 ?_ (by simp) (.cons ⟨rfl, by simp [Layer.numberOfNodes]⟩ .nil) ?_
    · simp only [List.mem_singleton, forall_eq]
      refine .product _ _ _ ?_ (.cons (by simp [Layer.numberOfNodes]) (.cons (by simp [Layer.numberOfNodes]) .nil))
      simp only [List.mem_cons, List.not_mem_nil, or_false, forall_eq_or_imp, forall_eq]
      exact ⟨.input _ _, .input _ _⟩
    · intro i hi
      refine ⟨_, List.mem_singleton.2 rfl, ?_⟩
      interval_cases i
      · exact ⟨.fin 0, by simp, by simp⟩
      · exact ⟨.fin 0, by simp, by simp⟩
  · refine .denseSum _ _ ?_
    simp only [List.mem_singleton, forall_eq]
    refine .product _ _ _ ?_
    simp only [List.mem_cons, List.not_mem_nil, or_false, forall_eq_or_imp, forall_eq]
    exact ⟨.input _ _ (by simp [twoClasses]), .input _ _ (by simp [twoClasses])⟩
  · refine .denseSum _ _ ?_
    simp only [List.mem_singleton, forall_eq]
    refine .product _ _ _ ?_
    simp only [List.mem_cons, List.not_mem_nil, or_false, forall_eq_or_imp, forall_eq]
    exact ⟨.input _ _ (by simp), .input _ _ (by simp)⟩
  · refine ⟨rfl, ?_, 1 / 4, by simp, by norm_num⟩
    simp only [List.mem_cons, List.not_mem_nil, or_false, forall_eq_or_imp, forall_eq]
    norm_num
  · refine .denseSum _ _ _ ?_
    simp only [List.mem_singleton, forall_eq]
    refine .product _ _ _ _ ?_ ?_
    · intro d hd hno
      simp only [List.mem_cons, List.not_mem_nil, or_false] at hd
      rcases hd with rfl | rfl
      · exact absurd ⟨0, by simp [twoClasses], .input _⟩ hno
      · exact absurd ⟨1, by simp [twoClasses], .input _⟩ hno
    · intro d hd hno
      simp only [List.mem_cons, List.not_mem_nil, or_false] at hd
      rcases hd with rfl | rfl
      · exact absurd ⟨0, by simp [twoClasses], .input _⟩ hno
      · exact absurd ⟨1, by simp [twoClasses], .input _⟩ hno

end PM.Props
