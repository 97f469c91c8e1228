import Verif.Props.ConvertLeaves

/-! # C67: Gaussian and truncated Gaussian leaves in one level are counted twice -/

namespace PM.Props
open PM.Jax Graph Spec

/-- A mixture of a Gaussian and a truncated Gaussian distribution with the weights `w` and `1 - w`. -/
noncomputable def bells (w μ σ : ℝ) (I : SimpleInterval) (μ' σ' : ℝ) : Circuit :=
  ⟨[(0, .sum), (1, .leaf (.gaussian 0 μ σ)), (2, .leaf (.truncGaussian 0 I μ' σ'))], [⟨0, 1, Ex.lw w⟩, ⟨0, 2, Ex.lw (1 - w)⟩]⟩

theorem perm_pair {α : Type} {l : List α} {a b : α} (h : l.Perm [a, b]) : l = [a, b] ∨ l = [b, a] := by
  match l, h.length_eq with
  | [x, y], _ =>
    have hx : x ∈ [a, b] := h.mem_iff.1 (by simp)
    simp only [List.mem_cons, List.not_mem_nil, or_false] at hx
    rcases hx with rfl | rfl
    · have := List.perm_singleton.1 ((List.perm_cons x).1 h)
      simp_all
    · have := List.perm_singleton.1 ((List.perm_cons x).1 (h.trans (List.Perm.swap _ _ _)))
      simp_all

theorem bells_level (env : Env) {shuffle : {α : Type} → List α → List α} (hshuffle : ∀ {α : Type} (l : List α), (shuffle l).Perm l)
    (w μ σ : ℝ) (I : SimpleInterval) (μ' σ' : ℝ) :
    let A : Converter := ⟨.input 0 [.gaussian μ (Real.log σ) (1 / 100), .gaussian μ' (Real.log σ') (1 / 100)], [1, 2]⟩
    let B : Converter := ⟨.input 0 [.gaussian μ' (Real.log σ') (1 / 100)], [2]⟩
    let g := bells w μ σ I μ' σ'
    createLayers env shuffle g (g.varsOf 4) [0] [1, 2] [] = .ok [A, B] ∨ createLayers env shuffle g (g.varsOf 4) [0] [1, 2] [] = .ok [B, A] := by
  intro A B g
  have hone : ∀ {α : Type} (a : α), shuffle [a] = [a] := fun a => List.perm_singleton.1 (hshuffle [a])
  have t1 : typeOf g 1 = .gaussian := rfl
  have t2 : typeOf g 2 = .truncGaussian := rfl
  have hs1 : g.varsOf 4 1 = .ok {0} := rfl
  have hs2 : g.varsOf 4 2 = .ok {0} := rfl
  have i1 : inputOf env g 1 = .ok (.gaussian μ (Real.log σ) (1 / 100)) := rfl
  have i2 : inputOf env g 2 = .ok (.gaussian μ' (Real.log σ') (1 / 100)) := rfl
  have hA : layersOfType env shuffle g (g.varsOf 4) [0] [1, 2] [] .gaussian = .ok [A] := by
    have hf : ([1, 2] : List Node).filter (fun n => (typeOf g n).isInstance .gaussian) = [1, 2] := by
      simp [t1, t2, UnitType.isInstance]
    have hd : ([{0}, {0}] : List (Finset Var)).dedup = [{0}] := by decide
    simp [layersOfType, hf, layerType, t1, UnitType.isLeaf, bind, Except.bind, pure, Except.pure, hs1, hs2, hd, hone, createLayer, inputLayer,
      i1, i2, A]
  have hB : layersOfType env shuffle g (g.varsOf 4) [0] [1, 2] [] .truncGaussian = .ok [B] := by
    have hf : ([1, 2] : List Node).filter (fun n => (typeOf g n).isInstance .truncGaussian) = [2] := by
      rw [List.filter_cons_of_neg (by rw [t1]; decide), List.filter_cons_of_pos (by rw [t2]; decide), List.filter_nil]
    have hd : ([{0}] : List (Finset Var)).dedup = [{0}] := by decide
    simp [layersOfType, hf, layerType, t1, t2, UnitType.isLeaf, bind, Except.bind, pure, Except.pure, hs2, hd, hone, createLayer, inputLayer,
      i2, B]
  have hded : (([1, 2] : List Node).map (typeOf g)).dedup = [.gaussian, .truncGaussian] := by
    simp only [List.map_cons, List.map_nil, t1, t2]; decide
  rcases perm_pair (hshuffle [UnitType.gaussian, .truncGaussian]) with h | h
  · left
    rw [createLayers, hded, h]
    simp [bind, Except.bind, pure, Except.pure, hA, hB]
  · right
    rw [createLayers, hded, h]
    simp [bind, Except.bind, pure, Except.pure, hA, hB]

theorem bells_sum (w μ σ : ℝ) (I : SimpleInterval) (μ' σ' : ℝ) :
    let A : Converter := ⟨.input 0 [.gaussian μ (Real.log σ) (1 / 100), .gaussian μ' (Real.log σ') (1 / 100)], [1, 2]⟩
    let B : Converter := ⟨.input 0 [.gaussian μ' (Real.log σ') (1 / 100)], [2]⟩
    let a : Coo := ⟨1, 2, [(0, 0, .fin (Real.log w)), (0, 1, .fin (Real.log (1 - w)))]⟩
    let b : Coo := ⟨1, 1, [(0, 0, .fin (Real.log (1 - w)))]⟩
    let g := bells w μ σ I μ' σ'
    sumLayer g [0] [0] [A, B] = .ok ⟨.sparseSum [a, b] [A.layer, B.layer], [0]⟩ ∧
    sumLayer g [0] [0] [B, A] = .ok ⟨.sparseSum [b, a] [B.layer, A.layer], [0]⟩ := by
  intro A B a b g
  have hout : g.outEdges 0 = [⟨0, 1, Ex.lw w⟩, ⟨0, 2, Ex.lw (1 - w)⟩] := rfl
  have hA : sumEntries g [0] A = .ok [(0, 0, .fin (Real.log w)), (0, 1, .fin (Real.log (1 - w)))] := by
    simp [sumEntries, hout, A, readWeight, Ex.lw, bind, Except.bind, pure, Except.pure]
  have hB : sumEntries g [0] B = .ok [(0, 0, .fin (Real.log (1 - w)))] := by
    simp [sumEntries, hout, B, readWeight, Ex.lw, bind, Except.bind, pure, Except.pure]
  have vA : A.layer.variables = [0] := rfl
  have vB : B.layer.variables = [0] := rfl
  have nA : A.layer.numberOfNodes = 2 := rfl
  have nB : B.layer.numberOfNodes = 1 := rfl
  clear_value A B
  constructor <;>
    simp [sumLayer, hA, hB, bind, Except.bind, pure, Except.pure, sameVariables, vA, vB, nA, nB, a, b]

theorem bells_value {w : ℝ} (hw0 : 0 < w) (hw1 : w < 1) (μ : ℝ) {σ : ℝ} (hσ : 0 < σ) (μ' : ℝ) {σ' : ℝ} (hσ' : 0 < σ') (y : ℝ) :
    let A : Layer := .input 0 [.gaussian μ (Real.log σ) (1 / 100), .gaussian μ' (Real.log σ') (1 / 100)]
    let B : Layer := .input 0 [.gaussian μ' (Real.log σ') (1 / 100)]
    let a : Coo := ⟨1, 2, [(0, 0, .fin (Real.log w)), (0, 1, .fin (Real.log (1 - w)))]⟩
    let b : Coo := ⟨1, 1, [(0, 0, .fin (Real.log (1 - w)))]⟩
    let v := (w * ProbabilityTheory.gaussianPDFReal μ (Real.toNNReal ((σ + 1 / 100) ^ 2)) y
        + 2 * (1 - w) * ProbabilityTheory.gaussianPDFReal μ' (Real.toNNReal ((σ' + 1 / 100) ^ 2)) y) / (w + 2 * (1 - w))
    (∃ q, (Layer.sparseSum [a, b] [A, B]).logLikelihood [y] = .ok [q] ∧ q.exp = v) ∧
    (∃ q, (Layer.sparseSum [b, a] [B, A]).logLikelihood [y] = .ok [q] ∧ q.exp = v) := by
  intro A B a b v
  have hw2 : 0 < 1 - w := by linarith
  have hden : 0 < w + 2 * (1 - w) := by linarith
  have g1 := gaussian_layer (μ := μ) hσ y
  have g2 := gaussian_layer (μ := μ') hσ' y
  have one : ∀ {out : List LogP} {z : ℝ}, out.map LogP.exp = [z] → ∃ q, out = [q] ∧ q.exp = z := by
    intro out z h
    match out, h with
    | [q], h => exact ⟨q, rfl, by simpa using h⟩
  have rA : Regular A := .input _ _
  have rB : Regular B := .input _ _
  have oA : OneVariable 0 A := .input _
  have oB : OneVariable 0 B := .input _
  have vA : layerValue (fun v => [y].getD v 0) A = [ProbabilityTheory.gaussianPDFReal μ (Real.toNNReal ((σ + 1 / 100) ^ 2)) y,
      ProbabilityTheory.gaussianPDFReal μ' (Real.toNNReal ((σ' + 1 / 100) ^ 2)) y] := by
    simp only [A, layerValue, List.map_cons, List.map_nil, List.getD_cons_zero, g1, g2]
  have vB : layerValue (fun v => [y].getD v 0) B = [ProbabilityTheory.gaussianPDFReal μ' (Real.toNNReal ((σ' + 1 / 100) ^ 2)) y] := by
    simp only [B, layerValue, List.map_cons, List.map_nil, List.getD_cons_zero, g2]
  have nA : A.numberOfNodes = 2 := rfl
  have nB : B.numberOfNodes = 1 := rfl
  have hv0 : v = (w * ProbabilityTheory.gaussianPDFReal μ (Real.toNNReal ((σ + 1 / 100) ^ 2)) y
        + 2 * (1 - w) * ProbabilityTheory.gaussianPDFReal μ' (Real.toNNReal ((σ' + 1 / 100) ^ 2)) y) / (w + 2 * (1 - w)) := rfl
  clear_value A B v
  generalize ProbabilityTheory.gaussianPDFReal μ (Real.toNNReal ((σ + 1 / 100) ^ 2)) y = p at *
  generalize ProbabilityTheory.gaussianPDFReal μ' (Real.toNNReal ((σ' + 1 / 100) ^ 2)) y = p' at *
  constructor
  · obtain ⟨out, ho1, ho2⟩ := C62_aligned_partial (.sparseSum [a, b] [A, B]) [y]
      (.sparseSum _ _ 1 (by simp [rA, rB]) (by simp) (by simp [nA, nB, a, b]) (by simp only [List.forall_mem_cons, a, b]; simp) (by simp [a, b]))
      (.one _ (.sparseSum _ _ (by simp) (by simp [oA, oB])))
    have hv : layerValue (fun v => [y].getD v 0) (.sparseSum [a, b] [A, B]) = [v] := by
      simp only [layerValue, layerValues, vA, vB, Layer.numberOfNodes]
      simp [sparseTerms, a, b, weightedMean, Real.exp_log hw0, Real.exp_log hw2, hv0]
      congr 1 <;> ring
    obtain ⟨q, rfl, hq⟩ := one (ho2.trans hv)
    exact ⟨q, ho1, hq⟩
  · obtain ⟨out, ho1, ho2⟩ := C62_aligned_partial (.sparseSum [b, a] [B, A]) [y]
      (.sparseSum _ _ 1 (by simp [rA, rB]) (by simp) (by simp [nA, nB, a, b]) (by simp only [List.forall_mem_cons, a, b]; simp) (by simp [a, b]))
      (.one _ (.sparseSum _ _ (by simp) (by simp [oA, oB])))
    have hv : layerValue (fun v => [y].getD v 0) (.sparseSum [b, a] [B, A]) = [v] := by
      simp only [layerValue, layerValues, vA, vB, Layer.numberOfNodes]
      simp [sparseTerms, a, b, weightedMean, Real.exp_log hw0, Real.exp_log hw2, hv0]
      congr 1 <;> ring
    obtain ⟨q, rfl, hq⟩ := one (ho2.trans hv)
    exact ⟨q, ho1, hq⟩

/-- The class test of the conversion is `isinstance`, so in a level with Gaussian units it also takes the truncated Gaussian units into
their layer, which have a layer of their own: their weight counts twice, and the truncation is lost. -/
theorem C67_counted_twice (env : Env) {shuffle : {α : Type} → List α → List α} (hshuffle : ∀ {α : Type} (l : List α), (shuffle l).Perm l)
    {w : ℝ} (hw0 : 0 < w) (hw1 : w < 1) (μ : ℝ) {σ : ℝ} (hσ : 0 < σ) (I : SimpleInterval) (μ' : ℝ) {σ' : ℝ} (hσ' : 0 < σ') :
    ∃ L, fromNx env shuffle (bells w μ σ I μ' σ') = .ok L ∧ ∀ y, ∃ q, L.logLikelihood [y] = .ok [q] ∧
      q.exp = (w * ProbabilityTheory.gaussianPDFReal μ (Real.toNNReal ((σ + 1 / 100) ^ 2)) y
        + 2 * (1 - w) * ProbabilityTheory.gaussianPDFReal μ' (Real.toNNReal ((σ' + 1 / 100) ^ 2)) y) / (w + 2 * (1 - w)) := by
  obtain ⟨hsum1, hsum2⟩ := bells_sum w μ σ I μ' σ'
  have hbelow := bells_level env hshuffle w μ σ I μ' σ'
  set g := bells w μ σ I μ' σ'
  have hone : ∀ {α : Type} (a : α), shuffle [a] = [a] := fun a => List.perm_singleton.1 (hshuffle [a])
  have hroot : g.root = .ok 0 := rfl
  have hvars : g.circuitVars = .ok {0} := rfl
  have hlev : g.layersFrom 0 = [[0], [1, 2]] := rfl
  have hscope : g.varsOf 4 0 = .ok {0} := rfl
  have t0 : typeOf g 0 = .sum := rfl
  have hlen : g.nodes.length + 1 = 4 := rfl
  have htop : ∀ cs c, sumLayer g [0] [0] cs = .ok c → createLayers env shuffle g (g.varsOf 4) [0] [0] cs = .ok [c] := by
    intro cs c hc
    have hf : ([0] : List Node).filter (fun n => (typeOf g n).isInstance .sum) = [0] := by simp [t0, UnitType.isInstance]
    have hd : ([{0}] : List (Finset Var)).dedup = [{0}] := by decide
    have hd' : (([0] : List Node).map (typeOf g)).dedup = [.sum] := by simp only [List.map_cons, List.map_nil, t0]; decide
    have ht : layersOfType env shuffle g (g.varsOf 4) [0] [0] cs .sum = .ok [c] := by
      simp [layersOfType, hf, layerType, t0, UnitType.isLeaf, bind, Except.bind, pure, Except.pure, hscope, hd, hone, createLayer, hc]
    rw [createLayers, hd', hone]
    simp [bind, Except.bind, pure, Except.pure, ht]
  have hfrom : ∀ cs c, createLayers env shuffle g (g.varsOf 4) [0] [1, 2] [] = .ok cs → sumLayer g [0] [0] cs = .ok c →
      fromNx env shuffle g = .ok c.layer := by
    intro cs c h1 h2
    simp only [fromNx, hroot, hvars, hlev, hlen, bind, Except.bind, Finset.sort_singleton, List.reverse_cons, List.reverse_nil, List.nil_append,
      List.cons_append, List.foldlM_cons, List.foldlM_nil, h1, htop cs c h2, pure, Except.pure]
  rcases hbelow with h | h
  · exact ⟨_, hfrom _ _ h hsum1, fun y => (bells_value hw0 hw1 μ hσ μ' hσ' y).1⟩
  · exact ⟨_, hfrom _ _ h hsum2, fun y => (bells_value hw0 hw1 μ hσ μ' hσ' y).2⟩

/-- The hypotheses of `C67_counted_twice` are met by an even mixture; its parts then have the weights `1/3` and `2/3`. -/
example : (0 : ℝ) < 1 / 2 ∧ (1 / 2 : ℝ) < 1 ∧ (0 : ℝ) < 1 ∧ (1 / 2 : ℝ) / (1 / 2 + 2 * (1 - 1 / 2)) = 1 / 3 := by norm_num

end PM.Props
