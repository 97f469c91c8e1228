import Verif.Jax.ToNxMain
import Verif.Jax.ToNxFinal
import Verif.Props.Layers
import Verif.Props.Queries

/-! # C68: the conversion of layers to a circuit -/

namespace PM.Props
open PM.Jax Graph Spec LayerEx

/-- The value of the variable with index `i`. -/
noncomputable def byIndex (vars : List Var) (x : Var → ℝ) : ℕ → ℝ := fun i => x (vars.getD i 0)

/-- **C68, the full statement**: layers that fit together and end in a single node can be converted to a circuit, and the circuit gives
every assignment the likelihood that the layers give it. -/
def C68_full : Prop :=
  ∀ (vars : List Var) (progress : Bool) (L : Layer), Regular L → SmoothLayer L → Tidy vars.length L → L.numberOfNodes = 1 →
    ∃ g, toNx vars progress L = .ok g ∧ ∀ x, InStates (byIndex vars x) L → ∀ m,
      ∃ q, (g.logLikelihood m x).2 = .ok q ∧ layerValue (byIndex vars x) L = [q.exp]

theorem layerValue_congr {k : ℕ} {a a' : ℕ → ℝ} : ∀ L : Layer, Tidy k L → (∀ i < k, a i = a' i) → layerValue a L = layerValue a' L := by
  refine Layer.induct fun L ih hT h => ?_
  have hk : layerValues a L.kids = layerValues a' L.kids := by
    rw [layerValues_eq, layerValues_eq]
    exact List.map_congr_left fun c hc => ih c hc (tidy_kids hT c hc) h
  cases L with
  | input v nodes =>
    cases hT with
    | input _ _ hv _ => simp only [layerValue, h v hv]
  | sparseSum ws cs =>
    have hk : layerValues a cs = layerValues a' cs := hk
    simp only [layerValue, hk]
  | denseSum ws cs =>
    have hk : layerValues a cs = layerValues a' cs := hk
    simp only [layerValue, hk]
  | product n es cs =>
    have hk : layerValues a cs = layerValues a' cs := hk
    simp only [layerValue, hk]

/-- C68 for layers without dense sum layers, and without Dirac layers if there is no progress bar; the circuit is moreover well formed and
smooth, and its log-likelihood is the one of the layers where these can be evaluated (C62).  Missing: dense sum layers, for which the claim
is false (`C68_full_false`), and Dirac layers without a progress bar, for which the conversion raises (`C68_dirac`). -/
theorem C68_to_nx_partial {vars : List Var} {progress : Bool} {L : Layer} (hR : Regular L) (hS : SmoothLayer L) (hT : Tidy vars.length L)
    (hD : NoDense progress L) (h1 : L.numberOfNodes = 1) :
    ∃ g, toNx vars progress L = .ok g ∧ Layered g 0 ∧ (∃ sc, Scoped g sc) ∧ (∀ n d, g.kind? n = some (.leaf d) → d.Valid) ∧
      ∀ x, InStates (byIndex vars x) L → ∀ m,
        ∃ q, (g.logLikelihood m x).2 = .ok q ∧ layerValue (byIndex vars x) L = [q.exp] ∧
          (Aligned vars.length L → L.logLikelihood (vars.map x) = .ok [q]) := by
  refine ⟨circuitOf vars L, toNx_eq hR hT hD, layered_circuitOf hR hT hD h1, ⟨_, scoped_circuitOf hR hT hD hS⟩, valid_circuitOf hR hT hD, ?_⟩
  intro x hx m
  obtain ⟨q, hq1, hq2, -⟩ := C01_loglikelihood (layered_circuitOf hR hT hD h1) (scoped_circuitOf hR hT hD hS) (valid_circuitOf hR hT hD) x
    (value_circuitOf hR hT hD x hx) m
  have hv : layerValue (byIndex vars x) L = [q.exp] := by
    have hlen := layerValue_length (byIndex vars x) L
    rw [h1] at hlen
    have hseg := (seg_collect (own := fun _ => layerValue (byIndex vars x)) (fun _ L => layerValue_length _ L)
      (seg_getD (L.collect (fun _ => layerValue (byIndex vars x)) 0) 0)).1 0 (by rw [hlen]; omega)
    obtain ⟨y, hy⟩ := List.length_eq_one_iff.1 hlen
    rw [hy]
    simp only [hy] at hseg
    rw [hq2]
    exact congrArg (fun y => [y]) hseg.symm
  refine ⟨q, hq1, hv, fun ha => ?_⟩
  obtain ⟨out, ho1, ho2⟩ := C62_aligned_partial L (vars.map x) hR (by simpa using ha)
  have he : layerValue (fun v => (vars.map x).getD v 0) L = layerValue (byIndex vars x) L := by
    apply layerValue_congr _ hT
    intro i hi
    simp only [byIndex]
    rw [List.getD_eq_getElem _ _ (by simpa using hi), List.getD_eq_getElem _ _ hi, List.getElem_map]
  rw [he, hv] at ho2
  match out, ho1, ho2 with
  | [o], ho1, ho2 =>
    simp only [List.map_cons, List.map_nil, List.cons.injEq, and_true] at ho2
    rw [ho1, LogP.exp_injective ho2]
  | [], _, ho2 => simp at ho2
  | _ :: _ :: _, _, ho2 => simp at ho2

/-- A layer with a Dirac node, or above one. -/
inductive DiracBelow : Layer → Prop where
  | input (v : ℕ) (nodes : List InputNode) (location cap : ℝ) (h : .dirac location cap ∈ nodes) : DiracBelow (.input v nodes)
  | sparseSum (ws : List Coo) (cs : List Layer) (c : Layer) (h : c ∈ cs) (below : DiracBelow c) : DiracBelow (.sparseSum ws cs)
  | denseSum (ws : List (List (List LogP))) (cs : List Layer) (c : Layer) (h : c ∈ cs) (below : DiracBelow c) : DiracBelow (.denseSum ws cs)
  | product (n : ℕ) (es : List (List (ℕ × ℕ))) (cs : List Layer) (c : Layer) (h : c ∈ cs) (below : DiracBelow c) :
      DiracBelow (.product n es cs)

theorem childrenToNx_ok {vars : List Var} {progress : Bool} : ∀ {cs : List Layer} {g : Circuit} {out : Circuit × List (List Node)},
    childrenToNx vars progress cs g = .ok out → ∀ c ∈ cs, ∃ g' out', c.toNx vars progress g' = .ok out'
  | [], _, _, _, c, hc => by simp at hc
  | c' :: cs, g, out, h, c, hc => by
    simp only [childrenToNx, bind, Except.bind] at h
    split at h
    · cases h
    rename_i p hp
    split at h
    · cases h
    rename_i q hq
    rcases List.mem_cons.1 hc with rfl | hc
    · exact ⟨_, _, hp⟩
    · exact childrenToNx_ok hq c hc

/-- Without a progress bar, layers with a Dirac node anywhere cannot be converted. -/
theorem C68_dirac (vars : List Var) {L : Layer} (h : DiracBelow L) : ¬ ∃ g, toNx vars false L = .ok g := by
  suffices H : ∀ g out, L.toNx vars false g ≠ .ok out by
    rintro ⟨g, hg⟩
    simp only [toNx, bind, Except.bind] at hg
    split at hg
    · cases hg
    rename_i p hp
    exact H _ _ hp
  induction h with
  | input v nodes location cap h =>
    intro g out hout
    have hany : nodes.any InputNode.isDirac = true := List.any_eq_true.2 ⟨_, h, rfl⟩
    simp only [Layer.toNx, bind, Except.bind, hany] at hout
    split at hout <;> simp at hout
  | sparseSum ws cs c hc _ ih =>
    intro g out hout
    simp only [Layer.toNx, bind, Except.bind] at hout
    split at hout
    · cases hout
    split at hout
    · cases hout
    rename_i q hq
    obtain ⟨g', out', h'⟩ := childrenToNx_ok hq c hc
    exact ih g' out' h'
  | denseSum ws cs c hc _ ih =>
    intro g out hout
    simp only [Layer.toNx, bind, Except.bind] at hout
    split at hout
    · cases hout
    split at hout
    · cases hout
    rename_i q hq
    obtain ⟨g', out', h'⟩ := childrenToNx_ok hq c hc
    exact ih g' out' h'
  | product n es cs c hc _ ih =>
    intro g out hout
    simp only [Layer.toNx, bind, Except.bind] at hout
    split at hout
    · cases hout
    split at hout
    · cases hout
    rename_i q hq
    obtain ⟨g', out', h'⟩ := childrenToNx_ok hq c hc
    exact ih g' out' h'

/-! ### Dense sum layers -/

/-- A dense sum layer is converted like the sparse sum layer with the exponentials of its log weights as log weights. -/
theorem dense_as_sparse (vars : List Var) (progress : Bool) (a b : LogP) (c : Layer) :
    toNx vars progress (.denseSum [[[a, b]]] [c])
      = toNx vars progress (.sparseSum [⟨1, 2, [(0, 0, .fin a.exp), (0, 1, .fin b.exp)]⟩] [c]) := by
  simp only [toNx, Layer.toNx]
  rfl

theorem regular_two (w : Coo) (hw : w.rows = 1 ∧ w.cols = 2) (a b : LogP) (ha : a ≠ .negInf) (he : w.entries = [(0, 0, a), (0, 1, b)])
    (index : ℕ) (u v : InputNode) : Regular (.sparseSum [w] [.input index [u, v]]) := by
  refine .sparseSum _ _ 1 ?_ (by simp) (.cons hw .nil) ?_ ?_
  · intro c hc; simp only [List.mem_singleton] at hc; subst hc; exact .input _ _
  · intro w' hw' e hmem
    simp only [List.mem_singleton] at hw'
    subst hw'
    rw [he] at hmem
    simp only [List.mem_cons, List.not_mem_nil, or_false] at hmem
    rcases hmem with rfl | rfl <;> simp [hw]
  · intro i hi
    exact ⟨w, by simp, (0, 0, a), by simp [he], by simp only; omega, ha⟩

/-- The mixture of two points with the weights 1 and 3, as a dense sum layer. -/
noncomputable def denseMixture : Layer := .denseSum [[[.fin 0, .fin (Real.log 3)]]] [points 0 5 7]

/-- What the conversion makes of it. -/
noncomputable def wrongMixture : Layer := .sparseSum [⟨1, 2, [(0, 0, .fin 1), (0, 1, .fin 3)]⟩] [points 0 5 7]

theorem C68_full_false : ¬ C68_full := by
  intro h
  obtain ⟨g, h1, h2⟩ := h [0] true denseMixture (by
      refine .denseSum _ _ 1 ?_ (by simp) (.cons ⟨rfl, by simp [points, Layer.numberOfNodes]⟩ .nil) ?_
      · intro c hc; simp only [List.mem_singleton] at hc; subst hc; exact .input _ _
      · intro i hi
        obtain rfl : i = 0 := by omega
        exact ⟨_, List.mem_singleton.2 rfl, .fin 0, by simp, by simp⟩) (by
      refine .denseSum _ _ ?_ ?_
      · intro c hc; simp only [List.mem_singleton] at hc; subst hc; exact .input _ _
      · simp [layerScopes, nodeScopes, points, Layer.numberOfNodes, unionOf]) (by
      refine .denseSum _ _ ?_ (by simp [Layer.numberOfNodes])
      intro c hc; simp only [List.mem_singleton] at hc; subst hc; exact .input _ _ (by simp) (by simp [at', ValidInput])) rfl
  have hw : toNx [0] true wrongMixture = .ok g := by
    rw [← h1, denseMixture, dense_as_sparse, wrongMixture, LogP.exp_fin, LogP.exp_fin, Real.exp_zero, Real.exp_log (by norm_num)]
  obtain ⟨g', h3, -, -, -, h4⟩ := C68_to_nx_partial (vars := [0]) (progress := true) (L := wrongMixture)
    (regular_two _ ⟨rfl, rfl⟩ _ _ (by simp) rfl _ _ _)
    (by
      refine .sparseSum _ _ ?_ ?_
      · intro c hc; simp only [List.mem_singleton] at hc; subst hc; exact .input _ _
      · simp [layerScopes, nodeScopes, points, Layer.numberOfNodes, unionOf]
        rintro _ _ _ (⟨rfl, rfl, -⟩ | ⟨rfl, rfl, -⟩) <;> simp)
    (by
      refine .sparseSum _ _ ?_ (by simp) ?_
      · intro c hc; simp only [List.mem_singleton] at hc; subst hc; exact .input _ _ (by simp) (by simp [at', ValidInput])
      · intro p hp j hj
        simp only [List.zip_cons_cons, List.zip_nil_right, List.mem_singleton] at hp
        subst hp
        have hj : j < 2 := hj
        interval_cases j <;> simp)
    (by
      refine .sparseSum _ _ ?_
      intro c hc; simp only [List.mem_singleton] at hc; subst hc; exact .input _ _ (by simp)) rfl
  rw [hw] at h3
  injection h3 with h3
  subst h3
  have hin : ∀ a, InStates a (points 0 5 7) := fun a => .input _ _ (by simp [at'])
  obtain ⟨q, hq1, hq2⟩ := h2 (fun _ => 7) (.denseSum _ _ (by simpa using hin _)) (fun _ => none)
  obtain ⟨q', hq1', hq2', -⟩ := h4 (fun _ => 7) (.sparseSum _ _ (by simpa using hin _)) (fun _ => none)
  rw [hq1] at hq1'
  injection hq1' with hqq
  rw [← hqq, ← hq2] at hq2'
  simp [wrongMixture, denseMixture, layerValue, layerValues, points, at', Layer.numberOfNodes, weightedMean, sparseTerms, denseTerms,
    InputNode.logDensity, byIndex, Real.exp_log] at hq2'
  have e1 := Real.add_one_le_exp (1 : ℝ)
  have e3 : Real.exp 3 = Real.exp 1 * (Real.exp 1 * Real.exp 1) := by
    rw [← Real.exp_add, ← Real.exp_add]
    norm_num
  rw [e3, div_eq_iff (by positivity)] at hq2'
  nlinarith [Real.exp_pos 1, mul_le_mul e1 e1 (by norm_num) (Real.exp_pos 1).le]

/-! ### A concrete case -/

/-- A mixture (weights 1 : 3) of two products of a uniform or normal distribution and a distribution over two states. -/
noncomputable def mixedLayers : Layer :=
  .sparseSum [⟨1, 2, [(0, 0, .fin 0), (0, 1, .fin (Real.log 3))]⟩]
    [.product 2 [[(0, 0), (1, 1)], [(0, 0), (1, 0)]]
      [.input 0 [.uniform 0 1, .gaussian 0 0 (1 / 100)], .input 1 [.discrete [.fin 0, .fin (Real.log 3)]]]]

/-- The hypotheses of C68 are met by `mixedLayers`. -/
example : Regular mixedLayers ∧ SmoothLayer mixedLayers ∧ Tidy 2 mixedLayers ∧ NoDense false mixedLayers ∧ mixedLayers.numberOfNodes = 1 ∧
    InStates (byIndex [3, 7] fun v => if v = 7 then 1 else 1 / 2) mixedLayers ∧ Aligned 2 mixedLayers := by
  refine ⟨?_, ?_, ?_, ?_, rfl, ?_, ?_⟩
  · refine .sparseSum _ _ 1 ?_ (by simp) (.cons ⟨rfl, rfl⟩ .nil) (by simp; rintro _ _ _ (⟨rfl, rfl, -⟩ | ⟨rfl, rfl, -⟩) <;> simp) ?_
    · simp only [List.mem_singleton, forall_eq]
      refine .product _ _ _ ?_ (.cons ?_ (.cons ?_ .nil))
      · simp only [List.mem_cons, List.not_mem_nil, or_false, forall_eq_or_imp, forall_eq]
        exact ⟨.input _ _, .input _ _⟩
      · simp [Layer.numberOfNodes]
      · simp [Layer.numberOfNodes]
    · intro i hi
      exact ⟨_, List.mem_singleton.2 rfl, (0, 0, .fin 0), by simp, by simp only; omega, by simp⟩
  · refine .sparseSum _ _ ?_ ?_
    · simp only [List.mem_singleton, forall_eq]
      refine .product _ _ _ ?_
      simp only [List.mem_cons, List.not_mem_nil, or_false, forall_eq_or_imp, forall_eq]
      exact ⟨.input _ _, .input _ _⟩
    · simp [layerScopes, nodeScopes, Layer.numberOfNodes, unionOf, List.range_succ]
      rintro _ _ _ (⟨rfl, rfl, -⟩ | ⟨rfl, rfl, -⟩) <;> simp
  · refine .sparseSum _ _ ?_ (by simp) ?_
    · simp only [List.mem_singleton, forall_eq]
      refine .product _ _ _ ?_ (by simp) ?_
      · simp only [List.mem_cons, List.not_mem_nil, or_false, forall_eq_or_imp, forall_eq]
        exact ⟨.input _ _ (by simp) (by norm_num [ValidInput]), .input _ _ (by simp) (by simp [ValidInput])⟩
      · simp only [List.zip_cons_cons, List.zip_nil_right, List.mem_cons, List.not_mem_nil, or_false, forall_eq_or_imp, forall_eq,
          Layer.numberOfNodes, List.length_cons, List.length_nil]
        refine ⟨fun j hj => ?_, fun j hj => ?_⟩ <;> interval_cases j <;> simp
    · intro p hp j hj
      simp only [List.zip_cons_cons, List.zip_nil_right, List.mem_singleton] at hp
      subst hp
      have hj : j < 2 := hj
      interval_cases j <;> simp
  · refine .sparseSum _ _ ?_
    simp only [List.mem_singleton, forall_eq]
    refine .product _ _ _ ?_
    simp only [List.mem_cons, List.not_mem_nil, or_false, forall_eq_or_imp, forall_eq]
    exact ⟨.input _ _ (by simp [InputNode.isDirac]), .input _ _ (by simp [InputNode.isDirac])⟩
  · refine .sparseSum _ _ ?_
    simp only [List.mem_singleton, forall_eq]
    refine .product _ _ _ ?_
    simp only [List.mem_cons, List.not_mem_nil, or_false, forall_eq_or_imp, forall_eq]
    refine ⟨.input _ _ (by simp), .input _ _ ?_⟩
    intro logs hl
    simp only [List.mem_singleton, InputNode.discrete.injEq] at hl
    subst hl
    exact ⟨1, by simp, by simp [byIndex]⟩
  · refine .sparseSum _ _ _ ?_
    simp only [List.mem_singleton, forall_eq]
    refine .product _ _ _ _ ?_ ?_
    · intro c hc hno
      simp only [List.mem_cons, List.not_mem_nil, or_false] at hc
      rcases hc with rfl | rfl
      · exact absurd ⟨0, by omega, .input _⟩ hno
      · exact absurd ⟨1, by omega, .input _⟩ hno
    · intro c hc hno
      simp only [List.mem_cons, List.not_mem_nil, or_false] at hc
      rcases hc with rfl | rfl
      · exact absurd ⟨0, by omega, .input _⟩ hno
      · exact absurd ⟨1, by omega, .input _⟩ hno

/-- The hypothesis of `C68_dirac` is met by the mixture of two points. -/
example : DiracBelow (mixture 0 5 7) := .sparseSum _ _ _ (List.mem_singleton.2 rfl) (.input _ _ 5 1 (by simp [at']))

end PM.Props
