import Verif.Spec.FitRun
import Verif.Jax.FitLemmas

/-! Helper lemmas: an update adds to every trained number, and skeleton and trained numbers determine a layer. -/

namespace PM.Jax
open PM.Spec

/-- Updates added to a list of numbers. -/
noncomputable def addUpdates (ps : List LogP) (us : List ℝ) : List LogP := List.zipWith (fun p u => p + LogP.fin u) ps us

theorem addUpdates_append (a b : List LogP) (us : List ℝ) (h : a.length ≤ us.length) :
    addUpdates (a ++ b) us = addUpdates a us ++ addUpdates b (us.drop a.length) := by
  induction a generalizing us with
  | nil => simp [addUpdates]
  | cons x a ih =>
    cases us with
    | nil => simp at h
    | cons u us =>
      have := ih us (by simpa using h)
      simp only [addUpdates] at this ⊢
      simp [this]

/-- `r` is the result of adding `us` to the numbers of `x`. -/
def Adds {α : Type} (num : α → List LogP) (x : α) (us : List ℝ) (r : α × List ℝ) : Prop :=
  (num x).length ≤ us.length → num r.1 = addUpdates (num x) us ∧ r.2 = us.drop (num x).length

/-- One part after the other. -/
theorem adds_append {a b a' b' : List LogP} {us us' us'' : List ℝ} (hl : (a ++ b).length ≤ us.length)
    (h1 : a.length ≤ us.length → a' = addUpdates a us ∧ us' = us.drop a.length)
    (h2 : b.length ≤ us'.length → b' = addUpdates b us' ∧ us'' = us'.drop b.length) :
    a' ++ b' = addUpdates (a ++ b) us ∧ us'' = us.drop (a ++ b).length := by
  rw [List.length_append] at hl
  obtain ⟨rfl, rfl⟩ := h1 (by omega)
  obtain ⟨rfl, rfl⟩ := h2 (by rw [List.length_drop]; omega)
  rw [addUpdates_append _ _ _ (by omega), List.drop_drop, List.length_append]
  exact ⟨rfl, rfl⟩

theorem adds_row : ∀ (ps : List LogP) (us : List ℝ), Adds id ps us (updateRow ps us)
  | [], us => fun _ => by simp [updateRow, addUpdates]
  | p :: ps, [] => fun h => by simp at h
  | p :: ps, u :: us => fun h => by
    obtain ⟨h1, h2⟩ := adds_row ps us (by simpa using h)
    simp only [id, addUpdates] at h1 h2 ⊢
    simp [updateRow, h1, h2, stepLog]

theorem adds_rows : ∀ (m : List (List LogP)) (us : List ℝ), Adds List.flatten m us (updateRows m us)
  | [], us => fun _ => by simp [updateRows, addUpdates]
  | row :: m, us => fun h => by
    simp only [updateRows, List.flatten_cons] at h ⊢
    exact adds_append h (adds_row row us) (adds_rows m _)

theorem adds_matrices : ∀ (ms : List (List (List LogP))) (us : List ℝ),
    Adds (fun ms => ms.flatten.flatten) ms us (updateMatrices ms us)
  | [], us => fun _ => by simp [updateMatrices, addUpdates]
  | m :: ms, us => fun h => by
    simp only [updateMatrices, List.flatten_cons, List.flatten_append] at h ⊢
    exact adds_append h (adds_rows m us) (adds_matrices ms _)

theorem adds_entries : ∀ (es : List (ℕ × ℕ × LogP)) (us : List ℝ),
    Adds (fun es => es.map fun e => e.2.2) es us (updateEntries es us)
  | [], us => fun _ => by simp [updateEntries, addUpdates]
  | e :: es, [] => fun h => by simp at h
  | e :: es, u :: us => fun h => by
    obtain ⟨h1, h2⟩ := adds_entries es us (by simpa using h)
    simp only [addUpdates] at h1 h2 ⊢
    simp [updateEntries, h1, h2, stepLog]

theorem adds_sparse : ∀ (ws : List Coo) (us : List ℝ),
    Adds (fun ws => ws.flatMap fun w => w.entries.map fun e => e.2.2) ws us (updateSparse ws us)
  | [], us => fun _ => by simp [updateSparse, addUpdates]
  | w :: ws, us => fun h => by
    simp only [updateSparse, List.flatMap_cons] at h ⊢
    exact adds_append h (adds_entries w.entries us) (adds_sparse ws _)

theorem adds_locations : ∀ (nodes : List InputNode) (us : List ℝ),
    Adds (fun nodes => nodes.flatMap locationsOf) nodes us (updateLocations nodes us)
  | [], us => fun _ => by simp [updateLocations, addUpdates]
  | f :: nodes, us => fun h => by
    cases f with
    | gaussian l s m =>
      cases us with
      | nil => simp [locationsOf] at h
      | cons u us =>
        obtain ⟨h1, h2⟩ := adds_locations nodes us (by simpa [locationsOf] using h)
        simp only [addUpdates] at h1 h2 ⊢
        simp [updateLocations, locationsOf, h1, h2, LogP.fin_add_fin]
    | uniform a b => simpa [updateLocations, locationsOf] using adds_locations nodes us (by simpa [locationsOf] using h)
    | dirac a b => simpa [updateLocations, locationsOf] using adds_locations nodes us (by simpa [locationsOf] using h)
    | discrete logs => simpa [updateLocations, locationsOf] using adds_locations nodes us (by simpa [locationsOf] using h)

theorem adds_scales : ∀ (nodes : List InputNode) (us : List ℝ),
    Adds (fun nodes => nodes.flatMap logScalesOf) nodes us (updateScales nodes us)
  | [], us => fun _ => by simp [updateScales, addUpdates]
  | f :: nodes, us => fun h => by
    cases f with
    | gaussian l s m =>
      cases us with
      | nil => simp [logScalesOf] at h
      | cons u us =>
        obtain ⟨h1, h2⟩ := adds_scales nodes us (by simpa [logScalesOf] using h)
        simp only [addUpdates] at h1 h2 ⊢
        simp [updateScales, logScalesOf, h1, h2, LogP.fin_add_fin]
    | uniform a b => simpa [updateScales, logScalesOf] using adds_scales nodes us (by simpa [logScalesOf] using h)
    | dirac a b => simpa [updateScales, logScalesOf] using adds_scales nodes us (by simpa [logScalesOf] using h)
    | discrete logs => simpa [updateScales, logScalesOf] using adds_scales nodes us (by simpa [logScalesOf] using h)

theorem adds_discrete : ∀ (nodes : List InputNode) (us : List ℝ),
    Adds (fun nodes => nodes.flatMap logProbabilitiesOf) nodes us (updateDiscrete nodes us)
  | [], us => fun _ => by simp [updateDiscrete, addUpdates]
  | f :: nodes, us => fun h => by
    cases f with
    | discrete logs =>
      simp only [updateDiscrete, List.flatMap_cons, logProbabilitiesOf] at h ⊢
      exact adds_append h (adds_row logs us) (adds_discrete nodes _)
    | uniform a b => simpa [updateDiscrete, logProbabilitiesOf] using adds_discrete nodes us (by simpa [logProbabilitiesOf] using h)
    | dirac a b => simpa [updateDiscrete, logProbabilitiesOf] using adds_discrete nodes us (by simpa [logProbabilitiesOf] using h)
    | gaussian a b c => simpa [updateDiscrete, logProbabilitiesOf] using adds_discrete nodes us (by simpa [logProbabilitiesOf] using h)

theorem locations_kept : ∀ (nodes : List InputNode) (us : List ℝ),
    (updateLocations nodes us).1.flatMap logScalesOf = nodes.flatMap logScalesOf ∧
      (updateLocations nodes us).1.flatMap logProbabilitiesOf = nodes.flatMap logProbabilitiesOf
  | [], _ => ⟨rfl, rfl⟩
  | f :: nodes, us => by
    cases f <;> simp [updateLocations, logScalesOf, logProbabilitiesOf, locations_kept nodes]

theorem scales_kept : ∀ (nodes : List InputNode) (us : List ℝ),
    (updateScales nodes us).1.flatMap locationsOf = nodes.flatMap locationsOf ∧
      (updateScales nodes us).1.flatMap logProbabilitiesOf = nodes.flatMap logProbabilitiesOf
  | [], _ => ⟨rfl, rfl⟩
  | f :: nodes, us => by
    cases f <;> simp [updateScales, locationsOf, logProbabilitiesOf, scales_kept nodes]

theorem discrete_kept : ∀ (nodes : List InputNode) (us : List ℝ),
    (updateDiscrete nodes us).1.flatMap locationsOf = nodes.flatMap locationsOf ∧
      (updateDiscrete nodes us).1.flatMap logScalesOf = nodes.flatMap logScalesOf
  | [], _ => ⟨rfl, rfl⟩
  | f :: nodes, us => by
    cases f <;> simp [updateDiscrete, locationsOf, logScalesOf, discrete_kept nodes]

theorem adds_input (nodes : List InputNode) (us : List ℝ) :
    Adds (fun nodes => nodes.flatMap locationsOf ++ nodes.flatMap logScalesOf ++ nodes.flatMap logProbabilitiesOf) nodes us
      (updateInput nodes us) := by
  intro h
  simp only [updateInput] at h ⊢
  rw [(discrete_kept _ _).1, (discrete_kept _ _).2, (scales_kept _ _).1]
  have h2 := adds_scales (updateLocations nodes us).1 (updateLocations nodes us).2
  have h3 := adds_discrete (updateScales (updateLocations nodes us).1 (updateLocations nodes us).2).1
    (updateScales (updateLocations nodes us).1 (updateLocations nodes us).2).2
  simp only [Adds, (scales_kept _ _).2, (locations_kept _ _).1, (locations_kept _ _).2] at h2 h3
  exact adds_append h (fun h' => adds_append h' (adds_locations nodes us) h2) h3

mutual
theorem adds_layer : ∀ (L : Layer) (us : List ℝ), Adds trainedNumbers L us (L.applyUpdates us)
  | .input v nodes, us => fun h => by
    simp only [Layer.applyUpdates, trainedNumbers] at h ⊢
    exact adds_input nodes us h
  | .sparseSum ws cs, us => fun h => by
    simp only [Layer.applyUpdates, trainedNumbers] at h ⊢
    exact adds_append h (adds_layers cs us) (adds_sparse ws _)
  | .denseSum ws cs, us => fun h => by
    simp only [Layer.applyUpdates, trainedNumbers] at h ⊢
    exact adds_append h (adds_layers cs us) (adds_matrices ws _)
  | .product n es cs, us => fun h => by
    simp only [Layer.applyUpdates, trainedNumbers] at h ⊢
    exact adds_layers cs us h
theorem adds_layers : ∀ (cs : List Layer) (us : List ℝ), Adds trainedNumbersOfAll cs us (applyChildUpdates cs us)
  | [], us => fun _ => by simp [applyChildUpdates, trainedNumbersOfAll, addUpdates]
  | c :: cs, us => fun h => by
    simp only [applyChildUpdates, trainedNumbersOfAll] at h ⊢
    exact adds_append h (adds_layer c us) (adds_layers cs _)
end

/-! ### Skeleton and trained numbers determine the layer -/

theorem append_inj_of_length {α : Type} {a b c d : List α} (hl : a.length = c.length) (h : a ++ b = c ++ d) : a = c ∧ b = d :=
  List.append_inj h hl

theorem length_map_eq {α β : Type} {f : α → β} {l l' : List α} (h : l.map f = l'.map f) : l.length = l'.length := by
  simpa using congrArg List.length h

theorem eq_of_flatten : ∀ {m m' : List (List LogP)}, (m.map fun row => row.map blankLog) = (m'.map fun row => row.map blankLog) →
    m.flatten = m'.flatten → m = m'
  | [], [], _, _ => rfl
  | [], _ :: _, h, _ => by simp at h
  | _ :: _, [], h, _ => by simp at h
  | r :: m, r' :: m', h, h2 => by
    simp only [List.map_cons, List.cons.injEq] at h
    simp only [List.flatten_cons] at h2
    obtain ⟨rfl, h3⟩ := append_inj_of_length (length_map_eq h.1) h2
    rw [eq_of_flatten h.2 h3]

theorem length_flatten_of_blank : ∀ {m m' : List (List LogP)},
    (m.map fun row => row.map blankLog) = (m'.map fun row => row.map blankLog) → m.flatten.length = m'.flatten.length
  | [], [], _ => rfl
  | [], _ :: _, h => by simp at h
  | _ :: _, [], h => by simp at h
  | r :: m, r' :: m', h => by
    simp only [List.map_cons, List.cons.injEq] at h
    simp only [List.flatten_cons, List.length_append, length_map_eq h.1, length_flatten_of_blank h.2]

theorem eq_of_matrices : ∀ {m m' : List (List (List LogP))},
    (m.map fun w => w.map fun row => row.map blankLog) = (m'.map fun w => w.map fun row => row.map blankLog) →
    m.flatten.flatten = m'.flatten.flatten → m = m'
  | [], [], _, _ => rfl
  | [], _ :: _, h, _ => by simp at h
  | _ :: _, [], h, _ => by simp at h
  | r :: m, r' :: m', h, h2 => by
    simp only [List.map_cons, List.cons.injEq] at h
    simp only [List.flatten_cons, List.flatten_append] at h2
    obtain ⟨h3, h4⟩ := append_inj_of_length (length_flatten_of_blank h.1) h2
    rw [eq_of_flatten h.1 h3, eq_of_matrices h.2 h4]

theorem eq_of_entries : ∀ {es es' : List (ℕ × ℕ × LogP)},
    (es.map fun e => (e.1, e.2.1, blankLog e.2.2)) = (es'.map fun e => (e.1, e.2.1, blankLog e.2.2)) →
    (es.map fun e => e.2.2) = (es'.map fun e => e.2.2) → es = es'
  | [], [], _, _ => rfl
  | [], _ :: _, h, _ => by simp at h
  | _ :: _, [], h, _ => by simp at h
  | (i, j, p) :: es, (i', j', p') :: es', h, h2 => by
    simp only [List.map_cons, List.cons.injEq, Prod.mk.injEq] at h h2
    obtain ⟨⟨rfl, rfl, -⟩, h⟩ := h
    obtain ⟨rfl, h2⟩ := h2
    rw [eq_of_entries h h2]

theorem eq_of_sparse : ∀ {ws ws' : List Coo},
    (ws.map fun w => (⟨w.rows, w.cols, w.entries.map fun e => (e.1, e.2.1, blankLog e.2.2)⟩ : Coo)) =
      (ws'.map fun w => ⟨w.rows, w.cols, w.entries.map fun e => (e.1, e.2.1, blankLog e.2.2)⟩) →
    (ws.flatMap fun w => w.entries.map fun e => e.2.2) = (ws'.flatMap fun w => w.entries.map fun e => e.2.2) → ws = ws'
  | [], [], _, _ => rfl
  | [], _ :: _, h, _ => by simp at h
  | _ :: _, [], h, _ => by simp at h
  | ⟨a, b, es⟩ :: ws, ⟨a', b', es'⟩ :: ws', h, h2 => by
    simp only [List.map_cons, List.cons.injEq, Coo.mk.injEq] at h
    obtain ⟨⟨rfl, rfl, he⟩, h⟩ := h
    simp only [List.flatMap_cons] at h2
    obtain ⟨h3, h4⟩ := append_inj_of_length (by simpa using length_map_eq he) h2
    rw [eq_of_entries he h3, eq_of_sparse h h4]

theorem length_of_blankInput : ∀ {nodes nodes' : List InputNode}, nodes.map blankInput = nodes'.map blankInput →
    (nodes.flatMap locationsOf).length = (nodes'.flatMap locationsOf).length ∧
      (nodes.flatMap logScalesOf).length = (nodes'.flatMap logScalesOf).length
  | [], [], _ => ⟨rfl, rfl⟩
  | [], _ :: _, h => by simp at h
  | _ :: _, [], h => by simp at h
  | f :: nodes, f' :: nodes', h => by
    simp only [List.map_cons, List.cons.injEq] at h
    obtain ⟨h1, h2⟩ := length_of_blankInput h.2
    have h0 := h.1
    cases f <;> cases f' <;> simp_all [blankInput, locationsOf, logScalesOf]

theorem eq_of_input : ∀ {nodes nodes' : List InputNode}, nodes.map blankInput = nodes'.map blankInput →
    nodes.flatMap locationsOf = nodes'.flatMap locationsOf → nodes.flatMap logScalesOf = nodes'.flatMap logScalesOf →
    nodes.flatMap logProbabilitiesOf = nodes'.flatMap logProbabilitiesOf → nodes = nodes'
  | [], [], _, _, _, _ => rfl
  | [], _ :: _, h, _, _, _ => by simp at h
  | _ :: _, [], h, _, _, _ => by simp at h
  | f :: nodes, f' :: nodes', h, h1, h2, h3 => by
    simp only [List.map_cons, List.cons.injEq] at h
    have ih := eq_of_input h.2
    have h0 := h.1
    cases f with
    | uniform a b => cases f' <;> simp_all [blankInput, locationsOf, logScalesOf, logProbabilitiesOf]
    | dirac a b => cases f' <;> simp_all [blankInput, locationsOf, logScalesOf, logProbabilitiesOf]
    | gaussian a b c => cases f' <;> simp_all [blankInput, locationsOf, logScalesOf, logProbabilitiesOf]
    | discrete logs =>
      cases f' with
      | discrete logs' =>
        simp only [blankInput, InputNode.discrete.injEq] at h0
        simp only [List.flatMap_cons, logProbabilitiesOf] at h3
        obtain ⟨rfl, h4⟩ := append_inj_of_length (length_map_eq h0) h3
        rw [ih (by simpa [locationsOf] using h1) (by simpa [logScalesOf] using h2) h4]
      | _ => simp [blankInput] at h0

theorem length_of_discrete : ∀ {nodes nodes' : List InputNode}, nodes.map blankInput = nodes'.map blankInput →
    (nodes.flatMap logProbabilitiesOf).length = (nodes'.flatMap logProbabilitiesOf).length
  | [], [], _ => rfl
  | [], _ :: _, h => by simp at h
  | _ :: _, [], h => by simp at h
  | f :: nodes, f' :: nodes', h => by
    simp only [List.map_cons, List.cons.injEq] at h
    have h1 := length_of_discrete h.2
    have h0 : (logProbabilitiesOf f).length = (logProbabilitiesOf f').length := by
      have h0 := h.1
      cases f <;> cases f' <;> simp only [blankInput, InputNode.discrete.injEq, reduceCtorEq] at h0 <;>
        first | rfl | exact length_map_eq h0
    simp only [List.flatMap_cons, List.length_append, h0, h1]

theorem length_of_sparse : ∀ {ws ws' : List Coo},
    (ws.map fun w => (⟨w.rows, w.cols, w.entries.map fun e => (e.1, e.2.1, blankLog e.2.2)⟩ : Coo)) =
      (ws'.map fun w => ⟨w.rows, w.cols, w.entries.map fun e => (e.1, e.2.1, blankLog e.2.2)⟩) →
    (ws.flatMap fun w => w.entries.map fun e => e.2.2).length = (ws'.flatMap fun w => w.entries.map fun e => e.2.2).length
  | [], [], _ => rfl
  | [], _ :: _, h => by simp at h
  | _ :: _, [], h => by simp at h
  | ⟨a, b, es⟩ :: ws, ⟨a', b', es'⟩ :: ws', h => by
    simp only [List.map_cons, List.cons.injEq, Coo.mk.injEq] at h
    simp only [List.flatMap_cons, List.length_append, List.length_map, length_map_eq h.1.2.2, length_of_sparse h.2]

theorem length_of_matrices : ∀ {m m' : List (List (List LogP))},
    (m.map fun w => w.map fun row => row.map blankLog) = (m'.map fun w => w.map fun row => row.map blankLog) →
    m.flatten.flatten.length = m'.flatten.flatten.length
  | [], [], _ => rfl
  | [], _ :: _, h => by simp at h
  | _ :: _, [], h => by simp at h
  | r :: m, r' :: m', h => by
    simp only [List.map_cons, List.cons.injEq] at h
    rw [List.flatten_cons, List.flatten_cons, List.flatten_append, List.flatten_append, List.length_append, List.length_append,
      length_flatten_of_blank h.1, length_of_matrices h.2]

mutual
theorem layer_ext : ∀ L L' : Layer, skeleton L = skeleton L' →
    (trainedNumbers L).length = (trainedNumbers L').length ∧ (trainedNumbers L = trainedNumbers L' → L = L')
  | .input v nodes, .input v' nodes', h => by
    simp only [skeleton, Layer.input.injEq] at h
    obtain ⟨rfl, h⟩ := h
    obtain ⟨h1, h2⟩ := length_of_blankInput h
    refine ⟨by simp only [trainedNumbers, List.length_append, h1, h2, length_of_discrete h], fun hn => ?_⟩
    simp only [trainedNumbers] at hn
    obtain ⟨h3, h4⟩ := append_inj_of_length (by rw [List.length_append, List.length_append, h1, h2]) hn
    obtain ⟨h5, h6⟩ := append_inj_of_length h1 h3
    rw [eq_of_input h h5 h6 h4]
  | .sparseSum ws cs, .sparseSum ws' cs', h => by
    simp only [skeleton, Layer.sparseSum.injEq] at h
    obtain ⟨hw, h⟩ := h
    obtain ⟨h1, h2⟩ := layers_ext cs cs' h
    refine ⟨by simp only [trainedNumbers]; rw [List.length_append, List.length_append, h1, length_of_sparse hw], fun hn => ?_⟩
    simp only [trainedNumbers] at hn
    obtain ⟨h3, h4⟩ := append_inj_of_length h1 hn
    rw [h2 h3, eq_of_sparse hw h4]
  | .denseSum ws cs, .denseSum ws' cs', h => by
    simp only [skeleton, Layer.denseSum.injEq] at h
    obtain ⟨hw, h⟩ := h
    obtain ⟨h1, h2⟩ := layers_ext cs cs' h
    refine ⟨by simp only [trainedNumbers]; rw [List.length_append, List.length_append, h1, length_of_matrices hw], fun hn => ?_⟩
    simp only [trainedNumbers] at hn
    obtain ⟨h3, h4⟩ := append_inj_of_length h1 hn
    rw [h2 h3, eq_of_matrices hw h4]
  | .product n es cs, .product n' es' cs', h => by
    simp only [skeleton, Layer.product.injEq] at h
    obtain ⟨rfl, rfl, h⟩ := h
    obtain ⟨h1, h2⟩ := layers_ext cs cs' h
    refine ⟨by simp only [trainedNumbers, h1], fun hn => ?_⟩
    simp only [trainedNumbers] at hn
    rw [h2 hn]
  | .input .., .sparseSum .., h | .input .., .denseSum .., h | .input .., .product .., h
  | .sparseSum .., .input .., h | .sparseSum .., .denseSum .., h | .sparseSum .., .product .., h
  | .denseSum .., .input .., h | .denseSum .., .sparseSum .., h | .denseSum .., .product .., h
  | .product .., .input .., h | .product .., .sparseSum .., h | .product .., .denseSum .., h => by simp [skeleton] at h
theorem layers_ext : ∀ cs cs' : List Layer, skeletons cs = skeletons cs' →
    (trainedNumbersOfAll cs).length = (trainedNumbersOfAll cs').length ∧ (trainedNumbersOfAll cs = trainedNumbersOfAll cs' → cs = cs')
  | [], [], _ => ⟨rfl, fun _ => rfl⟩
  | [], _ :: _, h => by simp [skeletons] at h
  | _ :: _, [], h => by simp [skeletons] at h
  | c :: cs, c' :: cs', h => by
    simp only [skeletons, List.cons.injEq] at h
    obtain ⟨h1, h2⟩ := layer_ext c c' h.1
    obtain ⟨h3, h4⟩ := layers_ext cs cs' h.2
    refine ⟨by simp only [trainedNumbersOfAll, List.length_append, h1, h3], fun hn => ?_⟩
    simp only [trainedNumbersOfAll] at hn
    obtain ⟨h5, h6⟩ := append_inj_of_length h1 hn
    rw [h2 h5, h4 h6]
end

/-! ### Runs -/

theorem fitLoop_run {S : Type} (opt : Optimizer S) (loss : Layer → Except PyErr LogP) (grad : Layer → List ℝ) (hu : FullUpdates opt) :
    ∀ (epochs : ℕ) (L : Layer) (s : S) {L' : Layer}, fitLoop opt loss grad epochs L s = .ok L' →
      ∃ circuits : ℕ → Layer, ∃ states : ℕ → S, circuits 0 = L ∧ states 0 = s ∧ circuits epochs = L' ∧ (∀ k < epochs,
        states (k + 1) = (opt.update (grad (circuits k)) (states k) (circuits k)).2 ∧
        skeleton (circuits (k + 1)) = skeleton (circuits k) ∧
        trainedNumbers (circuits (k + 1)) = List.zipWith (fun p u => p + LogP.fin u) (trainedNumbers (circuits k))
          (opt.update (grad (circuits k)) (states k) (circuits k)).1)
  | 0, L, s, L', h => by
    rw [fitLoop] at h
    cases h
    exact ⟨fun _ => L, fun _ => s, rfl, rfl, rfl, fun k hk => absurd hk (by omega)⟩
  | epochs + 1, L, s, L', h => by
    rw [fitLoop] at h
    cases hl : loss L with
    | error e => simp [hl, bind, Except.bind] at h
    | ok v =>
      simp only [hl, bind, Except.bind] at h
      obtain ⟨circuits, states, h1, h2, h3, h4⟩ := fitLoop_run opt loss grad hu epochs _ _ h
      refine ⟨fun k => Nat.casesOn k L circuits, fun k => Nat.casesOn k s states, rfl, rfl, h3, ?_⟩
      intro k hk
      cases k with
      | zero =>
        refine ⟨h2, ?_, ?_⟩
        · change skeleton (circuits 0) = skeleton L
          rw [h1, skeleton_applyUpdates]
        · change trainedNumbers (circuits 0) = _
          rw [h1, (adds_layer L _ (hu _ _ _).ge).1]
          rfl
      | succ k => exact h4 k (by omega)

end PM.Jax
