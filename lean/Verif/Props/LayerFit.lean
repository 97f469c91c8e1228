import Verif.Props.LayerMass
import Verif.Jax.FitPositive
import Verif.Jax.FitNumbers

/-!
# C98, C99: training of layered circuits
-/

namespace PM.Props
open PM.Jax PM.Spec

theorem regular_of_skeleton {L L' : Layer} (h : skeleton L' = skeleton L) (hR : Regular L) : Regular L' :=
  (skeleton_regular L').1 (h ▸ (skeleton_regular L).2 hR)

theorem smooth_of_skeleton {L L' : Layer} (h : skeleton L' = skeleton L) (hR : SmoothLayer L) : SmoothLayer L' :=
  (skeleton_smooth L').1 (h ▸ (skeleton_smooth L).2 hR)

theorem decomposable_of_skeleton {L L' : Layer} (h : skeleton L' = skeleton L) (hR : DecomposableLayer L) : DecomposableLayer L' :=
  (skeleton_decomposable L').1 (h ▸ (skeleton_decomposable L).2 hR)

theorem typed_of_skeleton {types : ℕ → VarType} {L L' : Layer} (h : skeleton L' = skeleton L) (hR : TypedInputs types L) :
    TypedInputs types L' := (skeleton_typed types L').1 (h ▸ (skeleton_typed types L).2 hR)

theorem aligned_of_skeleton {k : ℕ} {L L' : Layer} (h : skeleton L' = skeleton L) (hR : Aligned k L) : Aligned k L' :=
  (skeleton_aligned L' k).1 (h ▸ (skeleton_aligned L k).2 hR)

/-- What must hold of the circuit `L'` that training makes of the circuit `L`: nothing but the trained numbers has changed, every node is
still a probability distribution over the same variables, and exactly the same points are possible. -/
structure Trained (types : ℕ → VarType) (L L' : Layer) : Prop where
  skeleton : skeleton L' = skeleton L
  normalized : ∀ i < L.numberOfNodes, mass types ((nodeScopes L).getD i ∅) (fun a => (layerValue a L').getD i 0) = 1
  possible : ∀ (a : ℕ → ℝ) (i : ℕ), 0 < (layerValue a L').getD i 0 ↔ 0 < (layerValue a L).getD i 0

theorem trained_of_skeleton {types : ℕ → VarType} {L L' : Layer} (hR : Regular L) (hS : SmoothLayer L) (hD : DecomposableLayer L)
    (hT : TypedInputs types L) (h : skeleton L' = skeleton L) : Trained types L L' := by
  refine ⟨h, fun i hi => ?_, possible_of_skeleton h hT⟩
  rw [← skeleton_nodeScopes L, ← h, skeleton_nodeScopes L']
  refine C71_described types (regular_of_skeleton h hR) (smooth_of_skeleton h hS) (decomposable_of_skeleton h hD) (typed_of_skeleton h hT) ?_
  rw [← skeleton_numberOfNodes L', h, skeleton_numberOfNodes]
  exact hi

/-- C98: whatever the optimizer, the gradients, the data and the number of epochs are. -/
theorem C98_training {S : Type} (types : ℕ → VarType) {L L' : Layer} (hR : Regular L) (hS : SmoothLayer L) (hD : DecomposableLayer L)
    (hT : TypedInputs types L) (opt : Optimizer S) (grad : Layer → List ℝ) (data : List (List ℝ)) (epochs : ℕ)
    (h : L.fit opt grad data epochs = .ok L') : Trained types L L' :=
  trained_of_skeleton hR hS hD hT (skeleton_fitLoop _ _ _ _ _ _ _ h)

/-- The same for training with labels. -/
theorem C98_classifier {S : Type} (types : ℕ → VarType) {L L' : Layer} (hR : Regular L) (hS : SmoothLayer L) (hD : DecomposableLayer L)
    (hT : TypedInputs types L) (opt : Optimizer S) (grad : Layer → List ℝ) (data : List (List ℝ)) (labels : List ℕ) (epochs : ℕ)
    (h : L.fitClassifier opt grad data labels epochs = .ok L') : Trained types L L' :=
  trained_of_skeleton hR hS hD hT (skeleton_fitLoop _ _ _ _ _ _ _ h)

/-- C98: what training does.  If the optimizer returns one update per trained number, the result is the last circuit of a training run:
in every epoch the updates are added to the trained numbers and nothing else changes. -/
theorem C98_run {S : Type} {L L' : Layer} (opt : Optimizer S) (hu : FullUpdates opt) (grad : Layer → List ℝ) (data : List (List ℝ))
    (epochs : ℕ) (h : L.fit opt grad data epochs = .ok L') :
    ∃ circuits states, TrainingRun opt grad L epochs circuits states ∧ circuits epochs = L' := by
  obtain ⟨circuits, states, h1, h2, h3, h4⟩ := fitLoop_run opt _ grad hu epochs L _ h
  exact ⟨circuits, states, ⟨h1, h2, fun k hk => (h4 k hk).1, fun k hk => (h4 k hk).2.1, fun k hk => (h4 k hk).2.2⟩, h3⟩

/-- The same for training with labels. -/
theorem C98_run_classifier {S : Type} {L L' : Layer} (opt : Optimizer S) (hu : FullUpdates opt) (grad : Layer → List ℝ)
    (data : List (List ℝ)) (labels : List ℕ) (epochs : ℕ) (h : L.fitClassifier opt grad data labels epochs = .ok L') :
    ∃ circuits states, TrainingRun opt grad L epochs circuits states ∧ circuits epochs = L' := by
  obtain ⟨circuits, states, h1, h2, h3, h4⟩ := fitLoop_run opt _ grad hu epochs L _ h
  exact ⟨circuits, states, ⟨h1, h2, fun k hk => (h4 k hk).1, fun k hk => (h4 k hk).2.1, fun k hk => (h4 k hk).2.2⟩, h3⟩

/-- There is only one training run. -/
theorem C98_run_unique {S : Type} {L : Layer} {opt : Optimizer S} {grad : Layer → List ℝ} {epochs : ℕ} {circuits circuits' : ℕ → Layer}
    {states states' : ℕ → S} (h : TrainingRun opt grad L epochs circuits states) (h' : TrainingRun opt grad L epochs circuits' states') :
    ∀ k ≤ epochs, circuits k = circuits' k ∧ states k = states' k
  | 0, _ => ⟨by rw [h.start, h'.start], by rw [h.init, h'.init]⟩
  | k + 1, hk => by
    obtain ⟨h1, h2⟩ := C98_run_unique h h' k (by omega)
    refine ⟨(layer_ext _ _ ?_).2 ?_, ?_⟩
    · rw [h.structure_kept k (by omega), h'.structure_kept k (by omega), h1]
    · rw [h.numbers k (by omega), h'.numbers k (by omega), h1, h2]
    · rw [h.state k (by omega), h'.state k (by omega), h1, h2]

theorem mapM_of_forall {α β : Type} {f : α → Except PyErr β} {P : α → β → Prop} : ∀ l : List α, (∀ x ∈ l, ∃ y, f x = .ok y ∧ P x y) →
    ∃ r, l.mapM f = .ok r ∧ List.Forall₂ P l r
  | [], _ => ⟨[], rfl, .nil⟩
  | x :: l, h => by
    obtain ⟨y, hy, hP⟩ := h x (by simp)
    obtain ⟨r, hr, hF⟩ := mapM_of_forall l fun z hz => h z (by simp [hz])
    refine ⟨y :: r, ?_, .cons hP hF⟩
    simp [List.mapM_cons, hy, hr, bind, Except.bind, pure, Except.pure]

/-- What the circuit computes for a batch. -/
theorem batch_ok {L : Layer} {k : ℕ} (hR : Regular L) (hA : Aligned k L) {data : List (List ℝ)} (hrows : ∀ row ∈ data, row.length = k) :
    ∃ p, L.batch data = .ok p ∧ p.map (List.map LogP.exp) = data.map (valuesAt L) := by
  obtain ⟨r, hr, hF⟩ := mapM_of_forall (f := L.logLikelihood) (P := fun row out => out.map LogP.exp = valuesAt L row) data fun row hrow =>
    C62_aligned_partial L row hR (by rw [hrows row hrow]; exact hA)
  refine ⟨r, hr, ?_⟩
  clear hr hrows
  induction hF with
  | nil => rfl
  | cons h _ ih => rw [List.map_cons, List.map_cons, h, ih]

theorem sum_negInf : ∀ l : List LogP, (∃ p ∈ l, p = .negInf) → l.foldr (· + ·) 0 = LogP.negInf
  | [], h => by simp at h
  | p :: l, h => by
    by_cases hp : p = .negInf
    · subst hp
      simp
    · have : ∃ q ∈ l, q = LogP.negInf := by
        obtain ⟨q, hq, h⟩ := h
        rcases List.mem_cons.1 hq with rfl | hq
        · exact absurd h hp
        · exact ⟨q, hq, h⟩
      rw [List.foldr_cons, sum_negInf l this, LogP.add_negInf]

theorem sum_fin : ∀ l : List LogP, (∀ p ∈ l, p ≠ .negInf) → l.foldr (· + ·) 0 = LogP.fin ((l.map LogP.exp).map Real.log).sum
  | [], _ => rfl
  | .negInf :: l, h => absurd rfl (h _ (by simp))
  | .fin x :: l, h => by
    rw [List.foldr_cons, sum_fin l fun p hp => h p (by simp [hp])]
    simp

theorem meanLog_eq (l : List LogP) : meanLog l = meanOfLogs (l.map LogP.exp) := by
  unfold meanLog meanOfLogs
  by_cases h : ∀ p ∈ l, p ≠ LogP.negInf
  · rw [sum_fin l h, if_pos]
    · simp
    · intro x hx
      obtain ⟨p, hp, rfl⟩ := List.mem_map.1 hx
      exact LogP.exp_pos.2 (h p hp)
  · push Not at h
    rw [sum_negInf l h, if_neg]
    obtain ⟨p, hp, rfl⟩ := h
    intro h2
    exact absurd (h2 _ (List.mem_map_of_mem hp)) (by simp)

/-- What `fit` maximises is the mean log-likelihood of the rows, over all nodes of the root layer. -/
theorem C98_objective {L : Layer} {k : ℕ} (hR : Regular L) (hA : Aligned k L) {data : List (List ℝ)} (hrows : ∀ row ∈ data, row.length = k) :
    L.averageLogLikelihood data = .ok (meanOfLogs (data.flatMap (valuesAt L))) := by
  obtain ⟨p, hp, hv⟩ := batch_ok hR hA hrows
  rw [Layer.averageLogLikelihood]
  simp only [hp, bind, Except.bind]
  rw [meanLog_eq, List.map_flatten, hv]
  rfl

/-- Training does not fail, and afterwards the computed likelihood is normalized and zero for the same points. -/
theorem C98_computed {S : Type} (types : ℕ → VarType) {L : Layer} {k : ℕ} (hR : Regular L) (hS : SmoothLayer L) (hD : DecomposableLayer L)
    (hT : TypedInputs types L) (hA : Aligned k L) (opt : Optimizer S) (grad : Layer → List ℝ) {data : List (List ℝ)}
    (hrows : ∀ row ∈ data, row.length = k) (epochs : ℕ) :
    ∃ L', L.fit opt grad data epochs = .ok L' ∧ Trained types L L' ∧ ∀ i < L.numberOfNodes, (nodeScopes L).getD i ∅ = Finset.range k →
      mass types (Finset.range k) (computed L' k i) = 1 ∧ ∀ a, computed L' k i a = 0 ↔ computed L k i a = 0 := by
  obtain ⟨L', hL'⟩ := fitLoop_ok opt (fun L => L.averageLogLikelihood data) grad (fun L => Regular L ∧ Aligned k L)
    (fun L L' h hP => ⟨regular_of_skeleton h hP.1, aligned_of_skeleton h hP.2⟩) (fun L hP => ⟨_, C98_objective hP.1 hP.2 hrows⟩) epochs L
    (opt.init L) ⟨hR, hA⟩
  have hsk := skeleton_fitLoop _ _ _ _ _ _ _ hL'
  refine ⟨L', hL', C98_training types hR hS hD hT opt grad data epochs hL', fun i hi hs => ⟨?_, fun a => ?_⟩⟩
  · refine (C71_normalized_partial types (regular_of_skeleton hsk hR) (smooth_of_skeleton hsk hS) (decomposable_of_skeleton hsk hD)
      (typed_of_skeleton hsk hT) ?_ ?_ (aligned_of_skeleton hsk hA)).1
    · rw [← skeleton_numberOfNodes L', hsk, skeleton_numberOfNodes]
      exact hi
    · rw [← skeleton_nodeScopes L', hsk, skeleton_nodeScopes]
      exact hs
  · have key : ∀ M : Layer, Regular M → Aligned k M →
        computed M k i a = (layerValue (fun v => ((List.range k).map a).getD v 0) M).getD i 0 := by
      intro M hM hMA
      obtain ⟨out, h1, h2⟩ := C62_aligned_partial M ((List.range k).map a) hM (by simpa using hMA)
      rw [computed, h1]
      simp only
      rw [exp_getD, h2]
    rw [key L' (regular_of_skeleton hsk hR) (aligned_of_skeleton hsk hA), key L hR hA]
    have h1 := sameSign_getD (sameSign_skeleton types (fun v => ((List.range k).map a).getD v 0) L hT) i
    have h2 := sameSign_getD (sameSign_skeleton types (fun v => ((List.range k).map a).getD v 0) L' (typed_of_skeleton hsk hT)) i
    rw [hsk] at h2
    exact h2.eq_zero.trans h1.eq_zero.symm

/-- A mixture of two normal distributions. -/
noncomputable def twoNormals : Layer := .denseSum [[[.fin 0, .fin 1]]] [.input 0 [.gaussian 0 0 1, .gaussian 1 0 0]]

/-- Gradient descent with a rate. -/
noncomputable def descent (rate : ℝ) : Optimizer Unit := ⟨fun _ => (), fun g s _ => (g.map fun x => -rate * x, s)⟩

theorem twoNormals_ok : Regular twoNormals ∧ Aligned 1 twoNormals ∧ SmoothLayer twoNormals ∧ DecomposableLayer twoNormals ∧
    TypedInputs (fun _ => .real) twoNormals := by
  have hR : Regular twoNormals := by
    refine .denseSum _ _ 1 ?_ (by simp) (.cons ⟨rfl, by simp [Layer.numberOfNodes]⟩ .nil) ?_
    · intro c hc
      simp only [List.mem_singleton] at hc
      subst hc
      exact .input _ _
    · intro i hi
      obtain rfl : i = 0 := by omega
      exact ⟨_, List.mem_singleton.2 rfl, .fin 0, by simp, by simp⟩
  have hA : Aligned 1 twoNormals := .one _ (.denseSum _ _ (by simp) fun c hc => by
    simp only [List.mem_singleton] at hc
    subst hc
    exact .input _)
  have hS : SmoothLayer twoNormals := .denseSum _ _ (by
    intro c hc
    simp only [List.mem_singleton] at hc
    subst hc
    exact .input _ _) (by decide)
  have hD : DecomposableLayer twoNormals := .denseSum _ _ (by
    intro c hc
    simp only [List.mem_singleton] at hc
    subst hc
    exact .input _ _)
  have hT : TypedInputs (fun _ => .real) twoNormals := .denseSum _ _ (by
    intro c hc
    simp only [List.mem_singleton] at hc
    subst hc
    exact .input _ _ (by simp [NodeFits]))
  exact ⟨hR, hA, hS, hD, hT⟩

/-- The hypotheses hold for the mixture, trained with gradient descent on two rows; all numbers change in the first epoch. -/
example : (∃ L', twoNormals.fit (descent (1 / 2)) (fun _ => [2, 4, 6, 8, 10, 12]) [[0], [3]] 7 = .ok L' ∧
      mass (fun _ => .real) (Finset.range 1) (computed L' 1 0) = 1) ∧
    twoNormals.fit (descent (1 / 2)) (fun _ => [2, 4, 6, 8, 10, 12]) [[0], [3]] 1 =
      .ok (.denseSum [[[.fin (-5), .fin (-5)]]] [.input 0 [.gaussian (-1) (-3) 1, .gaussian (-1) (-4) 0]]) := by
  obtain ⟨hR, hA, hS, hD, hT⟩ := twoNormals_ok
  have hrows : ∀ row ∈ ([[0], [3]] : List (List ℝ)), row.length = 1 := by simp
  constructor
  · obtain ⟨L', h1, _, h3⟩ := C98_computed _ hR hS hD hT hA (descent (1 / 2)) (fun _ => [2, 4, 6, 8, 10, 12]) hrows 7
    exact ⟨L', h1, (h3 0 (by simp [twoNormals, Layer.numberOfNodes]) (by decide)).1⟩
  · rw [Layer.fit, fitLoop]
    simp only [C98_objective hR hA hrows, bind, Except.bind]
    rw [fitLoop]
    simp [twoNormals, descent, Layer.applyUpdates, applyChildUpdates, updateInput, updateLocations, updateScales, updateDiscrete,
      updateMatrices, updateRows, updateRow, stepLog]
    norm_num

/-- Gradient descent whose rate grows with every epoch, with one update per trained number. -/
noncomputable def growingDescent : Optimizer ℕ :=
  ⟨fun _ => 1, fun g s L => ((List.range (trainedNumbers L).length).map fun i => -s * g.getD i 0, s + 1)⟩

/-- The hypotheses of `C98_run` hold for the mixture and an optimizer with a state. -/
example : FullUpdates growingDescent ∧
    ∃ circuits states, TrainingRun growingDescent (fun _ => [2, 4, 6, 8, 10, 12]) twoNormals 5 circuits states ∧
      twoNormals.fit growingDescent (fun _ => [2, 4, 6, 8, 10, 12]) [[0], [3]] 5 = .ok (circuits 5) ∧ states 2 = 3 := by
  obtain ⟨hR, hA, hS, hD, hT⟩ := twoNormals_ok
  have hu : FullUpdates growingDescent := fun g s L => by simp [growingDescent]
  refine ⟨hu, ?_⟩
  obtain ⟨L', h, _⟩ := C98_computed _ hR hS hD hT hA growingDescent (fun _ => [2, 4, 6, 8, 10, 12]) (data := [[0], [3]]) (by simp) 5
  obtain ⟨circuits, states, hrun, h2⟩ := C98_run growingDescent hu _ _ _ h
  refine ⟨circuits, states, hrun, by rw [h, h2], ?_⟩
  rw [hrun.state 1 (by omega), hrun.state 0 (by omega), hrun.init]
  rfl

/-- C99 as one would state it: what training with labels maximises is the mean log-likelihood of the rows under the nodes of their
labels. -/
def C99_full : Prop := ∀ (L : Layer) (k : ℕ) (data : List (List ℝ)) (labels : List ℕ), Regular L → Aligned k L →
  (∀ row ∈ data, row.length = k) → labels.length = data.length → (∀ y ∈ labels, y < L.numberOfNodes) →
  L.classificationObjective data labels = .ok (labelledMean L data labels)

/-- Two classes: the uniform distributions on `(0, 1)` and on `(0, 2)`. -/
noncomputable def narrowWide : Layer := .input 0 [.uniform 0 1, .uniform 0 2]

theorem narrowWide_aligned : Aligned 1 narrowWide := .one _ (.input _)

/-- What training with integer labels maximises; missing: it is not the likelihood of the labels.  The labels are used as numbers of rows,
and the mean is over all nodes. -/
theorem C99_integer_labels_partial {L : Layer} {k : ℕ} (hR : Regular L) (hA : Aligned k L) {data : List (List ℝ)}
    (hrows : ∀ row ∈ data, row.length = k) {labels : List ℕ} (hlabels : ∀ y ∈ labels, y < data.length) :
    L.classificationObjective data labels = .ok (meanOfLogs (labels.flatMap fun y => valuesAt L (data.getD y []))) := by
  obtain ⟨p, hp, hv⟩ := batch_ok hR hA hrows
  rw [Layer.classificationObjective]
  simp only [hp, bind, Except.bind]
  have hlen : p.length = data.length := by simpa using congrArg List.length hv
  rw [meanLog_eq, rowsAt, gather, List.map_flatten, List.map_map, ← List.flatMap_def]
  congr 2
  refine List.flatMap_congr fun y hy => ?_
  have h1 := hlabels y hy
  have h2 : (p.map (List.map LogP.exp))[y]? = (data.map (valuesAt L))[y]? := by rw [hv]
  rw [List.getElem?_map, List.getElem?_map, List.getElem?_eq_getElem (by omega), List.getElem?_eq_getElem h1] at h2
  simp only [Option.map_some, Option.some.injEq] at h2
  simp only [Function.comp_apply]
  rw [hlen, Nat.min_eq_left (by omega), List.getD_eq_getElem _ _ (by omega), List.getD_eq_getElem _ _ h1, h2]

/-- So with `m` classes only the first `m` rows of the data matter: two data sets that share them have the same objective for the same
labels, and so does every circuit, whatever the other rows are. -/
theorem C99_ignores {L : Layer} {k m : ℕ} (hR : Regular L) (hA : Aligned k L) {data data' : List (List ℝ)}
    (hrows : ∀ row ∈ data, row.length = k) (hrows' : ∀ row ∈ data', row.length = k) {labels : List ℕ} (hlabels : ∀ y ∈ labels, y < m)
    (hm : m ≤ data.length) (hm' : m ≤ data'.length) (hsame : data.take m = data'.take m) :
    L.classificationObjective data labels = L.classificationObjective data' labels := by
  rw [C99_integer_labels_partial hR hA hrows fun y hy => lt_of_lt_of_le (hlabels y hy) hm,
    C99_integer_labels_partial hR hA hrows' fun y hy => lt_of_lt_of_le (hlabels y hy) hm']
  congr 2
  refine List.flatMap_congr fun y hy => ?_
  have h1 := hlabels y hy
  have h2 : (data.take m)[y]? = (data'.take m)[y]? := by rw [hsame]
  rw [List.getElem?_take_of_lt h1, List.getElem?_take_of_lt h1] at h2
  rw [List.getD_eq_getElem?_getD, List.getD_eq_getElem?_getD, h2]

theorem valuesAt_narrowWide (x : ℝ) : valuesAt narrowWide [x] = [if 0 < x ∧ x < 1 then 1 else 0, if 0 < x ∧ x < 2 then 1 / 2 else 0] := by
  have e2 : Real.exp (-Real.log 2) = 1 / 2 := by rw [Real.exp_neg, Real.exp_log (by norm_num)]; norm_num
  simp only [valuesAt, narrowWide, layerValue, InputNode.logDensity, List.map_cons, List.map_nil, List.getD_cons_zero]
  congr 1
  · split <;> simp
  · congr 1
    split
    · simp only [LogP.exp_fin, sub_zero, e2]
    · rfl

/-- C99 does not hold: indexing with integer labels picks rows, and with the second row also its (zero) likelihood under the first class. -/
theorem C99_full_false : ¬ C99_full := by
  intro h
  have h1 := h narrowWide 1 [[1 / 2], [3 / 2]] [0, 1] (.input _ _) narrowWide_aligned (by simp) (by simp)
    (by simp [narrowWide, Layer.numberOfNodes])
  rw [C99_integer_labels_partial (L := narrowWide) (k := 1) (.input _ _) narrowWide_aligned (by simp) (by simp), Except.ok.injEq] at h1
  simp only [labelledMean, List.zipWith_cons_cons, List.zipWith_nil_left, List.flatMap_cons, List.flatMap_nil, List.getD_cons_zero,
    List.getD_cons_succ, valuesAt_narrowWide] at h1
  rw [meanOfLogs, if_neg (by norm_num), meanOfLogs, if_pos (by norm_num)] at h1
  cases h1

/-- The labels are not tied to the rows: exchanging the labels of rows does not change what is maximised. -/
theorem C99_unordered {L : Layer} {k : ℕ} (hR : Regular L) (hA : Aligned k L) {data : List (List ℝ)}
    (hrows : ∀ row ∈ data, row.length = k) {labels labels' : List ℕ} (hlabels : ∀ y ∈ labels, y < data.length) (hperm : labels.Perm labels') :
    L.classificationObjective data labels = L.classificationObjective data labels' := by
  rw [C99_integer_labels_partial hR hA hrows hlabels, C99_integer_labels_partial hR hA hrows fun y hy => hlabels y (hperm.mem_iff.2 hy)]
  have h : (labels.flatMap fun y => valuesAt L (data.getD y [])).Perm (labels'.flatMap fun y => valuesAt L (data.getD y [])) :=
    hperm.flatMap_right _
  unfold meanOfLogs
  rw [(h.map Real.log).sum_eq, h.length_eq]
  simp only [h.mem_iff]

/-- The hypotheses of `C99_ignores` hold for the two classes and data sets that differ in the third row. -/
example : narrowWide.classificationObjective [[1 / 2], [1 / 4], [3 / 2]] [0, 0, 1] =
    narrowWide.classificationObjective [[1 / 2], [1 / 4], [5]] [0, 0, 1] :=
  C99_ignores (k := 1) (m := 2) (.input _ _) narrowWide_aligned (by simp) (by simp) (by simp) (by simp) (by simp) (by simp)

/-- The hypotheses of `C99_unordered` hold for exchanged labels, although the labelled mean is finite for the first and `-inf` for the second
labels. -/
example : narrowWide.classificationObjective [[1 / 2], [3 / 2]] [0, 1] = narrowWide.classificationObjective [[1 / 2], [3 / 2]] [1, 0] ∧
    labelledMean narrowWide [[1 / 2], [3 / 2]] [0, 1] ≠ .negInf ∧ labelledMean narrowWide [[1 / 2], [3 / 2]] [1, 0] = .negInf := by
  refine ⟨C99_unordered (k := 1) (.input _ _) narrowWide_aligned (by simp) (by simp) (List.Perm.swap _ _ _), ?_, ?_⟩
  all_goals simp only [labelledMean, List.zipWith_cons_cons, List.zipWith_nil_left, List.getD_cons_zero,
    List.getD_cons_succ, valuesAt_narrowWide]
  · rw [meanOfLogs, if_pos (by norm_num)]
    simp
  · rw [meanOfLogs, if_neg (by norm_num)]

end PM.Props
