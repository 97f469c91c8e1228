import Verif.Learn.RefitLemmas
import Verif.Props.Nyga
import Verif.Props.Jpt

/-!
# C104: fitting a model that was fitted before
-/

namespace PM.Props

open Graph Spec Learn

/-- A model that can be used: it has one unit without parents. -/
structure UsableModel (g : Circuit) : Prop where
  wf : g.WF
  root : ∃ r, g.root = .ok r

/-- C104: a quantile distribution can be fitted again, and is then what a new one would be. -/
def C104_full : Prop :=
  ∀ P cap data weights data' weights', FitInput P data weights → FitInput P data' weights' → ∀ g,
    Nyga.fitOn P cap data weights emptyCircuit = (g, .ok ()) →
    ∃ g', Nyga.fitOn P cap data' weights' g = (g', .ok ()) ∧
      ∀ h, Nyga.fit P cap data' weights' = .ok h → ∀ m m' x, g'.likelihood m x = h.likelihood m' x

/-- C104 for the first fit of an object: it succeeds and leaves a usable model.  Missing: every further fit (it does not work, see the
theorems below). -/
theorem C104_first_partial {P : Nyga.Params} {data : List ℝ} {weights : Option (List ℝ)} (h : FitInput P data weights) (cap : ℝ) :
    ∃ g, Nyga.fitOn P cap data weights emptyCircuit = (g, .ok ()) ∧ Nyga.fit P cap data weights = .ok g ∧ UsableModel g := by
  obtain ⟨g, r, hfit, hL, _⟩ := C39_fit h cap
  exact ⟨g, (Nyga.fitOn_new P cap data weights).1 g hfit, hfit, hL.wf, r, hL.root⟩

/-- For a new object, the fit that knows the circuit of the object is the fit of C39: the same model or the same exception, for all data. -/
theorem C104_nyga_new (P : Nyga.Params) (cap : ℝ) (data : List ℝ) (weights : Option (List ℝ)) :
    (∀ g, Nyga.fit P cap data weights = .ok g → Nyga.fitOn P cap data weights emptyCircuit = (g, .ok ())) ∧
      ∀ e, Nyga.fit P cap data weights = .error e → (Nyga.fitOn P cap data weights emptyCircuit).2 = .error e :=
  Nyga.fitOn_new P cap data weights

/-- Any further `NygaDistribution.fit` of a usable model leaves the units there were and one more behind, and no query works afterwards.
If the data would have been fine for a new object, the call itself raises `ValueError`, unless the data has only one value. -/
theorem C104_nyga_again {P : Nyga.Params} (cap : ℝ) (data : List ℝ) (weights : Option (List ℝ)) {g : Circuit} (hg : UsableModel g) :
    (∃ n k, Nyga.fitOn P cap data weights g = (⟨g.nodes ++ [(n, k)], g.edges⟩, (Nyga.fitOn P cap data weights g).2)) ∧
    Unusable (Nyga.fitOn P cap data weights g).1 ∧
    ((∃ x, data ≠ [] ∧ ∀ y ∈ data, y = x) → (Nyga.fitOn P cap data weights g).2 = .ok ()) ∧
    (FitInput P data weights → (Nyga.fitOn P cap data weights g).2 = .error .valueError) := by
  obtain ⟨hw, r, hr⟩ := hg
  have hs : ∀ k, TwoRoots (addUnit g k) := twoRoots_addUnit hw.dstMem hr
  obtain ⟨⟨k, hk⟩, h2⟩ := Nyga.fitOn_twoRoots (P := P) (cap := cap) (data := data) (weights := weights) hs
  refine ⟨⟨_, k, Prod.ext hk rfl⟩, hk ▸ (hs k).unusable, ?_, fun h => ?_⟩
  · rintro ⟨x, hne, hx⟩
    rw [Nyga.fitOn_one (unique_single hne hx)]
  · obtain ⟨g₁, _, hfit, _⟩ := C39_fit h cap
    refine h2 g₁ (fun x hx => ?_) hfit
    have := Nyga.two_le_unique h.two
    rw [hx] at this
    simp at this

/-- Once a model is fitted a second time, it is of no use whatever is fitted afterwards. -/
theorem C104_nyga_forever {P : Nyga.Params} (cap : ℝ) {g : Circuit} (hg : UsableModel g) (calls : List (List ℝ × Option (List ℝ))) (hc : calls ≠ []) :
    Unusable (calls.foldl (fun g c => (Nyga.fitOn P cap c.1 c.2 g).1) g) := by
  obtain ⟨hw, r, hr⟩ := hg
  have key : ∀ (calls : List (List ℝ × Option (List ℝ))) (g : Circuit), (∀ e ∈ g.edges, e.dst ∈ g.ids) → TwoRoots g →
      TwoRoots (calls.foldl (fun g c => (Nyga.fitOn P cap c.1 c.2 g).1) g) := by
    intro calls
    induction calls with
    | nil => exact fun _ _ h => h
    | cons c calls ih =>
      intro g hd h
      obtain ⟨⟨k, hk⟩, _⟩ := Nyga.fitOn_twoRoots (P := P) (cap := cap) (data := c.1) (weights := c.2) fun k => h.addUnit hd k
      rw [List.foldl_cons, hk]
      exact ih _ (fun e he => by rw [ids_addUnit]; exact List.mem_append_left _ (hd e he)) (h.addUnit hd k)
  cases calls with
  | nil => exact absurd rfl hc
  | cons c calls =>
    obtain ⟨⟨k, hk⟩, _⟩ := Nyga.fitOn_twoRoots (P := P) (cap := cap) (data := c.1) (weights := c.2) (twoRoots_addUnit hw.dstMem hr)
    rw [List.foldl_cons, hk]
    exact (key calls _ (fun e he => by rw [ids_addUnit]; exact List.mem_append_left _ (hw.dstMem e he))
      (twoRoots_addUnit hw.dstMem hr k)).unusable

theorem C104_full_false : ¬ C104_full := by
  intro h
  obtain ⟨g, h1, h2, h3⟩ := C104_first_partial fitInput_example 1
  obtain ⟨g', h4, _⟩ := h _ _ _ _ _ _ fitInput_example fitInput_example g h1
  have := (C104_nyga_again 1 [2, 1] (some [3, 1]) h3).2.2.2 fitInput_example
  rw [h4] at this
  cases this

/-- Any further `JPT.fit` of a usable tree raises and leaves a tree behind that answers no query: `ValueError`, or what `preprocess_data` raises. -/
theorem C104_jpt_again (S : Jpt.Settings) (I : Jpt.Impurity) (prepare : Except PyErr (List Jpt.Row)) (queue : List Jpt.Task) {g : Circuit}
    (hg : UsableModel g) :
    Unusable (Jpt.fitOn S I prepare queue g).1 ∧
      (Jpt.fitOn S I prepare queue g).2.2 = match prepare with
        | .error e => .error e
        | .ok _ => .error .valueError := by
  obtain ⟨hw, r, hr⟩ := hg
  have hs : TwoRoots (addUnit g .sum) := twoRoots_addUnit hw.dstMem hr .sum
  cases prepare with
  | error e => exact ⟨hs.unusable, rfl⟩
  | ok data =>
    have hq : ∀ q : List Jpt.Task, q ≠ [] → Jpt.rounds q = Jpt.rounds q - 1 + 1 := by
      intro q hq
      cases q with
      | nil => exact absurd rfl hq
      | cons t q =>
        simp only [Jpt.rounds, List.map_cons, List.sum_cons]
        omega
    simp only [Jpt.fitOn, Jpt.fitRows]
    rw [hq _ (by simp)]
    generalize hqq : queue ++ [⟨data, 0, data.length, 0⟩] = q
    cases q with
    | nil => simp at hqq
    | cons t q =>
      rw [Jpt.loopOn_root (show (Jpt.State.circuit ⟨List.range data.length, 0, addUnit g .sum, []⟩).root = _ from hs)]
      exact ⟨hs.unusable, rfl⟩

/-- A tree whose first fit failed because of the data frame cannot be fitted any more, whatever the data. -/
theorem C104_jpt_failed_first (S : Jpt.Settings) (I : Jpt.Impurity) (e : PyErr) (queue : List Jpt.Task) (S' : Jpt.Settings) (I' : Jpt.Impurity)
    (rows : List Jpt.Row) (queue' : List Jpt.Task) :
    (Jpt.fitOn S' I' (.ok rows) queue' (Jpt.fitOn S I (.error e) queue emptyCircuit).1).2.2 = .error .valueError := by
  refine (C104_jpt_again S' I' (.ok rows) queue' (g := (Jpt.fitOn S I (.error e) queue emptyCircuit).1) ?_).2
  exact ⟨⟨by simp [Jpt.fitOn, addUnit, emptyCircuit, ids], by simp [Jpt.fitOn, addUnit, emptyCircuit], by simp [Jpt.fitOn, addUnit, emptyCircuit],
    by simp [Jpt.fitOn, addUnit, emptyCircuit]⟩, 0, rfl⟩

/-- The first fit of a tree is the one of C41, and leaves a usable model. -/
theorem C104_jpt_first {S : Jpt.Settings} {I : Jpt.Impurity} {data : List Jpt.Row} (h : TreeInput S data)
    (hI : SplitContract I S.minImprovement (requiredSamples S.minSamplesLeaf data.length)) :
    ∃ st, Jpt.fitOn S I (.ok data) [] emptyCircuit = (st.circuit, [], .ok st) ∧ UsableModel st.circuit := by
  obtain ⟨st, r, hfit, hL, _⟩ := C41_fit h hI
  obtain ⟨h1, h2⟩ := Jpt.fitOn_new S I data []
  rw [hfit] at h1 h2
  exact ⟨st, Prod.ext (h2 st rfl) h1, hL.wf, r, hL.root⟩

/-- For a new tree, the fit that knows the circuit of the tree is the fit of C41, also if it raises: the same queue is left, and the same
state or exception comes out. -/
theorem C104_jpt_new (S : Jpt.Settings) (I : Jpt.Impurity) (data : List Jpt.Row) (queue : List Jpt.Task) :
    (Jpt.fitOn S I (.ok data) queue emptyCircuit).2 = Jpt.fit S I data queue ∧
      ∀ st, (Jpt.fit S I data queue).2 = .ok st → (Jpt.fitOn S I (.ok data) queue emptyCircuit).1 = st.circuit :=
  Jpt.fitOn_new S I data queue

/-- C104 for trees: a tree can be fitted again, and is then what a new one would be. -/
def C104_jpt_full : Prop :=
  ∀ S I data data', TreeInput S data → TreeInput S data' →
    SplitContract I S.minImprovement (requiredSamples S.minSamplesLeaf data.length) →
    SplitContract I S.minImprovement (requiredSamples S.minSamplesLeaf data'.length) → ∀ st,
    Jpt.fitOn S I (.ok data) [] emptyCircuit = (st.circuit, [], .ok st) →
    ∃ st', (Jpt.fitOn S I (.ok data') [] st.circuit).2.2 = .ok st' ∧
      ∀ h, (Jpt.fit S I data' []).2 = .ok h → ∀ m m' x, st'.circuit.likelihood m x = h.circuit.likelihood m' x

theorem C104_jpt_full_false : ¬ C104_jpt_full := by
  intro h
  have hin := oneInteger_input ⊤ (data := [row 3, row 5, row 3]) (by simp)
  obtain ⟨st, h1, h2⟩ := C104_jpt_first hin (oneInteger_contract ⊤ _)
  obtain ⟨st', h3, _⟩ := h _ _ _ _ hin hin (oneInteger_contract ⊤ _) (oneInteger_contract ⊤ _) st h1
  rw [(C104_jpt_again (oneInteger ⊤) firstSample (.ok [row 3, row 5, row 3]) [] h2).2] at h3
  cases h3

/-- A distribution that was fitted to two points and is then fitted to one value: the call returns, and no query works. -/
example : ∃ g, Nyga.fitOn ⟨0, 1, 0⟩ 1 [2, 1] (some [3, 1]) emptyCircuit = (g, .ok ()) ∧
    (Nyga.fitOn ⟨0, 1, 0⟩ 1 [7, 7] none g).2 = .ok () ∧ Unusable (Nyga.fitOn ⟨0, 1, 0⟩ 1 [7, 7] none g).1 := by
  obtain ⟨g, h1, _, h3⟩ := C104_first_partial fitInput_example 1
  have h := C104_nyga_again (P := ⟨0, 1, 0⟩) 1 [7, 7] none h3
  exact ⟨g, h1, h.2.2.1 ⟨7, by simp, by simp⟩, h.2.1⟩

end PM.Props
