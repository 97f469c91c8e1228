import Verif.Learn.Refit
import Verif.Learn.NygaFit
import Verif.Circuit.DetSumLemmas
import Verif.Spec.Refit

/-!
# Lemmas about objects that are fitted again
-/

namespace PM.Learn

open Classical Graph Spec

variable {g : Circuit}

/-- At least two units without parents. -/
def TwoRoots (g : Circuit) : Prop := g.root = .error .valueError

theorem ids_addUnit (g : Circuit) (k : Kind Leaf) : (addUnit g k).ids = g.ids ++ [if g.nodes = [] then 0 else g.fresh] := by
  simp [addUnit, ids]

theorem inEdges_addUnit (g : Circuit) (k : Kind Leaf) (n : Node) : (addUnit g k).inEdges n = g.inEdges n := rfl

theorem roots_addUnit (hw : ∀ e ∈ g.edges, e.dst ∈ g.ids) (k : Kind Leaf) :
    (addUnit g k).ids.filter (fun n => (addUnit g k).inDegree n == 0)
      = g.ids.filter (fun n => g.inDegree n == 0) ++ [if g.nodes = [] then 0 else g.fresh] := by
  rw [ids_addUnit, List.filter_append]
  congr 1
  have : (addUnit g k).inDegree (if g.nodes = [] then 0 else g.fresh) = 0 := by
    show (g.inEdges _).length = 0
    rw [List.length_eq_zero_iff]
    simp only [inEdges, List.filter_eq_nil_iff, beq_iff_eq]
    intro e he h
    have hm := hw e he
    rw [h] at hm
    by_cases h0 : g.nodes = []
    · simp [ids, h0] at hm
    · rw [if_neg h0] at hm
      exact absurd (lt_fresh hm) (lt_irrefl _)
  simp [this]

/-- A usable object gets a second unit without parents. -/
theorem twoRoots_addUnit (hw : ∀ e ∈ g.edges, e.dst ∈ g.ids) {r : Node} (hr : g.root = .ok r) (k : Kind Leaf) :
    TwoRoots (addUnit g k) := by
  unfold TwoRoots root at *
  rw [roots_addUnit hw]
  split at hr
  · cases hr
  · rename_i h
    simp [h]
  · cases hr

theorem TwoRoots.addUnit (hw : ∀ e ∈ g.edges, e.dst ∈ g.ids) (h : TwoRoots g) (k : Kind Leaf) : TwoRoots (addUnit g k) := by
  unfold TwoRoots root at *
  rw [roots_addUnit hw]
  split at h
  · cases h
  · cases h
  · rename_i h'
    simp [h']

theorem TwoRoots.unusable (h : TwoRoots g) : Unusable g := by
  have hv : g.circuitVars = .error .valueError := by
    unfold circuitVars
    rw [h]
  refine ⟨fun m x => ?_, fun m x => ?_, fun m dom E => ?_, fun amount => ?_⟩
  · simp [logLikelihood, hv]
  · simp [cdf, hv]
  · simp [probability, hv]
  · simp [chance, sampleR, hv, Rand.bindE, Rand.pure]

namespace Nyga

theorem induce_root {P : Params} {A : Arrays} {s : Step} {e : PyErr} (h : g.root = .error e) {new : List Step} {g' : Circuit}
    (hi : induce P A s g = .ok (new, g')) : g' = g ∧ new ≠ [] := by
  unfold induce at hi
  simp only [bind, Except.bind] at hi
  split at hi
  · cases hi
  split at hi
  · cases hi
  split at hi
  · split at hi
    · cases hi
      simp
    · cases hi
  · split at hi
    · cases hi
    split at hi
    · cases hi
    split at hi
    · cases hi
    rw [h] at hi
    cases hi

theorem loopOn_root {P : Params} {A : Arrays} {e : PyErr} (h : g.root = .error e) :
    ∀ (fuel : ℕ) (q : List Step), q ≠ [] → (loopOn P A fuel q g).1 = g ∧ ∃ e', (loopOn P A fuel q g).2 = .error e' := by
  intro fuel
  induction fuel with
  | zero =>
    intro q hq
    cases q with
    | nil => exact absurd rfl hq
    | cons s q => exact ⟨rfl, _, rfl⟩
  | succ fuel ih =>
    intro q hq
    cases q with
    | nil => exact absurd rfl hq
    | cons s q =>
      rw [loopOn]
      cases hi : induce P A s g with
      | error e' => exact ⟨rfl, _, rfl⟩
      | ok p =>
        obtain ⟨new, g'⟩ := p
        obtain ⟨rfl, hn⟩ := induce_root h hi
        exact ih (q ++ new) (by simp [hn])

/-- What a step does to a circuit without a root, compared with what it does to another circuit. -/
theorem induce_swap {P : Params} {A : Arrays} {s : Step} {e : PyErr} (h : g.root = .error e) {g₀ g₀' : Circuit} {new : List Step}
    (hi : induce P A s g₀ = .ok (new, g₀')) : (new ≠ [] ∧ g₀' = g₀ ∧ induce P A s g = .ok (new, g)) ∨ induce P A s g = .error e := by
  unfold induce at hi ⊢
  simp only [bind, Except.bind] at hi ⊢
  split at hi
  · cases hi
  split at hi
  · cases hi
  split at hi
  · rename_i hq
    rw [if_pos hq]
    left
    split at hi
    · cases hi
      simp
    · cases hi
  · rename_i hq
    rw [if_neg hq]
    right
    split at hi
    · cases hi
    split at hi
    · cases hi
    split at hi
    · cases hi
    rw [h]

/-- A circuit without a root makes every loop fail that works for another circuit. -/
theorem loopOn_swap {P : Params} {A : Arrays} {e : PyErr} (h : g.root = .error e) {g₀ : Circuit} :
    ∀ (fuel : ℕ) (q : List Step) {g₁ : Circuit}, q ≠ [] → loop P A fuel q g₀ = .ok g₁ → loopOn P A fuel q g = (g, .error e) := by
  intro fuel
  induction fuel with
  | zero =>
    intro q g₁ hq hl
    cases q with
    | nil => exact absurd rfl hq
    | cons s q => cases hl
  | succ fuel ih =>
    intro q g₁ hq hl
    cases q with
    | nil => exact absurd rfl hq
    | cons s q =>
      rw [loop] at hl
      simp only [bind, Except.bind] at hl
      split at hl
      · cases hl
      rename_i p hi
      obtain ⟨new, g₀'⟩ := p
      rw [loopOn]
      rcases induce_swap h hi with ⟨hn, rfl, hi'⟩ | hi'
      · rw [hi']
        exact ih (q ++ new) (by simp [hn]) hl
      · rw [hi']

theorem loopOn_eq {P : Params} {A : Arrays} : ∀ (fuel : ℕ) (q : List Step) (g : Circuit),
    match loop P A fuel q g with
    | .ok g' => loopOn P A fuel q g = (g', .ok ())
    | .error e => (loopOn P A fuel q g).2 = .error e := by
  intro fuel
  induction fuel with
  | zero =>
    intro q g
    cases q <;> simp [loop, loopOn]
  | succ fuel ih =>
    intro q g
    cases q with
    | nil => simp [loop, loopOn]
    | cons s q =>
      rw [loop, loopOn]
      cases hi : induce P A s g with
      | error e => simp [bind, Except.bind]
      | ok p => simpa [bind, Except.bind] using ih (q ++ p.1) p.2

/-- `InductionStep` fields of a fit. -/
noncomputable def inputs (data : List ℝ) (weights : Option (List ℝ)) : Arrays :=
  ⟨(npUnique data).map Prod.fst, cumsum (weights.getD ((npUnique data).map fun vc => (vc.2 : ℝ))),
    cumsum ((weights.getD ((npUnique data).map fun vc => (vc.2 : ℝ))).map Real.log)⟩

theorem fitOn_many {P : Params} {cap : ℝ} {data : List ℝ} {weights : Option (List ℝ)} (h : ∀ x, (npUnique data).map Prod.fst ≠ [x]) :
    fitOn P cap data weights g = finishOn (loopOn P (inputs data weights) (2 * ((npUnique data).map Prod.fst).length)
      [⟨0, ((npUnique data).map Prod.fst).length⟩] (addUnit g .sum)) := by
  unfold fitOn
  simp only
  rfl

theorem fitOn_one {P : Params} {cap : ℝ} {data : List ℝ} {weights : Option (List ℝ)} {x : ℝ} (h : (npUnique data).map Prod.fst = [x]) :
    fitOn P cap data weights g = (addUnit g (.leaf (.dirac P.var x cap)), .ok ()) := by
  unfold fitOn
  simp only
  rw [h]

theorem fit_many {P : Params} {cap : ℝ} {data : List ℝ} {weights : Option (List ℝ)} (h : ∀ x, (npUnique data).map Prod.fst ≠ [x]) :
    fit P cap data weights = (do
      let g ← loop P (inputs data weights) (2 * ((npUnique data).map Prod.fst).length)
        [⟨0, ((npUnique data).map Prod.fst).length⟩] (newUnit 0 .sum)
      g.normalize) := by
  unfold fit
  simp only
  rfl

theorem fit_one {P : Params} {cap : ℝ} {data : List ℝ} {weights : Option (List ℝ)} {x : ℝ} (h : (npUnique data).map Prod.fst = [x]) :
    fit P cap data weights = .ok (newUnit 0 (.leaf (.dirac P.var x cap))) := by
  unfold fit
  simp only
  rw [h]

/-- The fit of a new object is `fit`. -/
theorem fitOn_new (P : Params) (cap : ℝ) (data : List ℝ) (weights : Option (List ℝ)) :
    (∀ g', fit P cap data weights = .ok g' → fitOn P cap data weights emptyCircuit = (g', .ok ())) ∧
      ∀ e, fit P cap data weights = .error e → (fitOn P cap data weights emptyCircuit).2 = .error e := by
  by_cases h : ∃ x, (npUnique data).map Prod.fst = [x]
  · obtain ⟨x, hx⟩ := h
    rw [fit_one hx, fitOn_one hx]
    constructor
    · intro g' hg'
      rw [← Except.ok.inj hg']
      rfl
    · intro e he
      cases he
  · have h : ∀ x, (npUnique data).map Prod.fst ≠ [x] := fun x hx => h ⟨x, hx⟩
    rw [fit_many h, fitOn_many h]
    have hl := loopOn_eq (P := P) (A := inputs data weights) (2 * ((npUnique data).map Prod.fst).length)
      [⟨0, ((npUnique data).map Prod.fst).length⟩] (newUnit 0 .sum)
    rw [show addUnit emptyCircuit .sum = newUnit 0 .sum from rfl]
    generalize loopOn P (inputs data weights) _ _ _ = l at hl ⊢
    generalize loop P (inputs data weights) _ _ _ = l' at hl ⊢
    obtain ⟨lg, le⟩ := l
    cases l' with
    | error e =>
      simp only at hl
      subst hl
      simp [bind, Except.bind, finishOn]
    | ok g' =>
      simp only [Prod.mk.injEq] at hl
      obtain ⟨rfl, rfl⟩ := hl
      simp only [bind, Except.bind, finishOn]
      cases lg.normalize <;> simp

/-- A fit of an object with several or no roots changes nothing but adds its unit, and a fit that works for a new object raises. -/
theorem fitOn_twoRoots {P : Params} {cap : ℝ} {data : List ℝ} {weights : Option (List ℝ)} (hs : ∀ k, TwoRoots (addUnit g k)) :
    (∃ k, (fitOn P cap data weights g).1 = addUnit g k) ∧
      ∀ g₁, (∀ x, (npUnique data).map Prod.fst ≠ [x]) → fit P cap data weights = .ok g₁ →
        (fitOn P cap data weights g).2 = .error .valueError := by
  by_cases h : ∃ x, (npUnique data).map Prod.fst = [x]
  · obtain ⟨x, hx⟩ := h
    rw [fitOn_one hx]
    exact ⟨⟨_, rfl⟩, fun _ h' => absurd hx (h' x)⟩
  · have h : ∀ x, (npUnique data).map Prod.fst ≠ [x] := fun x hx => h ⟨x, hx⟩
    rw [fitOn_many h, fit_many h]
    constructor
    · obtain ⟨h1, e, h2⟩ := loopOn_root (P := P) (A := inputs data weights) (hs .sum) (2 * ((npUnique data).map Prod.fst).length)
        [⟨0, ((npUnique data).map Prod.fst).length⟩] (by simp)
      generalize loopOn P (inputs data weights) _ _ _ = l at h1 h2 ⊢
      obtain ⟨lg, le⟩ := l
      simp only at h1 h2
      subst h2
      exact ⟨.sum, h1⟩
    · intro g₁ _ hl
      simp only [bind, Except.bind] at hl
      split at hl
      · cases hl
      rename_i hl'
      rw [loopOn_swap (hs .sum) _ _ (by simp) hl']
      rfl

end Nyga

namespace Jpt

theorem c45_root {S : Settings} {I : Impurity} {total : ℕ} {st : State} {t : Task} {e : PyErr} (h : st.circuit.root = .error e) :
    c45 S I total st t = .error e := by
  unfold c45
  simp [bind, Except.bind, h]

theorem loopOn_root {S : Settings} {I : Impurity} {total : ℕ} {st : State} {e : PyErr} (h : st.circuit.root = .error e) (fuel : ℕ)
    {t : Task} {q : List Task} : loopOn S I total (fuel + 1) st (t :: q) = (st.circuit, q, .error e) := by
  rw [loopOn, c45_root h]

theorem loopOn_eq {S : Settings} {I : Impurity} {total : ℕ} : ∀ (fuel : ℕ) (st : State) (q : List Task),
    (loopOn S I total fuel st q).2 = loop S I total fuel st q ∧
      ∀ st', (loop S I total fuel st q).2 = .ok st' → (loopOn S I total fuel st q).1 = st'.circuit := by
  intro fuel
  induction fuel with
  | zero =>
    intro st q
    cases q with
    | nil => simp [loop, loopOn]
    | cons t q => simp [loop, loopOn]
  | succ fuel ih =>
    intro st q
    cases q with
    | nil => simp [loop, loopOn]
    | cons t q =>
      rw [loop, loopOn]
      cases hi : c45 S I total st t with
      | error e => simp
      | ok p => exact ih p.1 (q ++ p.2)

/-- The fit of a new tree is `fit`. -/
theorem fitOn_new (S : Settings) (I : Impurity) (data : List Row) (queue : List Task) :
    (fitOn S I (.ok data) queue emptyCircuit).2 = fit S I data queue ∧
      ∀ st, (fit S I data queue).2 = .ok st → (fitOn S I (.ok data) queue emptyCircuit).1 = st.circuit :=
  loopOn_eq _ _ _

end Jpt

end PM.Learn
