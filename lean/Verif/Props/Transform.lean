import Verif.Circuit.TransformLemmas
import Verif.Dist.TransformLemmas
import Verif.Props.ExampleTools
import Verif.Props.Queries

/-!
# C23, C24: `translate` and `scale`
-/

namespace PM.Props

open Graph Spec PM.Bound Classical

/-- The full property C23, for circuits without symbolic variables: after `translate(t)` the likelihood of every shifted point
is the old likelihood of the point. -/
def C23_full : Prop := ∀ (g : Circuit) (r : Node) (sc : Node → Finset Var) (c : Var → ℝ), Layered g r → Scoped g sc →
  (∀ n d, g.kind? n = some (.leaf d) → d.Valid) →
  (∀ n d, g.kind? n = some (.leaf d) → ∀ v probs, d ≠ .symbolic v probs) →
  (∀ n d, g.kind? n = some (.leaf d) → ∀ v probs, d = .integer v probs → ∃ k : ℤ, c v = k) →
  ∃ g', g.translate (fun v => some (c v)) = .ok g' ∧ ∀ m x, g'.likelihood m (fun v => x v + c v) = g.likelihood m x

/-- C23 for circuits with an inner unit as root.  `t` is the dictionary given to `translate`; it has an entry for each variable
of the circuit, an integer for integer variables.  Missing with respect to C23: circuits that are a single leaf, where the code
does nothing, and circuits with symbolic leaves, where it raises `AttributeError`. -/
theorem C23_translate_partial {g : Circuit} {r : Node} {sc : Node → Finset Var} (hL : Layered g r) (hs : Scoped g sc)
    (hr : ∀ d, g.kind? r ≠ some (.leaf d)) (hv : ∀ n d, g.kind? n = some (.leaf d) → d.Valid)
    (hsym : ∀ n d, g.kind? n = some (.leaf d) → ∀ v probs, d ≠ .symbolic v probs)
    {t : Var → Option ℝ} {c : Var → ℝ} (ht : ∀ v ∈ sc r, t v = some (c v))
    (hint : ∀ n d, g.kind? n = some (.leaf d) → ∀ v probs, d = .integer v probs → ∃ k : ℤ, c v = k) :
    ∃ g', g.translate t = .ok g' ∧ Layered g' r ∧ Scoped g' sc ∧ (∀ n d, g'.kind? n = some (.leaf d) → d.Valid) ∧
      ∀ m x, g'.likelihood m (fun v => x v + c v) = g.likelihood m x := by
  have hmem : ∀ n d, g.kind? n = some (.leaf d) → d.var ∈ sc r := fun n d hk =>
    scope_mono hL.wf hL.leaves hs (root_mem hL.root).1
      (reachable_of_root hL.wf hL.graded.acyclic hL.root n (mem_ids_of_kind? hk)) (by rw [hs.leaf n d hk]; simp)
  have hex : ∀ d, ∃ d', (∃ n, g.kind? n = some (.leaf d)) → d.translate t = .ok d' ∧ d'.var = d.var ∧ d'.Valid ∧
      ∀ x, leafDensity d' (x + c d.var) = leafDensity d x := by
    intro d
    by_cases h : ∃ n, g.kind? n = some (.leaf d)
    · obtain ⟨n, hk⟩ := h
      obtain ⟨d', h'⟩ := leaf_translate (hv n d hk) (ht _ (hmem n d hk)) (hsym n d hk) (fun v probs he => by
        have := hint n d hk v probs he
        subst he
        exact this)
      exact ⟨d', fun _ => h'⟩
    · exact ⟨d, fun h' => absurd h' h⟩
  choose ψ hψ using hex
  have hψ' : ∀ n d, g.kind? n = some (.leaf d) → _ := fun n d hk => hψ d ⟨n, hk⟩
  refine ⟨_, changeLeaves_eq hL hr fun n d hk => (hψ' n d hk).1, mapLeaves_layered hL ψ,
    mapLeaves_scoped hs fun n d hk => (hψ' n d hk).2.1, ?_, fun m x => ?_⟩
  · intro n d' hk
    obtain ⟨d, hd, rfl⟩ := kind?_mapLeaves_leaf.1 hk
    exact (hψ' n d hd).2.2.1
  · unfold Graph.likelihood Graph.logLikelihood
    have hL' := mapLeaves_layered hL ψ
    rw [circuitVars_eq hL.wf hL.graded.acyclic hs hL.root, circuitVars_eq hL'.wf hL'.graded.acyclic
      (mapLeaves_scoped hs fun n d hk => (hψ' n d hk).2.1) hL'.root]
    simp only
    rw [query_mapLeaves (A := logLikAlg (sc r) x) (A' := logLikAlg (sc r) fun v => x v + c v) ?_ rfl rfl]
    intro n d hk
    obtain ⟨_, h2, h3, h4⟩ := hψ' n d hk
    simp only [logLikAlg, h2]
    have : (ψ d).logLik (x d.var + c d.var) = d.logLik (x d.var) :=
      LogP.exp_injective (by rw [exp_logLik h3, exp_logLik (hv n d hk), h4])
    rw [this]

/-- The hypotheses are met by the example circuit with a shared unit, moved by `3` and `-1`. -/
example : ∃ g', Ex.dag.translate (fun v => if v = 0 then some 3 else if v = 1 then some (-1) else none) = .ok g' ∧
    ∀ m x, g'.likelihood m (fun v => x v + (if v = 0 then 3 else -1)) = Ex.dag.likelihood m x := by
  obtain ⟨g', h, _, _, _, h'⟩ := C23_translate_partial Ex.dag_layered Ex.dag_scoped
    (fun d h => by injection (show some (.sum : Kind Leaf) = some (.leaf d) from h) with h; cases h) Ex.dag_valid
    (fun n d hk => Ex.forall_kind (g := Ex.dag) (P := fun _ k => ∀ d, k = .leaf d → ∀ v probs, d ≠ .symbolic v probs)
      (by simp [Ex.dag]) n _ hk d rfl)
    (t := fun v => if v = 0 then some 3 else if v = 1 then some (-1) else none) (c := fun v => if v = 0 then 3 else -1)
    (fun v hv => by
      have : v = 0 ∨ v = 1 := by simpa [Ex.dagScope] using hv
      rcases this with rfl | rfl <;> simp)
    (fun n d hk v probs he => absurd he (Ex.forall_kind (g := Ex.dag)
      (P := fun _ k => ∀ d, k = .leaf d → d ≠ .integer v probs) (by simp [Ex.dag]) n _ hk d rfl))
  exact ⟨g', h, h'⟩

/-- A circuit that is a single leaf: `U₀[0, 1]`. -/
noncomputable def single : Circuit := ⟨[(0, .leaf (.uniform 0 0 1 closed closed))], []⟩

theorem single_layered : Layered single 0 where
  wf := ⟨by decide, by decide, by simp [single], by simp [single]⟩
  graded := ⟨fun _ => 0, by simp [single]⟩
  leaves := Ex.leafTerminal_of (by simp [single, succ, outEdges])
  weighted := Ex.weighted_of (by simp [single])
  root := rfl

theorem single_scoped : Scoped single fun _ => {0} :=
  Ex.scoped_of (by simp [single, Leaf.var]) (by simp [single]) (by simp [single])

theorem single_valid : ∀ n d, single.kind? n = some (.leaf d) → d.Valid := Ex.valid_of (by simp [single, Leaf.Valid])

theorem single_likelihood (m : Mem LogP) (x : Var → ℝ) :
    single.likelihood m x = .ok (leafDensity (.uniform 0 0 1 closed closed) (x 0)) := by
  have hf : CircuitValue single (fun d => leafDensity d (x d.var)) fun _ => leafDensity (.uniform 0 0 1 closed closed) (x 0) :=
    Ex.value_of (by simp [single, Leaf.var]) (by simp [single]) (by simp [single])
  obtain ⟨_, _, _, _, h⟩ := C01_loglikelihood single_layered single_scoped single_valid x hf m
  exact h

/-- C23 is false of the code: `translate` on a circuit that consists of one leaf changes nothing, since `leaves` of a leaf unit
is empty. -/
theorem C23_full_false : ¬ C23_full := by
  intro H
  obtain ⟨g', h, h'⟩ := H single 0 (fun _ => {0}) (fun _ => 5) single_layered single_scoped single_valid
    (fun n d hk => Ex.forall_kind (g := single) (P := fun _ k => ∀ d, k = .leaf d → ∀ v probs, d ≠ .symbolic v probs)
      (by simp [single]) n _ hk d rfl)
    (fun n d hk v probs he => absurd he (Ex.forall_kind (g := single)
      (P := fun _ k => ∀ d, k = .leaf d → d ≠ .integer v probs) (by simp [single]) n _ hk d rfl))
  have h0 : single.translate (fun _ => some 5) = .ok single := rfl
  rw [h0] at h
  injection h with h
  subst h
  have := h' (fun _ => none) fun _ => 0
  rw [single_likelihood, single_likelihood] at this
  injection this with this
  rw [Ex.uniform_inside (x := (0 : ℝ)) (by norm_num) (by norm_num), Ex.uniform_outside (by norm_num)] at this
  norm_num at this

/-- With a symbolic leaf, `translate` raises `AttributeError`. -/
theorem C23_symbolic_raises (t : Var → Option ℝ) (v : Var) (probs : List (ℤ × ℝ)) :
    (Leaf.symbolic v probs).translate t = .error .attributeError := rfl

/-- The full property C24: for every numeric distribution and every non-zero factor (an integer for integer variables), the
probability of the scaled set under the scaled distribution is the old probability of the set. -/
def C24_full : Prop := ∀ (d : Leaf) (s : ℝ), d.Valid → s ≠ 0 → (∀ v probs, d ≠ .symbolic v probs) →
  (∀ v probs, d = .integer v probs → ∃ k : ℤ, s = k) →
  ∃ d', d.rescale (fun _ => some s) = .ok d' ∧ ∀ I, d'.prob (scaleSet s (.interval I)) = d.prob (.interval I)

/-- C24 for whole circuits whose leaves are uniform distributions with positive factors and integer distributions with non-zero
integer factors.  Missing: Dirac distributions and uniform distributions with negative factors (wrong in the code), Gaussian
distributions (the call raises), single-leaf circuits (nothing happens). -/
theorem C24_scale_partial {g : Circuit} {r : Node} {sc : Node → Finset Var} (hL : Layered g r) (hs : Scoped g sc)
    (hr : ∀ d, g.kind? r ≠ some (.leaf d)) (hv : ∀ n d, g.kind? n = some (.leaf d) → d.Valid)
    {t : Var → Option ℝ} {s : Var → ℝ} (ht : ∀ v ∈ sc r, t v = some (s v))
    (h : ∀ n d, g.kind? n = some (.leaf d) → (∃ v lo hi l r, d = .uniform v lo hi l r ∧ 0 < s v) ∨
      (∃ (v : Var) (probs : List (ℤ × ℝ)) (k : ℤ), d = .integer v probs ∧ s v = k ∧ k ≠ 0)) :
    ∃ g', g.rescale t = .ok g' ∧ Layered g' r ∧ Scoped g' sc ∧ (∀ n d, g'.kind? n = some (.leaf d) → d.Valid) ∧
      ∀ m E, g'.probabilityOfSimpleEvent m (scaleEvent s E) = g.probabilityOfSimpleEvent m E := by
  have hmem : ∀ n d, g.kind? n = some (.leaf d) → d.var ∈ sc r := fun n d hk =>
    scope_mono hL.wf hL.leaves hs (root_mem hL.root).1
      (reachable_of_root hL.wf hL.graded.acyclic hL.root n (mem_ids_of_kind? hk)) (by rw [hs.leaf n d hk]; simp)
  have hex : ∀ d, ∃ d', (∃ n, g.kind? n = some (.leaf d)) → d.rescale t = .ok d' ∧ d'.var = d.var ∧ d'.Valid ∧
      ∀ A, d'.prob (scaleSet (s d.var) A) = d.prob A := by
    intro d
    by_cases h' : ∃ n, g.kind? n = some (.leaf d)
    · obtain ⟨n, hk⟩ := h'
      obtain ⟨d', h'⟩ := leaf_rescale (hv n d hk) (ht _ (hmem n d hk)) (by
        rcases h n d hk with ⟨v, lo, hi, l, r, rfl, h1⟩ | ⟨v, probs, k, rfl, h1, h2⟩
        · exact Or.inl ⟨v, lo, hi, l, r, rfl, h1⟩
        · exact Or.inr ⟨v, probs, k, rfl, h1, h2⟩)
      exact ⟨d', fun _ => h'⟩
    · exact ⟨d, fun h => absurd h h'⟩
  choose ψ hψ using hex
  have hψ' : ∀ n d, g.kind? n = some (.leaf d) → _ := fun n d hk => hψ d ⟨n, hk⟩
  refine ⟨_, changeLeaves_eq hL hr fun n d hk => (hψ' n d hk).1, mapLeaves_layered hL ψ,
    mapLeaves_scoped hs fun n d hk => (hψ' n d hk).2.1, ?_, fun m E => ?_⟩
  · intro n d' hk
    obtain ⟨d, hd, rfl⟩ := kind?_mapLeaves_leaf.1 hk
    exact (hψ' n d hd).2.2.1
  · unfold probabilityOfSimpleEvent
    refine query_mapLeaves (A := forwardAlg fun d => d.probEvent E) (A' := forwardAlg fun d => d.probEvent (scaleEvent s E)) ?_ rfl rfl m
    intro n d hk
    obtain ⟨_, h2, _, h4⟩ := hψ' n d hk
    have hget : (scaleEvent s E).get d.var = (E.get d.var).map (scaleSet (s d.var)) := by
      unfold scaleEvent SimpleEvent.get
      rw [List.find?_map]
      have : ((fun p : Var × VSet => p.1 == d.var) ∘ fun p : Var × VSet => (p.1, scaleSet (s p.1) p.2)) = fun p => p.1 == d.var := rfl
      rw [this]
      cases hf : E.find? fun p => p.1 == d.var with
      | none => rfl
      | some p =>
        have : p.1 = d.var := by simpa using List.find?_some hf
        simp [Except.map, this]
    simp only [forwardAlg, Leaf.probEvent, h2, hget]
    cases E.get d.var with
    | error e => rfl
    | ok A => exact h4 A

/-- The hypotheses are met by the example circuit with a shared unit and the factors `3` and `1/2`. -/
example : ∃ g', Ex.dag.rescale (fun v => if v = 0 then some 3 else some (1 / 2)) = .ok g' ∧
    ∀ m E, g'.probabilityOfSimpleEvent m (scaleEvent (fun v => if v = 0 then 3 else 1 / 2) E) = Ex.dag.probabilityOfSimpleEvent m E := by
  obtain ⟨g', h, _, _, _, h'⟩ := C24_scale_partial Ex.dag_layered Ex.dag_scoped
    (fun d h => by injection (show some (.sum : Kind Leaf) = some (.leaf d) from h) with h; cases h) Ex.dag_valid
    (t := fun v => if v = 0 then some 3 else some (1 / 2)) (s := fun v => if v = 0 then 3 else 1 / 2)
    (fun v _ => by by_cases h : v = 0 <;> simp [h])
    (fun n d hk => Or.inl (Ex.forall_kind (g := Ex.dag) (P := fun _ k => ∀ d, k = .leaf d → ∃ v lo hi l r,
      d = .uniform v lo hi l r ∧ 0 < (if v = 0 then (3 : ℝ) else 1 / 2)) (by simp [Ex.dag]) n _ hk d rfl))
  exact ⟨g', h, h'⟩

/-- C24 is false of the code: scaling the Dirac distribution at `1` by `2` puts the mass at `3`. -/
theorem C24_full_false : ¬ C24_full := by
  intro H
  obtain ⟨d', h, h'⟩ := H (.dirac 0 1 1) 2 one_pos (by norm_num) (by simp) (by simp)
  have h0 : (Leaf.dirac 0 1 1).rescale (fun _ => some 2) = .ok (.dirac 0 (1 + 2) 1) := rfl
  rw [h0] at h
  injection h with h
  subst h
  have := h' [⟨1, 1, closed, closed⟩]
  simp only [scaleSet, List.map_cons, List.map_nil, Leaf.prob] at this
  injection this with this
  have h1 : (VSet.interval [⟨1, 1, closed, closed⟩]).Mem (1 : ℝ) :=
    ⟨_, List.mem_cons_self, show (1 : EReal) ≤ ((1 : ℝ) : EReal) by simp, show ((1 : ℝ) : EReal) ≤ 1 by simp⟩
  have h2 : ¬ (VSet.interval [scaleInterval 2 ⟨1, 1, closed, closed⟩]).Mem ((1 : ℝ) + 2) := by
    rintro ⟨i, hi, hm⟩
    rw [List.mem_singleton.1 hi] at hm
    have h2 : ((1 + 2 : ℝ) : EReal) ≤ 1 * ((2 : ℝ) : EReal) := by
      have := hm.2
      rw [scaleInterval, if_pos (by norm_num)] at this
      exact this
    rw [one_mul, EReal.coe_le_coe_iff] at h2
    norm_num at h2
  rw [if_pos h1, if_neg h2] at this
  norm_num at this

/-- `scale` of a Gaussian raises `TypeError` for every factor: the attribute `scale` (the standard deviation) hides the method. -/
theorem C24_gaussian_raises (t : Var → Option ℝ) (v : Var) (μ σ : ℝ) : (Leaf.gaussian v μ σ).rescale t = .error .typeError := rfl

/-- A negative factor turns a uniform distribution into one whose interval has its bounds in the wrong order. -/
theorem C24_uniform_negative {v : Var} {lo hi s : ℝ} {l r : PM.Bound} (h : lo < hi) (hs : s < 0) :
    ∃ d', (Leaf.uniform v lo hi l r).rescale (fun _ => some s) = .ok d' ∧ ¬ d'.Valid :=
  ⟨.uniform v (lo * s) (hi * s) l r, rfl, fun h' => absurd (show lo * s < hi * s from h') (not_lt.2 (mul_lt_mul_of_neg_right h hs).le)⟩

end PM.Props
