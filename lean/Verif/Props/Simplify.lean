import Verif.Props.ExampleTools
import Verif.Props.Queries
import Verif.Props.Probability
import Verif.Circuit.SimplifyStep

/-!
# C11: `simplify`

`simplify` keeps the distribution of trees, and of circuits that share units only where there is nothing to simplify
(`Spec.SafeSharing`).  It does not keep it in general: a shared grandchild's weight is overwritten, and an edge of weight
zero leaves an unreachable second root.
-/

namespace PM.Props

open Spec Graph

/-- **C11, the full statement**: on every layered, smooth, decomposable circuit with normalized sum units, `simplify`
succeeds, and the likelihood of every point and the probability of every event are the same before and after. -/
def C11_full : Prop := ∀ (g : Circuit) (r : Node) (sc : Node → Finset Var), Layered g r → Scoped g sc → Decomposable g sc →
  (∀ n d, g.kind? n = some (.leaf d) → d.Valid) → NormalizedSums g →
  ∃ g', g.simplify = .ok g' ∧ (∀ x, g'.likelihood freshMem x = g.likelihood freshMem x) ∧
    ∀ dom, DomainFor g dom → ∀ Es : Event, (∀ E ∈ Es, EventFor g (sc r) E) →
      (g'.probability freshMem dom Es).2 = (g.probability freshMem dom Es).2

variable {g : Circuit} {r : Node} {sc : Node → Finset Var}

/-- On circuits with safe sharing and without zero weights, `simplify` succeeds with a single-rooted circuit that has the
same value for *every* assignment of numbers to leaves (so: same density, same probabilities, same expectations), the same
variables, and is again smooth, decomposable and normalized; its leaves are leaves of the original. -/
theorem C11_value_partial (hL : Layered g r) (hs : Scoped g sc) (hdec : Decomposable g sc) (hn : NormalizedSums g)
    (hp : PositiveWeights g) (hsh : SafeSharing g) :
    ∃ g' r', g.simplify = .ok g' ∧ g'.root = .ok r' ∧
      (∀ (ℓ : Leaf → ℝ) f f', CircuitValue g ℓ f → CircuitValue g' ℓ f' → f' r' = f r) ∧
      Scoped g' sc ∧ Decomposable g' sc ∧ sc r' = sc r ∧ NormalizedSums g' ∧
      ∀ n k, g'.kind? n = some k → g.kind? n = some k := by
  obtain ⟨g', r', depth, h1, h2, h3, hnorm⟩ := simplify_safe hL hsh hp hn
  obtain ⟨h4, h5, h6⟩ := h3.scope sc hs hdec
  refine ⟨g', r', h1, h3.root, ?_, h4, h5, h6, hnorm, h3.kind⟩
  intro ℓ f f' hf hf'
  obtain ⟨h7, h8⟩ := h3.value ℓ f hf
  rw [← h8]
  exact circuitValue_unique h2.wf h2.acyclic hf' h7 r' (root_mem h3.root).1

/-- As above, for the API: if the simplified circuit is still layered, then likelihoods and probabilities are the same,
whatever earlier queries left in the units. -/
theorem C11_queries_partial (hL : Layered g r) (hs : Scoped g sc) (hdec : Decomposable g sc)
    (hv : ∀ n d, g.kind? n = some (.leaf d) → d.Valid) (hn : NormalizedSums g)
    (hp : PositiveWeights g) (hsh : SafeSharing g) :
    ∃ g', g.simplify = .ok g' ∧ (g'.Graded →
      (∀ x m m', g'.likelihood m x = g.likelihood m' x) ∧
      ∀ dom, DomainFor g dom → ∀ Es : Event, (∀ E ∈ Es, EventFor g (sc r) E) → ∀ m m',
        (g'.probability m dom Es).2 = (g.probability m' dom Es).2) := by
  obtain ⟨g', r', depth, h1, h2, h3, hnorm⟩ := simplify_safe hL hsh hp hn
  obtain ⟨h4, h5, h6⟩ := h3.scope sc hs hdec
  refine ⟨g', h1, fun hgr => ?_⟩
  have hL' : Layered g' r' := ⟨h2.wf, hgr, h2.leaves, fun n hk e he => by
    obtain ⟨x, hx⟩ := h2.pos n hk e he; simp [hx], h3.root⟩
  have hv' : ∀ n d, g'.kind? n = some (.leaf d) → d.Valid := fun n d h => hv n d (h3.kind n _ h)
  constructor
  · intro x m m'
    obtain ⟨f, hf⟩ := exists_circuitValue hL.graded.acyclic (fun d : Leaf => leafDensity d (x d.var))
    obtain ⟨h7, h8⟩ := h3.value _ f hf
    obtain ⟨_, _, _, _, h9⟩ := C01_loglikelihood hL hs hv x hf m'
    obtain ⟨_, _, _, _, h10⟩ := C01_loglikelihood hL' h4 hv' x h7 m
    rw [h9, h10, h8]
  · intro dom hdom Es hE m m'
    choose p hp using fun E : SimpleEvent => exists_probValue hL E
    have hdom' : DomainFor g' dom := ⟨hdom.disjoint, fun n d h => hdom.fits n d (h3.kind n _ h),
      fun n d h => hdom.covers n d (h3.kind n _ h)⟩
    have hE' : ∀ E ∈ Es, EventFor g' (sc r') E := fun E hm => ⟨(hE E hm).nodup, by rw [h6]; exact (hE E hm).keys,
      (hE E hm).disjoint, fun q hq n d h => (hE E hm).fits q hq n d (h3.kind n _ h)⟩
    rw [probability_eq hL hs hv hdom hE (fun E _ => hp E) m',
      probability_eq hL' h4 hv' hdom' hE' (fun E _ => (h3.value _ _ (hp E)).1) m]
    simp only [(h3.value _ _ (hp _)).2]

/-- **C11, proved part**: on every tree without zero weights (smooth, decomposable, normalized), `simplify` succeeds with
a tree, and the likelihood of every point and the probability of every event are the same before and after.  Missing:
circuits with zero weights and circuits with shared units, for which it is false (`C11_full_false_shared`,
`C11_full_false_zero_weight`, `C11_full_false_layering`). -/
theorem C11_tree_partial (hL : Layered g r) (hs : Scoped g sc) (hdec : Decomposable g sc)
    (hv : ∀ n d, g.kind? n = some (.leaf d) → d.Valid) (hn : NormalizedSums g)
    (hp : PositiveWeights g) (ht : TreeShaped g) :
    ∃ g', g.simplify = .ok g' ∧ TreeShaped g' ∧ (∃ r', Layered g' r') ∧
      (∀ x m m', g'.likelihood m x = g.likelihood m' x) ∧
      ∀ dom, DomainFor g dom → ∀ Es : Event, (∀ E ∈ Es, EventFor g (sc r) E) → ∀ m m',
        (g'.probability m dom Es).2 = (g.probability m' dom Es).2 := by
  obtain ⟨g', r', depth, h1, h2, h3, hnorm⟩ := simplify_safe hL ht.safeSharing hp hn
  have ht' := h3.tree ht
  have hgr := treeShaped_graded ht' h2.desc
  obtain ⟨g'', h1', h4⟩ := C11_queries_partial hL hs hdec hv hn hp ht.safeSharing
  rw [h1] at h1'
  injection h1' with h1'
  subst h1'
  obtain ⟨h5, h6⟩ := h4 hgr
  exact ⟨g', h1, ht', ⟨r', h2.wf, hgr, h2.leaves, fun n hk e he => by
    obtain ⟨x, hx⟩ := h2.pos n hk e he; simp [hx], h3.root⟩, h5, h6⟩

/-! ### A tree to which it applies -/

/-- `0: ⊕ → 1: ⊕ (½), 2: ⊗ (½)`, `1 → 3: U₀[0,1] (¼), 4: U₀[0,2] (¾)`, `2 → 5: U₀[0,4]`: a nested sum unit and a product
unit with one child. -/
noncomputable def nested : Circuit where
  nodes := [(0, .sum), (1, .sum), (2, .prod), (3, .leaf (.uniform 0 0 1 .closed .closed)),
    (4, .leaf (.uniform 0 0 2 .closed .closed)), (5, .leaf (.uniform 0 0 4 .closed .closed))]
  edges := [⟨0, 1, Ex.lw (1 / 2)⟩, ⟨0, 2, Ex.lw (1 / 2)⟩, ⟨1, 3, Ex.lw (1 / 4)⟩, ⟨1, 4, Ex.lw (3 / 4)⟩, ⟨2, 5, none⟩]

theorem nested_layered : Layered nested 0 where
  wf := ⟨by decide, by simp [nested], by simp [nested, ids], by simp [nested, ids]⟩
  graded := ⟨fun n => if n = 0 then 0 else if n ≤ 2 then 1 else 2, by simp [nested]⟩
  leaves := Ex.leafTerminal_of (by simp [nested, succ, outEdges])
  weighted := Ex.weighted_of (by simp [nested, outEdges, Ex.lw])
  root := by simp [root, nested, ids, inDegree, inEdges]

theorem nested_scoped : Scoped nested (fun _ => {0}) :=
  Ex.scoped_of (by simp [nested, Leaf.var]) (by simp [nested, succ, outEdges]) (by simp [nested, succ, outEdges])

theorem nested_decomposable : Decomposable nested (fun _ => {0}) :=
  Ex.decomposable_of (by simp [nested, succ, outEdges])

theorem nested_valid : ∀ n d, nested.kind? n = some (.leaf d) → d.Valid :=
  Ex.valid_of (by simp [nested, Leaf.Valid])

theorem nested_normalized : NormalizedSums nested := Ex.normalized_of (by
  simp only [nested, outEdges, List.filter_cons, List.filter_nil]
  simp (disch := norm_num) [Ex.linWeight_lw, -one_div]
  norm_num)

example : Layered nested 0 ∧ Scoped nested (fun _ => {0}) ∧ Decomposable nested (fun _ => {0}) ∧
    (∀ n d, nested.kind? n = some (.leaf d) → d.Valid) ∧ NormalizedSums nested ∧ PositiveWeights nested ∧ TreeShaped nested :=
  ⟨nested_layered, nested_scoped, nested_decomposable, nested_valid, nested_normalized,
    Ex.positive_of (by simp [nested, outEdges, Ex.lw]), by simp [TreeShaped, nested]⟩

/-- It is rewritten: both inner units disappear. -/
example : ∃ g', nested.simplify = .ok g' ∧ g'.ids = [0, 3, 4, 5] ∧ g'.succ 0 = [5, 3, 4] := by
  have h0 : nested.root = .ok 0 := nested_layered.root
  have h1 : nested.bottomUp 0 = [3, 4, 5, 1, 2, 0] := rfl
  simp only [simplify, h0, h1]
  exact ⟨_, rfl, rfl, rfl⟩

/-- The circuit `Ex.dag`, which shares a leaf between two products, has safe sharing. -/
example : SafeSharing Ex.dag := by
  have h1 : (Ex.dag.succ 1).length = 2 := rfl
  have h2 : (Ex.dag.succ 2).length = 2 := rfl
  have k1 : Ex.dag.kind? 1 = some .prod := rfl
  have k2 : Ex.dag.kind? 2 = some .prod := rfl
  have k3 : Ex.dag.kind? 3 = some (.leaf (.uniform 0 0 1 .closed .closed)) := rfl
  have he : Ex.dag.edges = [⟨0, 1, some (.fin (Real.log (1 / 4)))⟩, ⟨0, 2, some (.fin (Real.log (3 / 4)))⟩, ⟨1, 3, none⟩,
    ⟨1, 4, none⟩, ⟨2, 3, none⟩, ⟨2, 5, none⟩] := rfl
  simp [SafeSharing, SafeParent, he, h1, h2, k1, k2, k3]

/-! ### Shared grandchildren -/

/-- `0: ⊕ → 1: ⊕ (½), 2: ⊕ (½)`, `1 → 3 (½), 4 (½)`, `2 → 3 (⅕), 4 (⅘)` with `3: U₀[0,1]`, `4: U₀[2,3]`: two mixtures
of the same two components. -/
noncomputable def overlap : Circuit where
  nodes := [(0, .sum), (1, .sum), (2, .sum), (3, .leaf (.uniform 0 0 1 .closed .closed)),
    (4, .leaf (.uniform 0 2 3 .closed .closed))]
  edges := [⟨0, 1, Ex.lw (1 / 2)⟩, ⟨0, 2, Ex.lw (1 / 2)⟩, ⟨1, 3, Ex.lw (1 / 2)⟩, ⟨1, 4, Ex.lw (1 / 2)⟩,
    ⟨2, 3, Ex.lw (1 / 5)⟩, ⟨2, 4, Ex.lw (4 / 5)⟩]

/-- `overlap` after `simplify`: the weights of the second mixture have overwritten those of the first. -/
noncomputable def overlapAfter : Circuit where
  nodes := [(0, .sum), (3, .leaf (.uniform 0 0 1 .closed .closed)), (4, .leaf (.uniform 0 2 3 .closed .closed))]
  edges := [⟨0, 3, some (.fin (Real.log (1 / 5) + Real.log (1 / 2)))⟩,
    ⟨0, 4, some (.fin (Real.log (4 / 5) + Real.log (1 / 2)))⟩]

theorem overlap_layered : Layered overlap 0 where
  wf := ⟨by decide, by simp [overlap], by simp [overlap, ids], by simp [overlap, ids]⟩
  graded := ⟨fun n => if n = 0 then 0 else if n ≤ 2 then 1 else 2, by simp [overlap]⟩
  leaves := Ex.leafTerminal_of (by simp [overlap, succ, outEdges])
  weighted := Ex.weighted_of (by simp [overlap, outEdges, Ex.lw])
  root := by simp [root, overlap, ids, inDegree, inEdges]

theorem overlap_scoped : Scoped overlap (fun _ => {0}) :=
  Ex.scoped_of (by simp [overlap, Leaf.var]) (by simp [overlap, succ, outEdges]) (by simp [overlap, succ, outEdges])

theorem overlap_valid : ∀ n d, overlap.kind? n = some (.leaf d) → d.Valid :=
  Ex.valid_of (by simp [overlap, Leaf.Valid]; norm_num)

theorem overlap_normalized : NormalizedSums overlap := Ex.normalized_of (by
  simp only [overlap, outEdges, List.filter_cons, List.filter_nil]
  simp (disch := norm_num) [Ex.linWeight_lw, -one_div]
  norm_num)

theorem overlapAfter_layered : Layered overlapAfter 0 where
  wf := ⟨by decide, by simp [overlapAfter], by simp [overlapAfter, ids], by simp [overlapAfter, ids]⟩
  graded := ⟨fun n => if n = 0 then 0 else 1, by simp [overlapAfter]⟩
  leaves := Ex.leafTerminal_of (by simp [overlapAfter, succ, outEdges])
  weighted := Ex.weighted_of (by simp [overlapAfter, outEdges])
  root := by simp [root, overlapAfter, ids, inDegree, inEdges]

theorem overlapAfter_scoped : Scoped overlapAfter (fun _ => {0}) :=
  Ex.scoped_of (by simp [overlapAfter, Leaf.var]) (by simp [overlapAfter, succ, outEdges])
    (by simp [overlapAfter])

theorem overlap_simplify : overlap.simplify = .ok overlapAfter := by
  have h0 : overlap.root = .ok 0 := overlap_layered.root
  have h1 : overlap.bottomUp 0 = [3, 4, 1, 2, 0] := rfl
  simp only [simplify, h0, h1]
  rfl

/-- The likelihood at `0` is `7/20` before … -/
theorem overlap_likelihood : overlap.likelihood freshMem (fun _ => 0) = .ok (7 / 20) := by
  have hf : CircuitValue overlap (fun d => leafDensity d ((fun _ => 0) d.var))
      (fun n => if n = 0 then 7 / 20 else if n = 1 then 1 / 2 else if n = 2 then 1 / 5 else if n = 3 then 1 else 0) := by
    refine Ex.value_of ?_ ?_ ?_
    · simp [overlap]
      rw [Ex.uniform_inside (by norm_num) (by norm_num), Ex.uniform_outside (by norm_num)]; norm_num
    · simp only [overlap, outEdges, List.filter_cons, List.filter_nil]
      simp (disch := norm_num) [Ex.linWeight_lw, -one_div]
      norm_num
    · simp [overlap]
  obtain ⟨_, _, _, _, h⟩ := C01_loglikelihood overlap_layered overlap_scoped overlap_valid (fun _ => 0) hf freshMem
  simpa using h

/-- … and `1/10` after `simplify`. -/
theorem overlapAfter_likelihood : overlapAfter.likelihood freshMem (fun _ => 0) = .ok (1 / 10) := by
  have hf : CircuitValue overlapAfter (fun d => leafDensity d ((fun _ => 0) d.var))
      (fun n => if n = 0 then 1 / 10 else if n = 3 then 1 else 0) := by
    refine Ex.value_of ?_ ?_ ?_
    · simp [overlapAfter]
      rw [Ex.uniform_inside (by norm_num) (by norm_num), Ex.uniform_outside (by norm_num)]; norm_num
    · simp [overlapAfter, outEdges, linWeight, Real.exp_add, Real.exp_log, Real.exp_neg]
      norm_num
    · simp [overlapAfter]
  obtain ⟨_, _, _, _, h⟩ := C01_loglikelihood overlapAfter_layered overlapAfter_scoped
    (Ex.valid_of (by simp [overlapAfter, Leaf.Valid]; norm_num)) (fun _ => 0) hf freshMem
  simpa using h

/-- **C11 is false**: with two mixtures of the same two components, `simplify` changes the likelihood (all weights are
positive). -/
theorem C11_full_false_shared : ¬ C11_full := by
  intro h
  obtain ⟨g', h1, h2, _⟩ := h overlap 0 _ overlap_layered overlap_scoped
    (Ex.decomposable_of (by simp [overlap])) overlap_valid overlap_normalized
  rw [overlap_simplify] at h1
  injection h1 with h1
  subst h1
  have h3 := h2 (fun _ => 0)
  rw [overlap_likelihood, overlapAfter_likelihood] at h3
  injection h3 with h3
  norm_num at h3

/-! ### Zero weights -/

/-- `0: ⊕ → 1: U₀[0,1] (1), 2: U₀[2,3] (0)`. -/
noncomputable def zeroEdge : Circuit where
  nodes := [(0, .sum), (1, .leaf (.uniform 0 0 1 .closed .closed)), (2, .leaf (.uniform 0 2 3 .closed .closed))]
  edges := [⟨0, 1, some (.fin 0)⟩, ⟨0, 2, some .negInf⟩]

/-- After `simplify` the second leaf has no parent. -/
noncomputable def zeroEdgeAfter : Circuit := { zeroEdge with edges := [⟨0, 1, some (.fin 0)⟩] }

theorem zeroEdge_layered : Layered zeroEdge 0 where
  wf := ⟨by decide, by simp [zeroEdge], by simp [zeroEdge, ids], by simp [zeroEdge, ids]⟩
  graded := ⟨fun n => if n = 0 then 0 else 1, by simp [zeroEdge]⟩
  leaves := Ex.leafTerminal_of (by simp [zeroEdge, succ, outEdges])
  weighted := Ex.weighted_of (by simp [zeroEdge, outEdges])
  root := by simp [root, zeroEdge, ids, inDegree, inEdges]

theorem zeroEdge_simplify : zeroEdge.simplify = .ok zeroEdgeAfter := by
  have h0 : zeroEdge.root = .ok 0 := zeroEdge_layered.root
  have h1 : zeroEdge.bottomUp 0 = [1, 2, 0] := rfl
  simp only [simplify, h0, h1]
  rfl

/-- After `simplify` the circuit has two roots, and every query raises `ValueError`. -/
theorem zeroEdgeAfter_fails (x : Var → ℝ) : zeroEdgeAfter.likelihood freshMem x = .error .valueError := by
  have h : zeroEdgeAfter.root = .error .valueError := by
    simp [root, zeroEdgeAfter, zeroEdge, ids, inDegree, inEdges]
  simp [likelihood, logLikelihood, circuitVars, h, Except.map]

/-- **C11 is false** also for trees with an edge of weight zero: `simplify` leaves a circuit that raises. -/
theorem C11_full_false_zero_weight : ¬ C11_full := by
  intro h
  have hsc : Scoped zeroEdge (fun _ => {0}) :=
    Ex.scoped_of (by simp [zeroEdge, Leaf.var]) (by simp [zeroEdge, succ, outEdges]) (by simp [zeroEdge])
  have hv : ∀ n d, zeroEdge.kind? n = some (.leaf d) → d.Valid :=
    Ex.valid_of (by simp [zeroEdge, Leaf.Valid]; norm_num)
  obtain ⟨g', h1, h2, _⟩ := h zeroEdge 0 _ zeroEdge_layered hsc (Ex.decomposable_of (by simp [zeroEdge])) hv
    (Ex.normalized_of (by simp [zeroEdge, outEdges, linWeight]))
  rw [zeroEdge_simplify] at h1
  injection h1 with h1
  subst h1
  have h3 := h2 (fun _ => 0)
  obtain ⟨⟨f, hf⟩, _⟩ := C01_formula_exists_unique zeroEdge_layered (fun _ => 0)
  obtain ⟨_, _, _, _, h4⟩ := C01_loglikelihood zeroEdge_layered hsc hv (fun _ => 0) hf freshMem
  rw [h4, zeroEdgeAfter_fails] at h3
  cases h3

/-! ### Lost layering -/

/-- `0: ⊕ → 1: ⊗ (½), 2: ⊕ (½)`, `1 → 3: ⊕, 7: U₁[0,1]`, `3 → 5: U₀[0,1] (½), 6: U₀[0,2] (½)`, `2 → 4: ⊗ (1)`,
`4 → 5, 8: U₁[0,2]`: layered, with safe sharing; the sum unit `2` has one child. -/
noncomputable def uneven : Circuit where
  nodes := [(0, .sum), (1, .prod), (2, .sum), (3, .sum), (4, .prod), (5, .leaf (.uniform 0 0 1 .closed .closed)),
    (6, .leaf (.uniform 0 0 2 .closed .closed)), (7, .leaf (.uniform 1 0 1 .closed .closed)),
    (8, .leaf (.uniform 1 0 2 .closed .closed))]
  edges := [⟨0, 1, Ex.lw (1 / 2)⟩, ⟨0, 2, Ex.lw (1 / 2)⟩, ⟨1, 3, none⟩, ⟨1, 7, none⟩, ⟨3, 5, Ex.lw (1 / 2)⟩,
    ⟨3, 6, Ex.lw (1 / 2)⟩, ⟨2, 4, Ex.lw 1⟩, ⟨4, 5, none⟩, ⟨4, 8, none⟩]

/-- `uneven` after `simplify`: unit `5` is two and three steps below the root. -/
noncomputable def unevenAfter : Circuit where
  nodes := [(0, .sum), (1, .prod), (3, .sum), (4, .prod), (5, .leaf (.uniform 0 0 1 .closed .closed)),
    (6, .leaf (.uniform 0 0 2 .closed .closed)), (7, .leaf (.uniform 1 0 1 .closed .closed)),
    (8, .leaf (.uniform 1 0 2 .closed .closed))]
  edges := [⟨0, 1, Ex.lw (1 / 2)⟩, ⟨1, 3, none⟩, ⟨1, 7, none⟩, ⟨3, 5, Ex.lw (1 / 2)⟩,
    ⟨3, 6, Ex.lw (1 / 2)⟩, ⟨4, 5, none⟩, ⟨4, 8, none⟩, ⟨0, 4, Ex.lw (1 / 2)⟩]

def unevenScope : Node → Finset Var := fun n =>
  if n = 3 ∨ n = 5 ∨ n = 6 then {0} else if n = 7 ∨ n = 8 then {1} else {0, 1}

theorem uneven_layered : Layered uneven 0 where
  wf := ⟨by decide, by simp [uneven], by simp [uneven, ids], by simp [uneven, ids]⟩
  graded := ⟨fun n => if n = 0 then 0 else if n ≤ 2 then 1 else if n = 3 ∨ n = 4 ∨ n = 7 then 2 else 3, by simp [uneven]⟩
  leaves := Ex.leafTerminal_of (by simp [uneven, succ, outEdges])
  weighted := Ex.weighted_of (by simp [uneven, outEdges, Ex.lw])
  root := by simp [root, uneven, ids, inDegree, inEdges]

theorem uneven_scoped : Scoped uneven unevenScope := by
  have h0 : uneven.succ 0 = [1, 2] := rfl
  have h1 : uneven.succ 1 = [3, 7] := rfl
  have h2 : uneven.succ 2 = [4] := rfl
  have h3 : uneven.succ 3 = [5, 6] := rfl
  have h4 : uneven.succ 4 = [5, 8] := rfl
  have hn : uneven.nodes = [(0, .sum), (1, .prod), (2, .sum), (3, .sum), (4, .prod),
    (5, .leaf (.uniform 0 0 1 .closed .closed)), (6, .leaf (.uniform 0 0 2 .closed .closed)),
    (7, .leaf (.uniform 1 0 1 .closed .closed)), (8, .leaf (.uniform 1 0 2 .closed .closed))] := rfl
  refine Ex.scoped_of ?_ ?_ ?_ <;> simp [hn, h0, h1, h2, h3, h4, unevenScope, Leaf.var]

theorem uneven_decomposable : Decomposable uneven unevenScope := by
  have h1 : uneven.succ 1 = [3, 7] := rfl
  have h4 : uneven.succ 4 = [5, 8] := rfl
  have hn : uneven.nodes = [(0, .sum), (1, .prod), (2, .sum), (3, .sum), (4, .prod),
    (5, .leaf (.uniform 0 0 1 .closed .closed)), (6, .leaf (.uniform 0 0 2 .closed .closed)),
    (7, .leaf (.uniform 1 0 1 .closed .closed)), (8, .leaf (.uniform 1 0 2 .closed .closed))] := rfl
  refine Ex.decomposable_of ?_
  simp [hn, h1, h4, unevenScope]

theorem uneven_safe : SafeSharing uneven ∧ PositiveWeights uneven ∧ NormalizedSums uneven := by
  refine ⟨?_, Ex.positive_of (by simp [uneven, outEdges, Ex.lw]), Ex.normalized_of ?_⟩
  · have h1 : (uneven.succ 1).length = 2 := rfl
    have h3 : (uneven.succ 3).length = 2 := rfl
    have h4 : (uneven.succ 4).length = 2 := rfl
    have k1 : uneven.kind? 1 = some .prod := rfl
    have k3 : uneven.kind? 3 = some .sum := rfl
    have k4 : uneven.kind? 4 = some .prod := rfl
    have k5 : uneven.kind? 5 = some (.leaf (.uniform 0 0 1 .closed .closed)) := rfl
    have he : uneven.edges = [⟨0, 1, Ex.lw (1 / 2)⟩, ⟨0, 2, Ex.lw (1 / 2)⟩, ⟨1, 3, none⟩, ⟨1, 7, none⟩,
      ⟨3, 5, Ex.lw (1 / 2)⟩, ⟨3, 6, Ex.lw (1 / 2)⟩, ⟨2, 4, Ex.lw 1⟩, ⟨4, 5, none⟩, ⟨4, 8, none⟩] := rfl
    have hp : ∀ e ∈ uneven.edges, (e.src, e.dst) ∈ [(0, 1), (0, 2), (1, 3), (1, 7), (3, 5), (3, 6), (2, 4), (4, 5), (4, 8)] := by
      simp [he]
    have hsh : ∀ p ∈ [(0, 1), (0, 2), (1, 3), (1, 7), (3, 5), (3, 6), (2, 4), (4, 5), (4, 8)],
        ∀ q ∈ [(0, 1), (0, 2), (1, 3), (1, 7), (3, 5), (3, 6), (2, 4), (4, 5), (4, 8)], p.2 = q.2 → p.1 ≠ q.1 →
        (p.1 = 3 ∨ p.1 = 4) ∧ p.2 = 5 := by decide
    intro e hm e' hm' hd hs
    obtain ⟨h5, h6⟩ := hsh _ (hp e hm) _ (hp e' hm') hd hs
    simp only at h5 h6
    refine ⟨?_, .inl ⟨_, h6 ▸ k5⟩⟩
    rcases h5 with h5 | h5 <;> rw [h5]
    · refine ⟨h3.ge, .inr ⟨k3, ?_⟩⟩
      simp [he, k1, h1]
    · exact ⟨h4.ge, .inl k4⟩
  · have o0 : uneven.outEdges 0 = [⟨0, 1, Ex.lw (1 / 2)⟩, ⟨0, 2, Ex.lw (1 / 2)⟩] := rfl
    have o2 : uneven.outEdges 2 = [⟨2, 4, Ex.lw 1⟩] := rfl
    have o3 : uneven.outEdges 3 = [⟨3, 5, Ex.lw (1 / 2)⟩, ⟨3, 6, Ex.lw (1 / 2)⟩] := rfl
    have hn : uneven.nodes = [(0, .sum), (1, .prod), (2, .sum), (3, .sum), (4, .prod),
      (5, .leaf (.uniform 0 0 1 .closed .closed)), (6, .leaf (.uniform 0 0 2 .closed .closed)),
      (7, .leaf (.uniform 1 0 1 .closed .closed)), (8, .leaf (.uniform 1 0 2 .closed .closed))] := rfl
    simp (disch := norm_num) [hn, o0, o2, o3, Ex.linWeight_lw, -one_div]

theorem uneven_simplify : uneven.simplify = .ok unevenAfter := by
  have h0 : uneven.root = .ok 0 := uneven_layered.root
  have h1 : uneven.bottomUp 0 = [5, 6, 8, 3, 7, 4, 1, 2, 0] := rfl
  simp only [simplify, h0, h1]
  rfl

/-- After `simplify`, `log_likelihood` of a fresh circuit raises `TypeError`, at every point. -/
theorem unevenAfter_fails (x : Var → ℝ) : unevenAfter.likelihood freshMem x = .error .typeError := by
  have hr : unevenAfter.root = .ok 0 := by simp [root, unevenAfter, ids, inDegree, inEdges]
  have hb : unevenAfter.bottomUp 0 = [6, 3, 7, 5, 8, 1, 4, 0] := rfl
  have hv : unevenAfter.circuitVars = .ok ({0} ∪ ({1} ∪ ∅)) := by
    simp only [circuitVars, hr]
    rfl
  simp only [likelihood, logLikelihood, hv, query, hr, hb]
  generalize hA : logLikAlg _ x = A
  have h6 : unevenAfter.evalUnit A freshMem 6 = .ok ((Leaf.uniform 0 0 2 .closed .closed).logLik (x 0)) := by
    rw [← hA]
    have hm : (0 : Var) ∈ ({0} ∪ ({1} ∪ ∅) : Finset Var) := by simp
    exact if_pos (e := .error .keyError) hm
  simp only [passLoop, h6]
  rfl

/-- **C11 is false** also for circuits with safe sharing and positive weights: although the mixture/product formula is
unchanged (`C11_value_partial`), collapsing a single-child unit can destroy the layering that the passes rely on. -/
theorem C11_full_false_layering : ¬ C11_full := by
  intro h
  have hv : ∀ n d, uneven.kind? n = some (.leaf d) → d.Valid := Ex.valid_of (by simp [uneven, Leaf.Valid])
  obtain ⟨g', h1, h2, _⟩ := h uneven 0 _ uneven_layered uneven_scoped uneven_decomposable hv uneven_safe.2.2
  rw [uneven_simplify] at h1
  injection h1 with h1
  subst h1
  have h3 := h2 (fun _ => 0)
  obtain ⟨⟨f, hf⟩, _⟩ := C01_formula_exists_unique uneven_layered (fun _ => 0)
  obtain ⟨_, _, _, _, h4⟩ := C01_loglikelihood uneven_layered uneven_scoped hv (fun _ => 0) hf freshMem
  rw [h4, unevenAfter_fails] at h3
  cases h3

/-- `uneven` meets the hypotheses of `C11_value_partial`. -/
example : Layered uneven 0 ∧ Scoped uneven unevenScope ∧ Decomposable uneven unevenScope ∧ SafeSharing uneven ∧
    PositiveWeights uneven ∧ NormalizedSums uneven :=
  ⟨uneven_layered, uneven_scoped, uneven_decomposable, uneven_safe⟩

end PM.Props
