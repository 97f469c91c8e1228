import Verif.Props.Simplify
import Verif.Circuit.MarginalLemmas

/-!
# C10: `marginal`

`marginal` answers `None` exactly if no variable of the circuit is kept.  On trees, and on circuits whose restriction to the
units with kept variables has safe sharing, it keeps the joint law of the kept variables.  In general it does not, because it
ends with `simplify`.
-/

namespace PM.Props

open Spec Graph

/-- **C10, the full statement** (`vs` are the variables to keep). -/
def C10_full : Prop := ∀ (g : Circuit) (r : Node) (sc : Node → Finset Var), Layered g r → Scoped g sc → Decomposable g sc →
  (∀ n d, g.kind? n = some (.leaf d) → d.Valid) → (∀ n d, g.kind? n = some (.leaf d) → d.Normalized) → NormalizedSums g →
  ∀ vs : Finset Var, (g.marginalInPlace vs = .ok none ↔ Disjoint (sc r) vs) ∧
    (¬ Disjoint (sc r) vs → ∃ g', g.marginalInPlace vs = .ok (some g') ∧
      ∀ dom, DomainFor g dom → ∀ Es : Event, (∀ E ∈ Es, EventFor g (sc r ∩ vs) E) →
        (g'.probability freshMem dom Es).2 = (g.probability freshMem dom Es).2)

variable {g : Circuit} {r : Node} {sc : Node → Finset Var} {vs : Finset Var}

theorem keeps_iff_not_disjoint {n : Node} : keeps sc vs n = true ↔ ¬ Disjoint (sc n) vs := by
  rw [keeps_iff, Finset.not_disjoint_iff]

/-- **C10, first half**: on every layered smooth circuit, `marginal` answers `None` iff no variable of the circuit is kept. -/
theorem C10_none (hL : Layered g r) (hs : Scoped g sc) (vs : Finset Var) :
    g.marginalInPlace vs = .ok none ↔ Disjoint (sc r) vs := by
  rw [marginal_eq hL hs]
  by_cases h : keeps sc vs r
  · rw [if_pos h]
    have h' := keeps_iff_not_disjoint.1 h
    constructor
    · intro h2
      cases hx : (g.induced (keeps sc vs)).simplify with
      | error e => rw [hx] at h2; cases h2
      | ok g' => rw [hx] at h2; simp [Except.map] at h2
    · intro h2; exact absurd h2 h'
  · rw [if_neg h]
    simp only [true_iff]
    by_contra hd
    exact h (keeps_iff_not_disjoint.2 hd)

/-- The value-level core: if the restriction of the circuit to the units with kept variables has safe sharing, the
marginal circuit is single-rooted, has the variables `sc r ∩ vs`, is smooth, decomposable and normalized, and has the same
value at its root as the original for every assignment of numbers to the leaves that is one at the dropped leaves. -/
theorem C10_value_partial (hL : Layered g r) (hs : Scoped g sc) (hdec : Decomposable g sc) (hn : NormalizedSums g)
    (hp : PositiveWeights g) (hvs : ¬ Disjoint (sc r) vs)
    (hsh : SafeSharing (g.induced fun n => decide ((sc n ∩ vs).Nonempty))) :
    ∃ g' r', g.marginalInPlace vs = .ok (some g') ∧ g'.root = .ok r' ∧
      (∀ (ℓ : Leaf → ℝ), (∀ n d, g.kind? n = some (.leaf d) → d.var ∉ vs → ℓ d = 1) →
        ∀ f f', CircuitValue g ℓ f → CircuitValue g' ℓ f' → f' r' = f r) ∧
      Scoped g' (fun n => sc n ∩ vs) ∧ Decomposable g' (fun n => sc n ∩ vs) ∧ sc r' ∩ vs = sc r ∩ vs ∧ NormalizedSums g' ∧
      (∀ n k, g'.kind? n = some k → g.kind? n = some k) := by
  have hk := keeps_iff_not_disjoint.2 hvs
  obtain ⟨g', r', h1, h2, h3, h4, h5, h6, h7, h8⟩ := C11_value_partial (restrict_layered hL hs hk)
    (restrict_scoped (vs := vs) hs) (restrict_decomposable hdec) (restrict_normalized hs hn) (restrict_positive hs hp) hsh
  refine ⟨g', r', ?_, h2, ?_, h4, h5, h6, h7, fun n k h => (kind?_of_induced (h8 n k h)).1⟩
  · rw [marginal_eq hL hs, if_pos hk, h1]; rfl
  · intro ℓ hℓ f f' hf hf'
    exact h3 ℓ f f' (restrict_value hL hs hn hf hℓ) hf'

/-- The same for the API: if the marginal circuit is layered, then it assigns every event over the kept variables the
probability that the original assigns to it. -/
theorem C10_probability_partial (hL : Layered g r) (hs : Scoped g sc) (hdec : Decomposable g sc)
    (hv : ∀ n d, g.kind? n = some (.leaf d) → d.Valid) (hln : ∀ n d, g.kind? n = some (.leaf d) → d.Normalized)
    (hn : NormalizedSums g) (hp : PositiveWeights g) (hvs : ¬ Disjoint (sc r) vs)
    (hsh : SafeSharing (g.induced fun n => decide ((sc n ∩ vs).Nonempty))) :
    ∃ g', g.marginalInPlace vs = .ok (some g') ∧ (g'.Graded →
      (∃ r', Layered g' r') ∧ g'.circuitVars = .ok (sc r ∩ vs) ∧
      ∀ dom, DomainFor g dom → ∀ Es : Event, (∀ E ∈ Es, EventFor g (sc r ∩ vs) E) → ∀ m m',
        (g'.probability m dom Es).2 = (g.probability m' dom Es).2) := by
  have hk := keeps_iff_not_disjoint.2 hvs
  obtain ⟨g', r', depth, h1, h2, h3, hnorm⟩ := simplify_safe (restrict_layered hL hs hk) hsh (restrict_positive hs hp)
    (restrict_normalized hs hn)
  obtain ⟨h4, h5, h6⟩ := h3.scope _ (restrict_scoped (vs := vs) hs) (restrict_decomposable hdec)
  refine ⟨g', ?_, fun hgr => ?_⟩
  · rw [marginal_eq hL hs, if_pos hk]
    show Except.map some (simplify (g.induced (keeps sc vs))) = _
    have : keeps sc vs = fun n => decide ((sc n ∩ vs).Nonempty) := rfl
    rw [h1]; rfl
  have hL' : Layered g' r' := ⟨h2.wf, hgr, h2.leaves, fun n hk e he => by
    obtain ⟨x, hx⟩ := h2.pos n hk e he; simp [hx], h3.root⟩
  have hkind : ∀ n k, g'.kind? n = some k → g.kind? n = some k := fun n k h => (kind?_of_induced (h3.kind n k h)).1
  refine ⟨⟨r', hL'⟩, ?_, ?_⟩
  · rw [circuitVars_eq hL'.wf hL'.graded.acyclic h4 hL'.root]
    exact congrArg _ h6
  intro dom hdom Es hE m m'
  choose p hp using fun E : SimpleEvent => exists_probValue hL E
  have hdom' : DomainFor g' dom := ⟨hdom.disjoint, fun n d h => hdom.fits n d (hkind n _ h),
    fun n d h => hdom.covers n d (hkind n _ h)⟩
  have hE' : ∀ E ∈ Es, EventFor g' (sc r' ∩ vs) E := fun E hm => ⟨(hE E hm).nodup, by rw [h6]; exact (hE E hm).keys,
    (hE E hm).disjoint, fun q hq n d h => (hE E hm).fits q hq n d (hkind n _ h)⟩
  have hE0 : ∀ E ∈ Es, EventFor g (sc r) E := fun E hm => ⟨(hE E hm).nodup,
    fun v h => (Finset.mem_inter.1 ((hE E hm).keys v h)).1, (hE E hm).disjoint, (hE E hm).fits⟩
  have hone : ∀ E ∈ Es, ∀ n d, g.kind? n = some (.leaf d) → d.var ∉ vs → (leafLaw d).real (allowed E d.var) = 1 := by
    intro E hm n d hkd hd
    rw [allowed_of_not_mem (fun h => hd (Finset.mem_inter.1 ((hE E hm).keys _ h)).2), MeasureTheory.measureReal_def,
      leafLaw_univ (hv n d hkd) (hln n d hkd)]
    simp
  have hval := fun E hm => h3.value _ _ (restrict_value hL hs hn (hp E) (hone E hm))
  rw [probability_eq hL hs hv hdom hE0 (fun E _ => hp E) m',
    probability_eq hL' h4 (fun n d h => hv n d (hkind n _ h)) hdom' hE' (fun E hm => (hval E hm).1) m]
  congr 2
  apply List.map_congr_left
  intro E hm
  exact (hval E hm).2

/-- **C10, proved part**: on every tree without zero weights (smooth, decomposable, normalized) and every set of variables
`vs` that meets the variables of the circuit, `marginal(vs)` is a circuit over exactly the kept variables that assigns every
event over them the probability that the original assigns to it.  Missing: shared units and zero weights (false there:
`C10_full_false`, and see C11). -/
theorem C10_tree_partial (hL : Layered g r) (hs : Scoped g sc) (hdec : Decomposable g sc)
    (hv : ∀ n d, g.kind? n = some (.leaf d) → d.Valid) (hln : ∀ n d, g.kind? n = some (.leaf d) → d.Normalized)
    (hn : NormalizedSums g) (hp : PositiveWeights g) (ht : TreeShaped g) (hvs : ¬ Disjoint (sc r) vs) :
    ∃ g', g.marginalInPlace vs = .ok (some g') ∧ (∃ r', Layered g' r') ∧ g'.circuitVars = .ok (sc r ∩ vs) ∧
      ∀ dom, DomainFor g dom → ∀ Es : Event, (∀ E ∈ Es, EventFor g (sc r ∩ vs) E) → ∀ m m',
        (g'.probability m dom Es).2 = (g.probability m' dom Es).2 := by
  have hk := keeps_iff_not_disjoint.2 hvs
  have ht' : TreeShaped (g.induced (keeps sc vs)) := restrict_tree ht
  obtain ⟨g', h1, h2⟩ := C10_probability_partial hL hs hdec hv hln hn hp hvs ht'.safeSharing
  obtain ⟨g'', r', depth, h3, h4, h5, hnorm⟩ := simplify_safe (restrict_layered hL hs hk) ht'.safeSharing
    (restrict_positive hs hp) (restrict_normalized hs hn)
  have : g'' = g' := by
    rw [marginal_eq hL hs, if_pos hk, h3] at h1
    simpa [Except.map] using h1
  subst this
  exact ⟨g'', h1, h2 (treeShaped_graded (h5.tree ht') h4.desc)⟩

/-! ### Examples -/

/-- A tree over two variables: `0: ⊕ → 1: ⊗ (¼), 2: ⊗ (¾)`, `1 → 3: U₀[0,1], 4: U₁[0,2]`, `2 → 5: U₀[2,3], 6: U₁[0,4]`. -/
noncomputable def tree2 : Circuit where
  nodes := [(0, .sum), (1, .prod), (2, .prod), (3, .leaf (.uniform 0 0 1 .closed .closed)),
    (4, .leaf (.uniform 1 0 2 .closed .closed)), (5, .leaf (.uniform 0 2 3 .closed .closed)),
    (6, .leaf (.uniform 1 0 4 .closed .closed))]
  edges := [⟨0, 1, Ex.lw (1 / 4)⟩, ⟨0, 2, Ex.lw (3 / 4)⟩, ⟨1, 3, none⟩, ⟨1, 4, none⟩, ⟨2, 5, none⟩, ⟨2, 6, none⟩]

def tree2Scope : Node → Finset Var := fun n =>
  if n = 3 ∨ n = 5 then {0} else if n = 4 ∨ n = 6 then {1} else {0, 1}

theorem tree2_nodes : tree2.nodes = [(0, .sum), (1, .prod), (2, .prod), (3, .leaf (.uniform 0 0 1 .closed .closed)),
    (4, .leaf (.uniform 1 0 2 .closed .closed)), (5, .leaf (.uniform 0 2 3 .closed .closed)),
    (6, .leaf (.uniform 1 0 4 .closed .closed))] := rfl
theorem tree2_succ0 : tree2.succ 0 = [1, 2] := rfl
theorem tree2_succ1 : tree2.succ 1 = [3, 4] := rfl
theorem tree2_succ2 : tree2.succ 2 = [5, 6] := rfl

theorem tree2_layered : Layered tree2 0 where
  wf := ⟨by decide, by simp [tree2], by simp [tree2, ids], by simp [tree2, ids]⟩
  graded := ⟨fun n => if n = 0 then 0 else if n ≤ 2 then 1 else 2, by simp [tree2]⟩
  leaves := Ex.leafTerminal_of (by simp [tree2, succ, outEdges])
  weighted := Ex.weighted_of (by simp [tree2, outEdges, Ex.lw])
  root := by simp [root, tree2, ids, inDegree, inEdges]

theorem tree2_scoped : Scoped tree2 tree2Scope := by
  refine Ex.scoped_of ?_ ?_ ?_ <;> simp [tree2_nodes, tree2_succ0, tree2_succ1, tree2_succ2, tree2Scope, Leaf.var]

theorem tree2_decomposable : Decomposable tree2 tree2Scope := by
  refine Ex.decomposable_of ?_
  simp [tree2_nodes, tree2_succ1, tree2_succ2, tree2Scope]

theorem tree2_valid : ∀ n d, tree2.kind? n = some (.leaf d) → d.Valid :=
  Ex.valid_of (by simp [tree2, Leaf.Valid]; norm_num)

theorem tree2_normalized : NormalizedSums tree2 := Ex.normalized_of (by
  have h : tree2.outEdges 0 = [⟨0, 1, Ex.lw (1 / 4)⟩, ⟨0, 2, Ex.lw (3 / 4)⟩] := rfl
  simp (disch := norm_num) [tree2_nodes, h, Ex.linWeight_lw, -one_div]
  norm_num)

example : Layered tree2 0 ∧ Scoped tree2 tree2Scope ∧ Decomposable tree2 tree2Scope ∧
    (∀ n d, tree2.kind? n = some (.leaf d) → d.Valid) ∧ NormalizedSums tree2 ∧ PositiveWeights tree2 ∧ TreeShaped tree2 ∧
    ¬ Disjoint (tree2Scope 0) {0} :=
  ⟨tree2_layered, tree2_scoped, tree2_decomposable, tree2_valid, tree2_normalized,
    Ex.positive_of (by simp [tree2, outEdges, Ex.lw]), by simp [TreeShaped, tree2], by simp [tree2Scope]⟩

/-- The marginal over variable `0` is a mixture of two uniform distributions, over nothing it is `None`. -/
example : ∃ g', tree2.marginalInPlace {0} = .ok (some g') ∧ g'.ids = [0, 3, 5] ∧ g'.succ 0 = [3, 5] := by
  rw [marginal_eq tree2_layered tree2_scoped, if_pos (keeps_iff_not_disjoint.2 (by simp [tree2Scope]))]
  have hg : tree2.induced (keeps tree2Scope {0}) = ⟨[(0, .sum), (1, .prod), (2, .prod),
      (3, .leaf (.uniform 0 0 1 .closed .closed)), (5, .leaf (.uniform 0 2 3 .closed .closed))],
      [⟨0, 1, Ex.lw (1 / 4)⟩, ⟨0, 2, Ex.lw (3 / 4)⟩, ⟨1, 3, none⟩, ⟨2, 5, none⟩]⟩ := by rfl
  rw [hg]
  generalize hg' : (⟨[(0, .sum), (1, .prod), (2, .prod),
      (3, .leaf (.uniform 0 0 1 .closed .closed)), (5, .leaf (.uniform 0 2 3 .closed .closed))],
      [⟨0, 1, Ex.lw (1 / 4)⟩, ⟨0, 2, Ex.lw (3 / 4)⟩, ⟨1, 3, none⟩, ⟨2, 5, none⟩]⟩ : Circuit) = g'
  have h0 : g'.root = .ok 0 := by subst hg'; rfl
  have h1 : g'.bottomUp 0 = [3, 5, 1, 2, 0] := by subst hg'; rfl
  simp only [simplify, h0, h1]
  subst hg'
  exact ⟨_, rfl, rfl, rfl⟩

example : tree2.marginalInPlace {7} = .ok none := by
  rw [C10_none tree2_layered tree2_scoped]; simp [tree2Scope]

/-! ### A shared leaf -/

/-- `0: ⊕ → 1: ⊗ (¼), 2: ⊗ (¼), 3: ⊗ (½)`, `1 → 4: U₀[0,1], 5: U₁[0,1]`, `2 → 4, 6: U₁[0,2]`, `3 → 7: U₀[2,3], 8: U₁[0,4]`. -/
noncomputable def sharedLeaf : Circuit where
  nodes := [(0, .sum), (1, .prod), (2, .prod), (3, .prod), (4, .leaf (.uniform 0 0 1 .closed .closed)),
    (5, .leaf (.uniform 1 0 1 .closed .closed)), (6, .leaf (.uniform 1 0 2 .closed .closed)),
    (7, .leaf (.uniform 0 2 3 .closed .closed)), (8, .leaf (.uniform 1 0 4 .closed .closed))]
  edges := [⟨0, 1, Ex.lw (1 / 4)⟩, ⟨0, 2, Ex.lw (1 / 4)⟩, ⟨0, 3, Ex.lw (1 / 2)⟩, ⟨1, 4, none⟩, ⟨1, 5, none⟩, ⟨2, 4, none⟩,
    ⟨2, 6, none⟩, ⟨3, 7, none⟩, ⟨3, 8, none⟩]

def sharedLeafScope : Node → Finset Var := fun n =>
  if n = 4 ∨ n = 7 then {0} else if n = 5 ∨ n = 6 ∨ n = 8 then {1} else {0, 1}

/-- The marginal over variable `0` that the code computes: the weight ¼ of one of the two parents of unit `4` is lost. -/
noncomputable def sharedLeafMarginal : Circuit where
  nodes := [(0, .sum), (4, .leaf (.uniform 0 0 1 .closed .closed)), (7, .leaf (.uniform 0 2 3 .closed .closed))]
  edges := [⟨0, 4, Ex.lw (1 / 4)⟩, ⟨0, 7, Ex.lw (1 / 2)⟩]

theorem sharedLeaf_nodes : sharedLeaf.nodes = [(0, .sum), (1, .prod), (2, .prod), (3, .prod),
    (4, .leaf (.uniform 0 0 1 .closed .closed)),
    (5, .leaf (.uniform 1 0 1 .closed .closed)), (6, .leaf (.uniform 1 0 2 .closed .closed)),
    (7, .leaf (.uniform 0 2 3 .closed .closed)), (8, .leaf (.uniform 1 0 4 .closed .closed))] := rfl

theorem sharedLeaf_layered : Layered sharedLeaf 0 where
  wf := ⟨by decide, by simp [sharedLeaf], by simp [sharedLeaf, ids], by simp [sharedLeaf, ids]⟩
  graded := ⟨fun n => if n = 0 then 0 else if n ≤ 3 then 1 else 2, by simp [sharedLeaf]⟩
  leaves := Ex.leafTerminal_of (by simp [sharedLeaf, succ, outEdges])
  weighted := Ex.weighted_of (by simp [sharedLeaf, outEdges, Ex.lw])
  root := by simp [root, sharedLeaf, ids, inDegree, inEdges]

theorem sharedLeaf_scopes : Scoped sharedLeaf sharedLeafScope ∧ Decomposable sharedLeaf sharedLeafScope := by
  have h0 : sharedLeaf.succ 0 = [1, 2, 3] := rfl
  have h1 : sharedLeaf.succ 1 = [4, 5] := rfl
  have h2 : sharedLeaf.succ 2 = [4, 6] := rfl
  have h3 : sharedLeaf.succ 3 = [7, 8] := rfl
  refine ⟨Ex.scoped_of ?_ ?_ ?_, Ex.decomposable_of ?_⟩ <;>
    simp [sharedLeaf_nodes, h0, h1, h2, h3, sharedLeafScope, Leaf.var]

theorem sharedLeaf_normalized : NormalizedSums sharedLeaf := Ex.normalized_of (by
  have h : sharedLeaf.outEdges 0 = [⟨0, 1, Ex.lw (1 / 4)⟩, ⟨0, 2, Ex.lw (1 / 4)⟩, ⟨0, 3, Ex.lw (1 / 2)⟩] := rfl
  simp (disch := norm_num) [sharedLeaf_nodes, h, Ex.linWeight_lw, -one_div]
  norm_num)

theorem sharedLeaf_valid : (∀ n d, sharedLeaf.kind? n = some (.leaf d) → d.Valid) ∧
    ∀ n d, sharedLeaf.kind? n = some (.leaf d) → d.Normalized :=
  ⟨Ex.valid_of (by simp [sharedLeaf, Leaf.Valid]; norm_num), fun n d h =>
    Ex.forall_kind (P := fun _ k => ∀ d, k = .leaf d → d.Normalized) (by simp [sharedLeaf, Leaf.Normalized]) n _ h d rfl⟩

theorem sharedLeaf_marginal : sharedLeaf.marginalInPlace {0} = .ok (some sharedLeafMarginal) := by
  have h0 : sharedLeaf.root = .ok 0 := sharedLeaf_layered.root
  rw [marginal_eq sharedLeaf_layered sharedLeaf_scopes.1, if_pos (keeps_iff_not_disjoint.2 (by simp [sharedLeafScope]))]
  generalize hg' : sharedLeaf.induced (keeps sharedLeafScope {0}) = g'
  have hg : g' = ⟨[(0, .sum), (1, .prod), (2, .prod), (3, .prod), (4, .leaf (.uniform 0 0 1 .closed .closed)),
      (7, .leaf (.uniform 0 2 3 .closed .closed))],
      [⟨0, 1, Ex.lw (1 / 4)⟩, ⟨0, 2, Ex.lw (1 / 4)⟩, ⟨0, 3, Ex.lw (1 / 2)⟩, ⟨1, 4, none⟩, ⟨2, 4, none⟩,
        ⟨3, 7, none⟩]⟩ := by subst hg'; rfl
  have h0 : g'.root = .ok 0 := by subst hg; rfl
  have h1 : g'.bottomUp 0 = [4, 7, 1, 2, 3, 0] := by subst hg; rfl
  simp only [simplify, h0, h1]
  subst hg
  rfl

theorem sharedLeafMarginal_layered : Layered sharedLeafMarginal 0 where
  wf := ⟨by decide, by simp [sharedLeafMarginal], by simp [sharedLeafMarginal, ids], by simp [sharedLeafMarginal, ids]⟩
  graded := ⟨fun n => if n = 0 then 0 else 1, by simp [sharedLeafMarginal]⟩
  leaves := Ex.leafTerminal_of (by simp [sharedLeafMarginal, succ, outEdges])
  weighted := Ex.weighted_of (by simp [sharedLeafMarginal, outEdges, Ex.lw])
  root := by simp [root, sharedLeafMarginal, ids, inDegree, inEdges]

theorem sharedLeafMarginal_scoped : Scoped sharedLeafMarginal (fun _ => {0}) :=
  Ex.scoped_of (by simp [sharedLeafMarginal, Leaf.var]) (by simp [sharedLeafMarginal, succ, outEdges])
    (by simp [sharedLeafMarginal])

theorem sharedLeaf_domain : DomainFor sharedLeaf (fun _ => realLine) := by
  refine ⟨fun _ => realLine_disjoint, fun n d h => ?_, fun n d h => ?_⟩
  · exact Ex.forall_kind (P := fun n k => ∀ d, k = .leaf d → Fits d realLine)
      (by simp [sharedLeaf, Fits, realLine]) n _ h d rfl
  · simp [realLine_toSet]

theorem sharedLeafMarginal_domain : DomainFor sharedLeafMarginal (fun _ => realLine) := by
  refine ⟨fun _ => realLine_disjoint, fun n d h => ?_, fun n d h => ?_⟩
  · exact Ex.forall_kind (P := fun n k => ∀ d, k = .leaf d → Fits d realLine)
      (by simp [sharedLeafMarginal, Fits, realLine]) n _ h d rfl
  · simp [realLine_toSet]

/-- **C10 is false**: with a leaf shared by two components, the marginal's total probability is ¾. -/
theorem C10_full_false : ¬ C10_full := by
  intro h
  have hE : ∀ (g : Circuit) s, EventFor g s ([] : SimpleEvent) := fun g s =>
    ⟨by simp [SimpleEvent.keys], by simp [SimpleEvent.keys], by simp, by simp⟩
  obtain ⟨_, h2⟩ := h sharedLeaf 0 _ sharedLeaf_layered sharedLeaf_scopes.1 sharedLeaf_scopes.2 sharedLeaf_valid.1
    sharedLeaf_valid.2 sharedLeaf_normalized {0}
  obtain ⟨g', h3, h4⟩ := h2 (by simp [sharedLeafScope])
  rw [sharedLeaf_marginal] at h3
  injection h3 with h3
  injection h3 with h3
  subst h3
  have h5 := h4 _ sharedLeaf_domain [[]] (by simpa using hE _ _)
  have hl : ∀ d : Leaf, d.Valid → d.Normalized → (leafLaw d).real (allowed [] d.var) = 1 := by
    intro d h1 h2
    rw [allowed_of_not_mem (by simp [SimpleEvent.keys]), MeasureTheory.measureReal_def, leafLaw_univ h1 h2]
    simp
  have h6 := probability_eq sharedLeaf_layered sharedLeaf_scopes.1 sharedLeaf_valid.1 sharedLeaf_domain (Es := [[]])
    (by simpa using hE _ _) (p := fun _ _ => 1)
    (by
      simpa using one_circuitValue sharedLeaf_normalized
        (fun n d hk => hl d (sharedLeaf_valid.1 n d hk) (sharedLeaf_valid.2 n d hk))) freshMem
  have hv : ∀ n d, sharedLeafMarginal.kind? n = some (.leaf d) → d.Valid :=
    Ex.valid_of (by simp [sharedLeafMarginal, Leaf.Valid]; norm_num)
  have h7 := probability_eq sharedLeafMarginal_layered sharedLeafMarginal_scoped hv sharedLeafMarginal_domain (Es := [[]])
    (by simpa using hE _ _) (p := fun _ n => if n = 0 then 3 / 4 else 1)
    (by
      intro E hE
      simp only [List.mem_singleton] at hE
      subst hE
      refine Ex.value_of ?_ ?_ ?_
      · simp only [sharedLeafMarginal]
        simp
        exact ⟨(hl (.uniform 0 0 1 .closed .closed) (by simp [Leaf.Valid]) trivial).symm,
          (hl (.uniform 0 2 3 .closed .closed) (by simp [Leaf.Valid]; norm_num) trivial).symm⟩
      · simp (disch := norm_num) [sharedLeafMarginal, outEdges, Ex.linWeight_lw, -one_div]
        norm_num
      · simp [sharedLeafMarginal]) freshMem
  rw [h6, h7] at h5
  simp at h5
  norm_num at h5

end PM.Props
