import Verif.Jax.ConvertMain
import Verif.Props.Layers
import Verif.Props.Queries
import Verif.Props.ExampleTools

/-! # C67: the conversion of a circuit to layers -/

namespace PM.Props
open PM.Jax Graph Spec

/-- The row of an array for the variables `vs` of a circuit: the values in the order of the variables. -/
noncomputable def rowOf (vs : Finset Var) (x : Var → ℝ) : List ℝ := (vs.sort (· ≤ ·)).map x

/-- **C67, the full statement**: a smooth and decomposable circuit with normalized sums and leaves can be converted to layers, whatever the
order in which Python's sets are traversed, and the layers have the log-likelihood of the circuit at every row. -/
def C67_full : Prop :=
  ∀ (env : Env) (shuffle : {α : Type} → List α → List α), (∀ {α : Type} (l : List α), (shuffle l).Perm l) →
    ∀ (g : Circuit) (r : Node) (sc : Node → Finset Var), Layered g r → Scoped g sc → Decomposable g sc → NormalizedSums g →
      (∀ n d, g.kind? n = some (.leaf d) → d.Valid ∧ d.Normalized) →
      ∃ L, fromNx env shuffle g = .ok L ∧ ∀ x, InDomain env.states g x → ∀ m,
        ∃ q, (g.logLikelihood m x).2 = .ok q ∧ L.logLikelihood (rowOf (sc r) x) = .ok [q]

theorem scopes_nonempty {g : Circuit} {r : Node} (hL : Layered g r) {sc : Node → Finset Var} (hs : Scoped g sc)
    (hp : ∀ n, g.kind? n = some .prod → g.succ n ≠ []) : ∀ n ∈ g.ids, (sc n).Nonempty := by
  suffices H : ∀ n, n ∈ g.ids → (sc n).Nonempty from H
  refine hL.graded.acyclic.induct ?_
  intro n ih hn
  obtain ⟨k, hk⟩ := exists_kind? hn
  cases k with
  | leaf d => rw [hs.leaf n d hk]; simp
  | sum =>
    obtain ⟨c, hc⟩ := List.exists_mem_of_ne_nil _ (hs.sumNe n hk)
    rw [← hs.sum n hk c hc]
    exact ih c hc (succ_mem_ids hL.wf hc)
  | prod =>
    obtain ⟨c, hc⟩ := List.exists_mem_of_ne_nil _ (hp n hk)
    obtain ⟨v, hv⟩ := ih c hc (succ_mem_ids hL.wf hc)
    exact ⟨v, (hs.prod n hk v).2 ⟨c, hc, hv⟩⟩

/-- What the layers compute for leaves of every kind that has a layer: the value of the circuit whose leaves have the densities
`layerDensity`. -/
theorem C67_converted {env : Env} {shuffle : {α : Type} → List α → List α} (hshuffle : ∀ {α : Type} (l : List α), (shuffle l).Perm l)
    {g : Circuit} {r : Node} {sc : Node → Finset Var} (hL : Layered g r) (hs : Scoped g sc) (hd : Decomposable g sc)
    (hn : NormalizedSums g) (hv : ∀ n d, g.kind? n = some (.leaf d) → d.Valid ∧ LayerLeaf env d) (hu : GaussianUnmixed g)
    (hp : ∀ n, g.kind? n = some .prod → g.succ n ≠ []) (hl : ConvertibleLevels g sc (g.layersFrom r))
    (hi : InitialScopes g sc (sc r)) :
    ∃ L, fromNx env shuffle g = .ok L ∧ ∀ x, InDomain env.states g x →
      ∀ f, CircuitValue g (fun d => layerDensity env d (x d.var)) f →
      ∃ q, L.logLikelihood (rowOf (sc r) x) = .ok [q] ∧ q.exp = f r := by
  have S : Setting env g r sc :=
    ⟨hL, hs, hd, hn, fun n d h => (hv n d h).1, fun n d h => (hv n d h).2, hu, scopes_nonempty hL hs hp⟩
  obtain ⟨c, hc, hcn, F⟩ := fromNx_spec S shuffle hshuffle hl
  refine ⟨c.layer, hc, fun x hx f hf => ?_⟩
  have hidx := indicesOf_initial (V := sc r) (s := sc r) subset_rfl (fun _ _ w hw _ => hw)
  have hlen : (rowOf (sc r) x).length = (sc r).card := by simp [rowOf]
  obtain ⟨out, ho1, ho2⟩ := C62_aligned_partial c.layer (rowOf (sc r) x) F.regular (by rw [hlen]; exact F.aligned hi _ hidx)
  rw [F.values x f (fun v => (rowOf (sc r) x).getD v 0) hx hf ?_, hcn] at ho2
  · match out, ho1, ho2 with
    | [o], ho1, ho2 =>
      simp only [List.map_cons, List.map_nil, List.cons.injEq, and_true] at ho2
      exact ⟨o, ho1, ho2⟩
    | [], _, ho2 => simp at ho2
    | _ :: _ :: _, _, ho2 => simp at ho2
  · intro v hv
    have hv' : v ∈ (sc r).sort (· ≤ ·) := (Finset.mem_sort _).2 hv
    have hlt := List.idxOf_lt_length_of_mem hv'
    rw [rowOf, List.getD_eq_getElem _ _ (by simpa using hlt), List.getElem_map, List.getElem_idxOf]

theorem layerDensity_eq {env : Env} {d : Leaf} (h : ConvertibleLeaf env.states d) : LayerLeaf env d ∧ layerDensity env d = leafDensity d := by
  cases d with
  | uniform v lo hi l r =>
    obtain ⟨rfl, rfl⟩ := h
    refine ⟨⟨by simp, by simp⟩, funext fun y => ?_⟩
    simp [layerDensity, leafDensity, SimpleInterval.Mem, SimpleInterval.leftOK, SimpleInterval.rightOK]
  | dirac v loc cap => exact ⟨trivial, rfl⟩
  | symbolic v probs => exact ⟨h, rfl⟩
  | integer v probs => exact absurd h (by simp [ConvertibleLeaf])
  | gaussian v μ σ => exact absurd h (by simp [ConvertibleLeaf])
  | truncGaussian v I μ σ => exact absurd h (by simp [ConvertibleLeaf])

/-- C67 for circuits whose leaves are uniform on open intervals, Dirac or symbolic, whose levels can be converted, and whose units are
over one variable or over an initial segment of the variables.  Missing: leaves for which the claim is false (Gaussian, truncated Gaussian
and integer leaves, uniform leaves on closed intervals: `C67_full_false`, `C67_truncation_lost`, `C67_integer`, `C67_converted`), and the
levels and scopes for which the conversion or the evaluation of the layers fails (`C67_leaf_first`, C62). -/
theorem C67_from_nx_partial {env : Env} {shuffle : {α : Type} → List α → List α} (hshuffle : ∀ {α : Type} (l : List α), (shuffle l).Perm l)
    {g : Circuit} {r : Node} {sc : Node → Finset Var} (hL : Layered g r) (hs : Scoped g sc) (hd : Decomposable g sc)
    (hn : NormalizedSums g) (hv : ∀ n d, g.kind? n = some (.leaf d) → d.Valid ∧ ConvertibleLeaf env.states d)
    (hp : ∀ n, g.kind? n = some .prod → g.succ n ≠ []) (hl : ConvertibleLevels g sc (g.layersFrom r))
    (hi : InitialScopes g sc (sc r)) :
    ∃ L, fromNx env shuffle g = .ok L ∧ ∀ x, InDomain env.states g x → ∀ m,
      ∃ q, (g.logLikelihood m x).2 = .ok q ∧ L.logLikelihood (rowOf (sc r) x) = .ok [q] := by
  have hu : GaussianUnmixed g := fun n v μ σ h => absurd (hv n _ h).2 (by simp [ConvertibleLeaf])
  obtain ⟨L, h1, h2⟩ := C67_converted hshuffle hL hs hd hn (fun n d h => ⟨(hv n d h).1, (layerDensity_eq (hv n d h).2).1⟩) hu hp hl hi
  refine ⟨L, h1, fun x hx m => ?_⟩
  obtain ⟨f, hf⟩ := exists_circuitValue hL.graded.acyclic (fun d => leafDensity d (x d.var))
  obtain ⟨q, hq1, hq2, -⟩ := C01_loglikelihood hL hs (fun n d h => (hv n d h).1) x hf m
  obtain ⟨o, ho1, ho2⟩ := h2 x hx f ⟨fun n d h => by rw [hf.leaf n d h, (layerDensity_eq (hv n d h).2).2], hf.sum, hf.prod⟩
  exact ⟨q, hq1, by rw [ho1, LogP.exp_injective (ho2.trans hq2.symm)]⟩

/-- The condition on the first unit of a level is necessary: if a level starts with a leaf unit and contains another kind of unit, the
conversion raises. -/
theorem C67_leaf_first (env : Env) {shuffle : {α : Type} → List α → List α} (hshuffle : ∀ {α : Type} (l : List α), (shuffle l).Perm l)
    {g : Circuit} {r : Node} (hr : g.root = .ok r) {n m : Node} {rest : List Node} (hl : (n :: rest) ∈ g.layersFrom r) (hm : m ∈ rest)
    {d : Leaf} (hn : g.kind? n = some (.leaf d)) (hmk : g.kind? m = some .sum ∨ g.kind? m = some .prod) :
    ¬ ∃ L, fromNx env shuffle g = .ok L := by
  rintro ⟨L, hL⟩
  have hmt : (typeOf g m).isLeaf = false := by
    rcases hmk with h | h <;> simp [typeOf, h, unitType, UnitType.isLeaf]
  have hnt : (typeOf g n).isLeaf = true := by
    simp only [typeOf, hn]
    cases d <;> rfl
  have hlevel : ∀ scope vars cs, ∀ out, createLayers env shuffle g scope vars (n :: rest) cs ≠ .ok out := by
    intro scope vars cs out hout
    simp only [createLayers, bind, Except.bind] at hout
    split at hout
    · cases hout
    rename_i groups hgroups
    have ht : typeOf g m ∈ shuffle ((n :: rest).map (typeOf g)).dedup := by
      rw [(hshuffle _).mem_iff, List.mem_dedup]
      exact List.mem_map.2 ⟨m, by simp [hm], rfl⟩
    have herr : ∀ out, layersOfType env shuffle g scope vars (n :: rest) cs (typeOf g m) ≠ .ok out := by
      intro out hout
      have hty : layerType g (n :: rest) ((n :: rest).filter fun k => (typeOf g k).isInstance (typeOf g m)) (typeOf g m)
          = .error .attributeError := by
        have hmem : m ∈ (n :: rest).filter fun k => (typeOf g k).isInstance (typeOf g m) :=
          List.mem_filter.2 ⟨by simp [hm], by simp [UnitType.isInstance]⟩
        cases ho : (n :: rest).filter fun k => (typeOf g k).isInstance (typeOf g m) with
        | nil => rw [ho] at hmem; simp at hmem
        | cons k l =>
          have hk : (typeOf g k).isInstance (typeOf g m) = true := by
            have : k ∈ (n :: rest).filter fun k => (typeOf g k).isInstance (typeOf g m) := by rw [ho]; simp
            exact (List.mem_filter.1 this).2
          have hkt : (typeOf g k).isLeaf = false := by
            rcases hmk with h | h
            · have e : typeOf g m = .sum := by simp [typeOf, h, unitType]
              rw [e] at hk
              cases hh : typeOf g k <;> simp_all [UnitType.isInstance, UnitType.isLeaf]
            · have e : typeOf g m = .prod := by simp [typeOf, h, unitType]
              rw [e] at hk
              cases hh : typeOf g k <;> simp_all [UnitType.isInstance, UnitType.isLeaf]
          simp [layerType, hnt, hkt]
      simp only [layersOfType, hty, bind, Except.bind] at hout
      cases hout
    obtain ⟨b, hb⟩ := mapM_ok_mem hgroups _ ht
    exact herr b hb
  simp only [fromNx, hr, bind, Except.bind] at hL
  split at hL
  · cases hL
  split at hL
  · cases hL
  rename_i vs _ top htop
  obtain ⟨cs, out, hout⟩ := foldlM_ok_mem htop (n :: rest) (List.mem_reverse.2 hl)
  exact hlevel _ _ _ _ hout

/-- A single Gaussian leaf. -/
noncomputable def bell : Circuit := ⟨[(0, .leaf (.gaussian 0 0 1))], []⟩

theorem C67_full_false : ¬ C67_full := by
  intro h
  let env : Env := ⟨id, id, fun _ => 0⟩
  let shuffle : {α : Type} → List α → List α := fun l => l
  have hsh : ∀ {α : Type} (l : List α), (shuffle l).Perm l := fun l => List.Perm.refl l
  have hL : Layered bell 0 := by
    refine ⟨⟨by decide, by decide, by simp [bell], by simp [bell]⟩, ⟨fun _ => 0, by simp [bell]⟩, ?_, ?_, rfl⟩
    · intro n d _; rfl
    · intro n _ e he; simp [bell, outEdges] at he
  have hsc : Scoped bell fun _ => {0} := Ex.scoped_of (by simp [bell, Leaf.var]) (by simp [bell]) (by simp [bell])
  obtain ⟨L, h1, h2⟩ := h env shuffle hsh bell 0 (fun _ => {0}) hL hsc (Ex.decomposable_of (by simp [bell]))
    (Ex.normalized_of (by simp [bell]))
    (fun n d hk => Ex.forall_kind (g := bell) (P := fun _ k => ∀ d, k = .leaf d → d.Valid ∧ d.Normalized)
      (by simp [bell, Leaf.Valid, Leaf.Normalized]) n _ hk d rfl)
  have hdom : InDomain env.states bell fun _ => 0 := by
    intro n v probs hk
    have := Ex.forall_kind (g := bell) (P := fun _ k => k ≠ .leaf (.symbolic v probs)) (by simp [bell]) n _ hk
    exact absurd rfl this
  obtain ⟨q, hq1, hq2⟩ := h2 (fun _ => 0) hdom (fun _ => none)
  have hF := fromNx_leaf env hsh (.gaussian 0 0 1) rfl
  rw [show fromNx env shuffle bell = _ from hF] at h1
  injection h1 with h1
  obtain ⟨f, hf⟩ := exists_circuitValue hL.graded.acyclic (fun d => leafDensity d ((fun _ => (0 : ℝ)) d.var))
  obtain ⟨q', hq1', hq2', -⟩ := C01_loglikelihood hL hsc (Ex.valid_of (by simp [bell, Leaf.Valid])) (fun _ => 0) hf (fun _ => none)
  rw [hq1] at hq1'
  injection hq1' with hqq
  subst hqq
  rw [hf.leaf 0 (.gaussian 0 0 1) rfl] at hq2'
  rw [← h1] at hq2
  simp only [rowOf, Finset.sort_singleton, List.map_cons, List.map_nil, Layer.logLikelihood, Except.ok.injEq, List.cons.injEq, and_true] at hq2
  rw [← hq2] at hq2'
  simp only [InputNode.logDensity, scale] at hq2'
  rw [LogP.exp_log (ProbabilityTheory.gaussianPDFReal_nonneg _ _ _)] at hq2'
  simp only [leafDensity, ProbabilityTheory.gaussianPDFReal, Real.log_one, Real.exp_zero] at hq2'
  have hv : ((Leaf.nnvar (1 + 1 / 100) : NNReal) : ℝ) = 10201 / 10000 := by
    change ((1 : ℝ) + 1 / 100) ^ 2 = _
    norm_num
  have hw : ((Real.toNNReal ((1 : ℝ) ^ 2) : NNReal) : ℝ) = 1 := by norm_num
  rw [hv, hw] at hq2'
  simp only [sub_self, ne_eq, OfNat.ofNat_ne_zero, not_false_eq_true, zero_pow, neg_zero, zero_div, Real.exp_zero, mul_one, inv_inj] at hq2'
  have hpi := Real.pi_pos
  rw [Real.sqrt_inj (by positivity) (by positivity)] at hq2'
  linarith

/-! ### A circuit of the shape of a joint probability tree -/

/-- A mixture of two products over a continuous and a symbolic variable; the continuous factors are mixtures themselves. -/
noncomputable def tree : Circuit where
  nodes := [(0, .sum), (1, .prod), (2, .prod), (3, .sum), (4, .leaf (.symbolic 1 [(0, 1 / 4), (1, 3 / 4)])), (5, .sum),
    (6, .leaf (.symbolic 1 [(1, 1)])), (7, .leaf (.uniform 0 0 1 .opn .opn)), (8, .leaf (.dirac 0 2 1)),
    (9, .leaf (.uniform 0 1 3 .opn .opn))]
  edges := [⟨0, 1, Ex.lw (1 / 2)⟩, ⟨0, 2, Ex.lw (1 / 2)⟩, ⟨1, 3, none⟩, ⟨1, 4, none⟩, ⟨2, 5, none⟩, ⟨2, 6, none⟩,
    ⟨3, 7, Ex.lw (1 / 3)⟩, ⟨3, 8, Ex.lw (2 / 3)⟩, ⟨5, 9, Ex.lw 1⟩]

def treeScope : Node → Finset Var := fun n =>
  if n ≤ 2 then {0, 1} else if n = 4 ∨ n = 6 then {1} else {0}

theorem tree_nodes : tree.nodes = [(0, .sum), (1, .prod), (2, .prod), (3, .sum), (4, .leaf (.symbolic 1 [(0, 1 / 4), (1, 3 / 4)])), (5, .sum),
    (6, .leaf (.symbolic 1 [(1, 1)])), (7, .leaf (.uniform 0 0 1 .opn .opn)), (8, .leaf (.dirac 0 2 1)),
    (9, .leaf (.uniform 0 1 3 .opn .opn))] := rfl
theorem tree_succ0 : tree.succ 0 = [1, 2] := rfl
theorem tree_succ1 : tree.succ 1 = [3, 4] := rfl
theorem tree_succ2 : tree.succ 2 = [5, 6] := rfl
theorem tree_succ3 : tree.succ 3 = [7, 8] := rfl
theorem tree_succ5 : tree.succ 5 = [9] := rfl

theorem tree_layered : Layered tree 0 where
  wf := ⟨by decide, by decide, by simp [tree, ids], by simp [tree, ids]⟩
  graded := ⟨fun n => if n = 0 then 0 else if n ≤ 2 then 1 else if n ≤ 6 then 2 else 3, by simp [tree]⟩
  leaves := Ex.leafTerminal_of (by simp [tree, succ, outEdges])
  weighted := Ex.weighted_of (by simp [tree, outEdges, Ex.lw])
  root := rfl

theorem tree_scoped : Scoped tree treeScope := by
  refine Ex.scoped_of ?_ ?_ ?_
  · simp [tree, treeScope, Leaf.var]
  · simp [tree_nodes, tree_succ0, tree_succ1, tree_succ2, tree_succ3, tree_succ5, treeScope]
  · simp [tree_nodes, tree_succ0, tree_succ1, tree_succ2, tree_succ3, tree_succ5, treeScope]

theorem tree_decomposable : Decomposable tree treeScope := Ex.decomposable_of (by
  simp [tree_nodes, tree_succ0, tree_succ1, tree_succ2, tree_succ3, tree_succ5, treeScope])

theorem tree_normalized : NormalizedSums tree := by
  apply Ex.normalized_of
  have e : ∀ n, n = 0 ∨ n = 3 ∨ n = 5 → ((tree.outEdges n).map linWeight).sum = 1 := by
    rintro n (rfl | rfl | rfl)
    · have : tree.outEdges 0 = [⟨0, 1, Ex.lw (1 / 2)⟩, ⟨0, 2, Ex.lw (1 / 2)⟩] := rfl
      simp only [this, List.map_cons, List.map_nil, List.sum_cons, List.sum_nil]
      rw [Ex.linWeight_lw (by norm_num), Ex.linWeight_lw (by norm_num)]
      norm_num
    · have : tree.outEdges 3 = [⟨3, 7, Ex.lw (1 / 3)⟩, ⟨3, 8, Ex.lw (2 / 3)⟩] := rfl
      simp only [this, List.map_cons, List.map_nil, List.sum_cons, List.sum_nil]
      rw [Ex.linWeight_lw (by norm_num), Ex.linWeight_lw (by norm_num)]
      norm_num
    · have : tree.outEdges 5 = [⟨5, 9, Ex.lw 1⟩] := rfl
      simp only [this, List.map_cons, List.map_nil, List.sum_cons, List.sum_nil]
      rw [Ex.linWeight_lw (by norm_num)]
      norm_num
  simp [tree_nodes, e]

theorem tree_levels : tree.layersFrom 0 = [[0], [1, 2], [3, 4, 5, 6], [7, 8, 9]] := rfl

theorem tree_kind {n : Node} {k : Kind Leaf} (h : tree.kind? n = some k) : (n, k) ∈ tree.nodes :=
  Ex.forall_kind (g := tree) (P := fun n k => (n, k) ∈ tree.nodes) (fun _ h => h) n k h

theorem tree_convertible : ConvertibleLevels tree treeScope (tree.layersFrom 0) := by
  rw [tree_levels]
  have prods : ∀ n, tree.kind? n = some .prod → n = 1 ∨ n = 2 := fun n h => by simpa [tree_nodes] using tree_kind h
  have sums : ∀ n, tree.kind? n = some .sum → n = 0 ∨ n = 3 ∨ n = 5 := fun n h => by simpa [tree_nodes] using tree_kind h
  have t3 : typeOf tree 3 = .sum := rfl
  have t4 : typeOf tree 4 = .symbolic := rfl
  have t5 : typeOf tree 5 = .sum := rfl
  have t6 : typeOf tree 6 = .symbolic := rfl
  have k0 : tree.kind? 0 = some .sum := rfl
  have k3 : tree.kind? 3 = some .sum := rfl
  have k5 : tree.kind? 5 = some .sum := rfl
  refine ⟨⟨?_, ?_, ?_, ?_, ?_⟩, ⟨?_, ?_, ?_, ?_, ?_⟩, ⟨?_, ?_, ?_, ?_, ?_⟩, ⟨?_, ?_, ?_, ?_, ?_⟩, trivial⟩
  · decide
  · intro p hp hk; rcases prods p hk with rfl | rfl <;> simp at hp
  · intro p hp hk; rcases prods p hk with rfl | rfl <;> simp at hp
  · simp [treeScope]
  · intro s hs hk c hc _
    refine ⟨0, by simp, k0, ?_⟩
    simpa [tree_succ0] using hc
  · decide
  · intro p hp hk
    rcases prods p hk with rfl | rfl <;> decide
  · intro p hp hk
    simp [treeScope, t3, t4, t5, t6]
  · intro s hs hk; rcases sums s hk with rfl | rfl | rfl <;> simp at hs
  · intro s hs hk; rcases sums s hk with rfl | rfl | rfl <;> simp at hs
  · decide
  · intro p hp hk; rcases prods p hk with rfl | rfl <;> simp at hp
  · intro p hp hk; rcases prods p hk with rfl | rfl <;> simp at hp
  · intro s hs hk; rcases sums s hk with rfl | rfl | rfl <;> simp [treeScope]
  · intro s hs hk c hc _
    simp only [List.headD_cons, List.mem_cons, List.not_mem_nil, or_false] at hc
    rcases hc with rfl | rfl | rfl
    · exact ⟨3, by simp, k3, by simp [tree_succ3]⟩
    · exact ⟨3, by simp, k3, by simp [tree_succ3]⟩
    · exact ⟨5, by simp, k5, by simp [tree_succ5]⟩
  · decide
  · intro p hp hk; rcases prods p hk with rfl | rfl <;> simp at hp
  · intro p hp hk; rcases prods p hk with rfl | rfl <;> simp at hp
  · intro s hs hk; rcases sums s hk with rfl | rfl | rfl <;> simp at hs
  · intro s hs hk; rcases sums s hk with rfl | rfl | rfl <;> simp at hs

/-- The hypotheses of C67 are met by `tree`. -/
example : Layered tree 0 ∧ Scoped tree treeScope ∧ Decomposable tree treeScope ∧ NormalizedSums tree ∧
    (∀ n d, tree.kind? n = some (.leaf d) → d.Valid ∧ ConvertibleLeaf (fun _ => 2) d) ∧
    (∀ n, tree.kind? n = some .prod → tree.succ n ≠ []) ∧ ConvertibleLevels tree treeScope (tree.layersFrom 0) ∧
    InitialScopes tree treeScope (treeScope 0) := by
  refine ⟨tree_layered, tree_scoped, tree_decomposable, tree_normalized, ?_, ?_, tree_convertible, ?_, ?_⟩
  · intro n d hk
    have h := tree_kind hk
    simp only [tree_nodes, List.mem_cons, Prod.mk.injEq, reduceCtorEq, and_false, false_or, List.not_mem_nil, or_false, Kind.leaf.injEq] at h
    rcases h with ⟨-, rfl⟩ | ⟨-, rfl⟩ | ⟨-, rfl⟩ | ⟨-, rfl⟩ | ⟨-, rfl⟩ <;> norm_num [Leaf.Valid, ConvertibleLeaf]
  · intro n hk
    exact Ex.forall_kind (g := tree) (P := fun n k => k = .prod → tree.succ n ≠ []) (by simp [tree_nodes, tree_succ1, tree_succ2]) n _ hk rfl
  · simp only [tree, ids, treeScope]
    decide
  · intro n hk
    exact Ex.forall_kind (g := tree) (P := fun n k => k = .prod → 1 < (treeScope n).card) (by simp [tree, treeScope]) n _ hk rfl

end PM.Props
