import Verif.Circuit.ModeLemmas
import Verif.Props.Support

/-!
# C15: mode
-/

namespace PM.Props

open Graph Spec PM.Bound

/-- C15.  On a smooth decomposable circuit for which `is_deterministic` answers `True`, whose leaf densities have maxima and
whose sum units each have a non-zero weight, `mode` answers with an event `E` and a number `p`: `p` is the maximum of the
likelihood over all points, and `E` consists of exactly the points that attain it.  `f` is the mixture/product formula at `x`.
Missing for the full property: leaves without a maximum (see `C15_full_false`). -/
theorem C15_mode_partial {g : Circuit} {r : Node} (hL : Layered g r) {sc : Node → Finset Var} (hs : Scoped g sc)
    (hdec : Decomposable g sc) (hp : ProductsNonempty g) {sym : Var → Bool} (ht : Typed g sym)
    (hv : ∀ n d, g.kind? n = some (.leaf d) → d.Valid) (hm : ∀ n d, g.kind? n = some (.leaf d) → AttainsMax d)
    (hpw : ∀ n, g.kind? n = some .sum → ∃ e ∈ g.outEdges n, 0 < linWeight e)
    (m : Mem Event) (hdet : (g.isDeterministic m).2 = .ok true) (next : ℝ → Bool → ℝ) (m' : Mem (Event × LogP)) :
    ∃ E p, g.mode next m m' = .ok (E, p) ∧ 0 < p ∧ (∃ x, E.Mem x) ∧
      ∀ x f, CircuitValue g (fun d => leafDensity d (x d.var)) f → f r ≤ p ∧ (E.Mem x ↔ f r = p) := by
  have hex : ∀ x : Var → ℝ, ∃ f, CircuitValue g (fun d => leafDensity d (x d.var)) f := fun x =>
    exists_circuitValue hL.graded.acyclic _
  choose F hF using hex
  obtain ⟨val, hval⟩ := mode_eval hL.wf hL.graded.acyclic hL.weighted hs hdec hp ht hv
    (fun n d h => hasMode_of_attainsMax (hv n d h) (hm n d h)) hpw hF
    (fun n hk x => C14_one_child hL hs hp ht hv m hdet x (F x) (hF x) n hk) next
  have hri := (root_mem hL.root).1
  have hq := query_eq_meaning hL.wf hL.graded hL.root (meaning_of_eval hL.wf hri fun n hn => (hval n hn).1) m'
  obtain ⟨_, h1, h2, h3, h4⟩ := (hval r hri).2
  refine ⟨(val r).1, (val r).2.exp, ?_, h1, h4, ?_⟩
  · unfold mode logMode
    rw [if_pos rfl, hdet]
    dsimp only
    rw [hq.1]
    rfl
  · intro x f hf
    rw [circuitValue_unique hL.wf hL.graded.acyclic hf (hF x) r hri]
    exact ⟨h2 x, h3 x⟩

/-- C15, second part.  If `is_deterministic` answers `False`, `mode` raises `IntractableError`. -/
theorem C15_intractable {g : Circuit} (m : Mem Event) (hdet : (g.isDeterministic m).2 = .ok false) (next : ℝ → Bool → ℝ)
    (m' : Mem (Event × LogP)) : g.mode next m m' = .error .intractableError := by
  unfold mode logMode
  rw [if_pos rfl, hdet]
  rfl

/-- C15, second part, in terms of the likelihood: if two children of a sum unit have positive likelihood at a common point, `mode`
raises `IntractableError`. -/
theorem C15_overlap {g : Circuit} {r : Node} (hL : Layered g r) {sc : Node → Finset Var} (hs : Scoped g sc)
    (hp : ProductsNonempty g) {sym : Var → Bool} (ht : Typed g sym) (hv : ∀ n d, g.kind? n = some (.leaf d) → d.Valid)
    {n : Node} (hk : g.kind? n = some .sum) {x : Var → ℝ} {f : Node → ℝ}
    (hf : CircuitValue g (fun d => leafDensity d (x d.var)) f)
    (ho : ¬ (g.succ n).Pairwise fun a c => ¬ (0 < f a ∧ 0 < f c)) (next : ℝ → Bool → ℝ)
    (m : Mem Event) (m' : Mem (Event × LogP)) : g.mode next m m' = .error .intractableError := by
  obtain ⟨S, hS⟩ := exists_possiblePoints hL.graded.acyclic
  obtain ⟨b, hb1, hb2⟩ := C14_is_deterministic hL hs hp ht hv hS m
  refine C15_intractable m ?_ next m'
  rw [hb1]
  cases b with
  | false => rfl
  | true =>
    refine absurd ((List.Pairwise.and_mem.1 (hb2.1 rfl n hk)).imp ?_) ho
    rintro a c ⟨ha, hc, hd⟩ ⟨h1, h2⟩
    exact hd x ⟨possible_of_pos hL.wf hL.graded.acyclic hv hS hf a (Graph.succ_mem_ids hL.wf ha) h1,
      possible_of_pos hL.wf hL.graded.acyclic hv hS hf c (Graph.succ_mem_ids hL.wf hc) h2⟩

/-- C15 in full: whenever `mode` of a circuit with valid leaves and determinism answers, the number bounds the likelihood of every
point and the event consists of the points that attain it. -/
def C15_full : Prop :=
  ∀ (g : Circuit) (r : Node) (sc : Node → Finset Var) (sym : Var → Bool), Layered g r → Scoped g sc → Decomposable g sc →
    ProductsNonempty g → Typed g sym → (∀ n d, g.kind? n = some (.leaf d) → d.Valid) →
    ∀ (m : Mem Event) (m' : Mem (Event × LogP)) (next : ℝ → Bool → ℝ), (g.isDeterministic m).2 = .ok true →
    ∀ E p, g.mode next m m' = .ok (E, p) →
      ∀ x f, CircuitValue g (fun d => leafDensity d (x d.var)) f → f r ≤ p ∧ (E.Mem x ↔ f r = p)

/-- A standard Gaussian truncated to `(0, 1]`, as one gets by conditioning on that event. -/
noncomputable def truncEx : Circuit where
  nodes := [(0, .leaf (.truncGaussian 0 ⟨0, 1, opn, closed⟩ 0 1))]
  edges := []

theorem truncEx_layered : Layered truncEx 0 where
  wf := ⟨by decide, by decide, by simp [truncEx], by simp [truncEx]⟩
  graded := ⟨fun _ => 0, by simp [truncEx]⟩
  leaves := Ex.leafTerminal_of (by simp [truncEx, succ, outEdges])
  weighted := Ex.weighted_of (by simp [truncEx, outEdges])
  root := rfl

theorem truncEx_valid : ∀ n d, truncEx.kind? n = some (.leaf d) → d.Valid :=
  Ex.valid_of (by simp [truncEx, Leaf.Valid])

/-- The mode of a Gaussian truncated at its location, the location excluded, is reported at the far border, although points
near the location have a higher likelihood. -/
theorem C15_full_false : ¬ C15_full := by
  intro h
  have hsc : Scoped truncEx fun _ => {0} := Ex.scoped_of (by simp [truncEx, Leaf.var]) (by simp [truncEx]) (by simp [truncEx])
  have hdec : Decomposable truncEx fun _ => {0} := Ex.decomposable_of (by simp [truncEx])
  have hpn : ProductsNonempty truncEx := fun n h =>
    Ex.forall_kind (g := truncEx) (P := fun n k => k = .prod → truncEx.succ n ≠ []) (by simp [truncEx]) n _ h rfl
  have hty : Typed truncEx (fun _ => false) := fun n d h => by
    have := Ex.forall_kind (g := truncEx) (P := fun n k => ∀ d, k = .leaf d → ∃ v I μ σ, d = .truncGaussian v I μ σ)
      (by simp [truncEx]) n _ h d rfl
    obtain ⟨v, I, μ, σ, rfl⟩ := this
    simp
  obtain ⟨S, hS⟩ := exists_possiblePoints truncEx_layered.graded.acyclic
  have hdet : (truncEx.isDeterministic freshMem).2 = .ok true := by
    obtain ⟨b, hb1, hb2⟩ := C14_is_deterministic truncEx_layered hsc hpn hty truncEx_valid hS freshMem
    rw [hb1, hb2.2]
    intro n hk
    exact Ex.forall_kind (g := truncEx) (P := fun n k => k = .sum → (truncEx.succ n).Pairwise fun a c => ∀ x, ¬ (x ∈ S a ∧ x ∈ S c))
      (by simp [truncEx]) n _ hk rfl
  have hval : Leaf.truncModeValue (fun x _ => x) ⟨0, 1, opn, closed⟩ 0 = 1 := by
    unfold Leaf.truncModeValue
    rw [if_neg (fun hm : SimpleInterval.Mem ⟨0, 1, opn, closed⟩ (0 : ℝ) => by
      have : ((0 : EReal)) < ((0 : ℝ) : EReal) := hm.1
      simp at this)]
    rw [if_neg (by simp)]
    simp
  have hmode : truncEx.mode (fun x _ => x) freshMem freshMem = .ok
      ([[(0, .interval [Leaf.point 1])]], leafDensity (.truncGaussian 0 ⟨0, 1, opn, closed⟩ 0 1) 1) := by
    have h1 : SimpleInterval.Mem ⟨0, 1, opn, closed⟩ (1 : ℝ) := by
      constructor
      · show (0 : EReal) < ((1 : ℝ) : EReal); exact_mod_cast zero_lt_one
      · show ((1 : ℝ) : EReal) ≤ 1; simp
    have hq := query_eq_meaning truncEx_layered.wf truncEx_layered.graded truncEx_layered.root
      (A := modeAlg fun x _ => x) (val := fun _ => ([[(0, .interval [Leaf.point 1])]],
        (Leaf.truncGaussian 0 ⟨0, 1, opn, closed⟩ 0 1).logLik 1))
      (meaning_of_eval truncEx_layered.wf (by simp [truncEx, ids]) fun n hn => by
        obtain rfl : n = 0 := by simpa [truncEx, ids] using hn
        refine .leaf rfl ?_
        simp only [modeAlg, Leaf.logMode, hval, bind, Except.bind, Leaf.var, Leaf.logLik, if_pos h1])
      freshMem
    unfold mode logMode
    rw [if_pos rfl, hdet]
    dsimp only
    rw [hq.1, ← exp_logLik (truncEx_valid 0 _ rfl)]
    rfl
  obtain ⟨f, hf⟩ := exists_circuitValue truncEx_layered.graded.acyclic
    (fun d => leafDensity d ((fun _ => 1 / 2 : Var → ℝ) d.var))
  have hle := (h truncEx 0 (fun _ => {0}) (fun _ => false) truncEx_layered hsc hdec hpn hty truncEx_valid freshMem freshMem
    (fun x _ => x) hdet _ _ hmode (fun _ => 1 / 2) f hf).1
  rw [hf.leaf 0 _ rfl] at hle
  have h1 : SimpleInterval.Mem ⟨0, 1, opn, closed⟩ (1 : ℝ) := by
    constructor
    · show (0 : EReal) < ((1 : ℝ) : EReal); exact_mod_cast zero_lt_one
    · show ((1 : ℝ) : EReal) ≤ 1; simp
  have h2 : SimpleInterval.Mem ⟨0, 1, opn, closed⟩ (1 / 2 : ℝ) := by
    constructor
    · show ((0 : ℝ) : EReal) < ((1 / 2 : ℝ) : EReal); rw [EReal.coe_lt_coe_iff]; norm_num
    · show ((1 / 2 : ℝ) : EReal) ≤ ((1 : ℝ) : EReal); rw [EReal.coe_le_coe_iff]; norm_num
  simp only [leafDensity, if_pos h1, if_pos h2] at hle
  rw [div_le_div_iff_of_pos_right (gauss_toSet_pos (by simp) _ (by norm_num)), pdf_le_iff (toNNReal_sq_ne (by norm_num))] at hle
  norm_num at hle

/-- `Ex.dag` is deterministic: its product units put the second variable into `[0,2)` and `[2,4]`. -/
theorem dag_deterministic (m : Mem Event) : (Ex.dag.isDeterministic m).2 = .ok true := by
  obtain ⟨S, hS⟩ := exists_possiblePoints Ex.dag_layered.graded.acyclic
  obtain ⟨b, hb1, hb2⟩ := C14_is_deterministic Ex.dag_layered Ex.dag_scoped dag_products dag_typed Ex.dag_valid hS m
  rw [hb1, hb2.2]
  intro n hk
  have hn : n = 0 := Ex.forall_kind (g := Ex.dag) (P := fun n k => k = .sum → n = 0) (by simp [Ex.dag]) n _ hk rfl
  subst hn
  rw [Ex.dag_succ0]
  simp only [List.pairwise_cons, List.mem_singleton, forall_eq, List.not_mem_nil, false_imp_iff, implies_true, List.Pairwise.nil,
    and_true]
  rintro x ⟨h1, h2⟩
  have h4 := (hS.prod 1 rfl x).1 h1 4 (by rw [Ex.dag_succ1]; simp)
  have h5 := (hS.prod 2 rfl x).1 h2 5 (by rw [Ex.dag_succ2]; simp)
  rw [hS.leaf 4 _ rfl] at h4
  rw [hS.leaf 5 _ rfl] at h5
  have hx4 : SimpleInterval.Mem ⟨((0 : ℝ) : EReal), ((2 : ℝ) : EReal), closed, opn⟩ (x 1) := by
    by_contra hc; exact h4.ne' (if_neg hc)
  have hx5 : SimpleInterval.Mem ⟨((2 : ℝ) : EReal), ((4 : ℝ) : EReal), closed, closed⟩ (x 1) := by
    by_contra hc; exact h5.ne' (if_neg hc)
  exact absurd hx5.1 (not_le.2 hx4.2)

/-- The hypotheses of `C15_mode_partial` are met by `Ex.dag`. -/
example : Layered Ex.dag 0 ∧ Scoped Ex.dag Ex.dagScope ∧ Decomposable Ex.dag Ex.dagScope ∧ ProductsNonempty Ex.dag ∧
    Typed Ex.dag (fun _ => false) ∧ (∀ n d, Ex.dag.kind? n = some (.leaf d) → d.Valid ∧ AttainsMax d) ∧
    (∀ n, Ex.dag.kind? n = some .sum → ∃ e ∈ Ex.dag.outEdges n, 0 < linWeight e) ∧
    (Ex.dag.isDeterministic freshMem).2 = .ok true := by
  refine ⟨Ex.dag_layered, Ex.dag_scoped, Ex.dag_decomposable, dag_products, dag_typed, fun n d h => ⟨Ex.dag_valid n d h, ?_⟩, ?_,
    dag_deterministic _⟩
  · have hv := Ex.dag_valid n d h
    have := Ex.forall_kind (g := Ex.dag) (P := fun n k => ∀ d, k = .leaf d → ∃ v lo hi l r, d = .uniform v lo hi l r)
      (by simp [Ex.dag]) n _ h d rfl
    obtain ⟨v, lo, hi, l, r, rfl⟩ := this
    obtain ⟨A, L, -, -, hm⟩ := leaf_mode hv trivial (fun x _ => x) (s := false) (by simp)
    obtain ⟨x, hx⟩ := hm.ne
    have hx := (hm.mem x).1 hx
    exact ⟨x, by rw [hx]; exact hm.pos, fun y => by rw [hx]; exact hm.le y⟩
  · intro n hk
    have hn : n = 0 := Ex.forall_kind (g := Ex.dag) (P := fun n k => k = .sum → n = 0) (by simp [Ex.dag]) n _ hk rfl
    subst hn
    exact ⟨⟨0, 1, some (.fin (Real.log (1 / 4)))⟩, by simp [Ex.dag, outEdges], by simp only [linWeight, LogP.exp_fin]; exact Real.exp_pos _⟩

end PM.Props
