import Verif.Circuit.MoveLemmas
import Verif.Props.Mode
import Verif.Props.Moments
import Verif.Props.Probability
import Verif.Props.Transform

/-!
# C112: `translate` and `scale` move and scale the answers
-/

namespace PM.Props

open Graph Spec PM.Bound Classical

/-- The full property C112 for `translate`: if the circuit has normalized leaves and sums and no symbolic variables, then after
`translate(t)` the probability of every moved event, and the variances, are the old ones, and the expectations are the old ones plus
`t`. -/
def C112_full : Prop := ∀ (g : Circuit) (r : Node) (sc : Node → Finset Var) (c : Var → ℝ), Layered g r → Scoped g sc →
  Decomposable g sc → NormalizedSums g → (∀ n d, g.kind? n = some (.leaf d) → d.Valid ∧ d.Normalized) →
  (∀ n d, g.kind? n = some (.leaf d) → ∀ v probs, d ≠ .symbolic v probs) →
  (∀ n d, g.kind? n = some (.leaf d) → ∀ v probs, d = .integer v probs → ∃ k : ℤ, c v = k) →
  ∃ g', g.translate (fun v => some (c v)) = .ok g' ∧
    (∀ m E, (g'.probabilityOfSimpleEvent m (moveEvent c E)).2 = (g.probabilityOfSimpleEvent m E).2) ∧
    ∀ vars : List Var, (∀ v, v ∈ sc r → v ∈ vars) → ∀ m,
      (∀ e, (g.expectation m vars).2 = .ok e → (g'.expectation m vars).2 = .ok fun v => (e v).map (· + c v)) ∧
      (g'.variance m vars).2 = (g.variance m vars).2

/-- The full property C112 for `scale`, for circuits with an inner unit as root: after `scale(t)` with positive factors the
expectations are the old ones times the factors, the variances the old ones times the squares of the factors. -/
def C112_scale_full : Prop := ∀ (g : Circuit) (r : Node) (sc : Node → Finset Var) (s : Var → ℝ), Layered g r → Scoped g sc →
  Decomposable g sc → NormalizedSums g → (∀ n d, g.kind? n = some (.leaf d) → d.Valid ∧ d.Normalized) →
  (∀ d, g.kind? r ≠ some (.leaf d)) → (∀ n d, g.kind? n = some (.leaf d) → ∀ v probs, d ≠ .symbolic v probs) →
  (∀ v, 0 < s v) → (∀ n d, g.kind? n = some (.leaf d) → ∀ v probs, d = .integer v probs → ∃ k : ℤ, s v = k) →
  ∃ g', g.rescale (fun v => some (s v)) = .ok g' ∧ ∀ vars : List Var, (∀ v, v ∈ sc r → v ∈ vars) → ∀ m,
    (∀ e, (g.expectation m vars).2 = .ok e → (g'.expectation m vars).2 = .ok fun v => (e v).map (s v * ·)) ∧
    ∀ w, (g.variance m vars).2 = .ok w → (g'.variance m vars).2 = .ok fun v => (w v).map (s v ^ 2 * ·)

section

variable {g : Circuit} {r : Node} {sc : Node → Finset Var} (hL : Layered g r) (hs : Scoped g sc)
  (hr : ∀ d, g.kind? r ≠ some (.leaf d)) (hv : ∀ n d, g.kind? n = some (.leaf d) → d.Valid)

include hL hs hr hv

/-- C112, probabilities.  After `translate(t)` a moved event has the probability that the event had.  `t` has an entry for each
variable of the circuit, an integer for integer variables.  Missing with respect to C112: circuits that are a single leaf, where the
code does nothing. -/
theorem C112_probability_partial (hsym : ∀ n d, g.kind? n = some (.leaf d) → ∀ v probs, d ≠ .symbolic v probs)
    {t : Var → Option ℝ} {c : Var → ℝ} (ht : ∀ v ∈ sc r, t v = some (c v))
    (hint : ∀ n d, g.kind? n = some (.leaf d) → ∀ v probs, d = .integer v probs → ∃ k : ℤ, c v = k) :
    ∃ g', g.translate t = .ok g' ∧
      ∀ m E, g'.probabilityOfSimpleEvent m (moveEvent c E) = g.probabilityOfSimpleEvent m E :=
  ⟨_, translate_eq hL hs hr hv hsym ht, fun m E => probability_movedBy hint m E⟩

/-- C112, moments.  After `translate(t)` the moments of every order around the moved centers are the old moments; the expectations
are moved by `t`, the variances stay.  `vars` are the variables asked for. -/
theorem C112_moments_partial (hdec : Decomposable g sc) (hsn : NormalizedSums g)
    (hn : ∀ n d, g.kind? n = some (.leaf d) → d.Normalized)
    (hsym : ∀ n d, g.kind? n = some (.leaf d) → ∀ v probs, d ≠ .symbolic v probs)
    {t : Var → Option ℝ} {c : Var → ℝ} (ht : ∀ v ∈ sc r, t v = some (c v))
    (hint : ∀ n d, g.kind? n = some (.leaf d) → ∀ v probs, d = .integer v probs → ∃ k : ℤ, c v = k) :
    ∃ g', g.translate t = .ok g' ∧
      (∀ m m' (order : Var → ℕ) (center : Var → ℝ), ∃ e : Var → ℝ,
        (g.moment m (fun v => some (order v)) fun v => some (center v)).2 = .ok (fun v => if v ∈ sc r then some (e v) else none) ∧
        (g'.moment m' (fun v => some (order v)) fun v => some (center v + c v)).2 = .ok fun v => if v ∈ sc r then some (e v) else none) ∧
      ∀ vars : List Var, (∀ v ∈ sc r, v ∈ vars) → ∀ m m', ∃ e w : Var → ℝ,
        (g.expectation m vars).2 = .ok (fun v => if v ∈ sc r then some (e v) else none) ∧
        (g'.expectation m' vars).2 = .ok (fun v => if v ∈ sc r then some (e v + c v) else none) ∧
        (g.variance m vars).2 = .ok (fun v => if v ∈ sc r then some (w v) else none) ∧
        (g'.variance m' vars).2 = .ok fun v => if v ∈ sc r then some (w v) else none := by
  have hint' : ∀ n d, g.kind? n = some (.leaf d) → ∀ v probs, d = .integer v probs → ∃ k : ℤ, c d.var = k := fun n d hk v probs he => by
    have := hint n d hk v probs he
    subst he
    exact this
  have hmom : ∀ (order : Var → Option ℕ) (center center' : Var → Option ℝ),
      (∀ v ∈ sc r, ∃ k a, order v = some k ∧ center v = some a ∧ center' v = some (a + c v)) → ∀ m m', ∃ e : Var → ℝ,
      (g.moment m order center).2 = .ok (fun v => if v ∈ sc r then some (e v) else none) ∧
      ((g.movedBy c).moment m' order center').2 = .ok fun v => if v ∈ sc r then some (e v) else none := by
    intro order center center' hoc m m'
    have hleaf : ∀ n d, g.kind? n = some (.leaf d) → ∃ x, d.momentMap order center = .ok x ∧
        (d.moved (c d.var)).momentMap order center' = .ok (1 * x + 0) := by
      intro n d hk
      obtain ⟨k, a, h1, h2, h3⟩ := hoc _ (leaf_var_in_root hL hs hk)
      obtain ⟨x, hx⟩ := leaf_moment_ok (hsym n d hk) k a
      refine ⟨x, (momentMap_at (hsym n d hk) h1 h2).trans hx, ?_⟩
      rw [momentMap_at (moved_not_symbolic (hsym n d hk) _) (by rw [Leaf.moved_var]; exact h1) (by rw [Leaf.moved_var]; exact h3),
        moment_moved (hv n d hk) (hint' n d hk), hx, one_mul, add_zero]
    obtain ⟨e, h1, h2⟩ := moment_affine hL hs hdec hsn (ψ := fun d => d.moved (c d.var)) (fun d => Leaf.moved_var d _)
      (s := fun _ => 1) (c := fun _ => 0) hleaf m m'
    obtain ⟨e', he'⟩ := moment_keys hL hs hdec hsn (fun n d hk => let ⟨x, hx, _⟩ := hleaf n d hk; ⟨x, hx⟩) m
    refine ⟨e', he', ?_⟩
    rw [h1] at he'
    cases he'
    unfold Graph.movedBy
    rw [h2]
    congr 1
    funext v
    by_cases hv : v ∈ sc r <;> simp [hv]
  refine ⟨_, translate_eq hL hs hr hv hsym ht, fun m m' order center => hmom _ _ _ (fun v _ => ⟨_, _, rfl, rfl, rfl⟩) m m',
    fun vars hvars m m' => ?_⟩
  have hexp : ∃ e : Var → ℝ, (g.expectation m vars).2 = .ok (fun v => if v ∈ sc r then some (e v) else none) ∧
      ((g.movedBy c).expectation m' vars).2 = .ok (fun v => if v ∈ sc r then some (e v + c v) else none) := by
    have hleaf : ∀ n d, g.kind? n = some (.leaf d) → ∃ x,
        d.momentMap (fun v => if v ∈ vars then some 1 else none) (fun v => if v ∈ vars then some 0 else none) = .ok x ∧
        (d.moved (c d.var)).momentMap (fun v => if v ∈ vars then some 1 else none) (fun v => if v ∈ vars then some 0 else none)
          = .ok (1 * x + c d.var) := by
      intro n d hk
      have hm := hvars _ (leaf_var_in_root hL hs hk)
      obtain ⟨x, hx, hx'⟩ := first_moment (hv n d hk) (hn n d hk) (hsym n d hk) (-c d.var)
      refine ⟨x, (momentMap_at (hsym n d hk) (if_pos hm) (if_pos hm)).trans hx, ?_⟩
      rw [momentMap_at (moved_not_symbolic (hsym n d hk) _) (by rw [Leaf.moved_var]; exact if_pos hm)
        (by rw [Leaf.moved_var]; exact if_pos hm), ← neg_add_cancel (c d.var), moment_moved (hv n d hk) (hint' n d hk), hx', one_mul,
        sub_neg_eq_add]
    obtain ⟨e, h1, h2⟩ := moment_affine hL hs hdec hsn (ψ := fun d => d.moved (c d.var)) (fun d => Leaf.moved_var d _)
      (s := fun _ => 1) (c := c) hleaf m m'
    obtain ⟨e', he'⟩ := moment_keys hL hs hdec hsn (fun n d hk => let ⟨x, hx, _⟩ := hleaf n d hk; ⟨x, hx⟩) m
    refine ⟨e', he', ?_⟩
    rw [h1] at he'
    cases he'
    unfold Graph.expectation Graph.movedBy
    rw [h2]
    congr 1
    funext v
    by_cases hv : v ∈ sc r <;> simp [hv]
  obtain ⟨e, h1, h2⟩ := hexp
  obtain ⟨w, h3, h4⟩ := hmom (fun v => if v ∈ vars then some 2 else none) (fun v => if v ∈ sc r then some (e v) else none)
    (fun v => if v ∈ sc r then some (e v + c v) else none)
    (fun v hv => ⟨2, e v, if_pos (hvars v hv), if_pos hv, if_pos hv⟩) (g.expectation m vars).1 ((g.movedBy c).expectation m' vars).1
  refine ⟨e, w, h1, h2, ?_, ?_⟩
  · unfold Graph.variance
    generalize hq : g.expectation m vars = q at h1 h3 ⊢
    obtain ⟨q1, q2⟩ := q
    cases h1
    exact h3
  · unfold Graph.variance
    generalize hq : (g.movedBy c).expectation m' vars = q at h2 h4 ⊢
    obtain ⟨q1, q2⟩ := q
    cases h2
    exact h4

/-- C112, scaling.  After `scale(t)` of a circuit with uniform leaves (positive factors) and integer leaves (non-zero integer
factors), a moment of order `k` around the scaled center is the old moment times the `k`-th power of the factor; so the expectations
are scaled by the factors, the variances by their squares.  Missing with respect to C112: Dirac and Gaussian distributions (see
`C112_scale_full_false` and `C24_gaussian_raises`) and single leaves. -/
theorem C112_scale_partial (hdec : Decomposable g sc) (hsn : NormalizedSums g)
    {t : Var → Option ℝ} {s : Var → ℝ} (ht : ∀ v ∈ sc r, t v = some (s v))
    (h : ∀ n d, g.kind? n = some (.leaf d) → (∃ v lo hi l r, d = .uniform v lo hi l r ∧ 0 < s v) ∨
      (∃ (v : Var) (probs : List (ℤ × ℝ)) (k : ℤ), d = .integer v probs ∧ s v = k ∧ k ≠ 0)) :
    ∃ g', g.rescale t = .ok g' ∧
      (∀ m m' (k : ℕ) (center : Var → ℝ), ∃ e : Var → ℝ,
        (g.moment m (fun _ => some k) fun v => some (center v)).2 = .ok (fun v => if v ∈ sc r then some (e v) else none) ∧
        (g'.moment m' (fun _ => some k) fun v => some (center v * s v)).2
          = .ok fun v => if v ∈ sc r then some (s v ^ k * e v) else none) ∧
      ∀ vars : List Var, (∀ v ∈ sc r, v ∈ vars) → ∀ m m', ∃ e w : Var → ℝ,
        (g.expectation m vars).2 = .ok (fun v => if v ∈ sc r then some (e v) else none) ∧
        (g'.expectation m' vars).2 = .ok (fun v => if v ∈ sc r then some (s v * e v) else none) ∧
        (g.variance m vars).2 = .ok (fun v => if v ∈ sc r then some (w v) else none) ∧
        (g'.variance m' vars).2 = .ok fun v => if v ∈ sc r then some (s v ^ 2 * w v) else none := by
  have hsym : ∀ n d, g.kind? n = some (.leaf d) → ∀ v probs, d ≠ .symbolic v probs := by
    intro n d hk v probs he
    rcases h n d hk with ⟨v', lo, hi, l, r, rfl, _⟩ | ⟨v', probs', k, rfl, _⟩ <;> cases he
  have hmom : ∀ (k : ℕ) (order : Var → Option ℕ) (center center' : Var → Option ℝ),
      (∀ v ∈ sc r, ∃ a, order v = some k ∧ center v = some a ∧ center' v = some (a * s v)) → ∀ m m', ∃ e : Var → ℝ,
      (g.moment m order center).2 = .ok (fun v => if v ∈ sc r then some (e v) else none) ∧
      ((g.stretchedBy s).moment m' order center').2 = .ok fun v => if v ∈ sc r then some (s v ^ k * e v) else none := by
    intro k order center center' hoc m m'
    have hleaf : ∀ n d, g.kind? n = some (.leaf d) → ∃ x, d.momentMap order center = .ok x ∧
        (d.stretched (s d.var)).momentMap order center' = .ok (s d.var ^ k * x + 0) := by
      intro n d hk
      obtain ⟨a, h1, h2, h3⟩ := hoc _ (leaf_var_in_root hL hs hk)
      obtain ⟨x, hx⟩ := leaf_moment_ok (hsym n d hk) k a
      refine ⟨x, (momentMap_at (hsym n d hk) h1 h2).trans hx, ?_⟩
      rw [momentMap_at (stretched_not_symbolic (hsym n d hk) _) (by rw [Leaf.stretched_var]; exact h1)
        (by rw [Leaf.stretched_var]; exact h3), moment_stretched (hv n d hk) (leaf_cases (h n d hk)) hx, add_zero]
    obtain ⟨e, h1, h2⟩ := moment_affine hL hs hdec hsn (ψ := fun d => d.stretched (s d.var)) (fun d => Leaf.stretched_var d _)
      (s := fun v => s v ^ k) (c := fun _ => 0) hleaf m m'
    obtain ⟨e', he'⟩ := moment_keys hL hs hdec hsn (fun n d hk => let ⟨x, hx, _⟩ := hleaf n d hk; ⟨x, hx⟩) m
    refine ⟨e', he', ?_⟩
    rw [h1] at he'
    cases he'
    unfold Graph.stretchedBy
    rw [h2]
    congr 1
    funext v
    by_cases hv : v ∈ sc r <;> simp [hv]
  refine ⟨_, rescale_eq hL hs hr hv ht h, fun m m' k center => hmom k _ _ _ (fun v _ => ⟨_, rfl, rfl, rfl⟩) m m',
    fun vars hvars m m' => ?_⟩
  obtain ⟨e, h1, h2⟩ := hmom 1 (fun v => if v ∈ vars then some 1 else none) (fun v => if v ∈ vars then some 0 else none)
    (fun v => if v ∈ vars then some 0 else none)
    (fun v hv => ⟨0, if_pos (hvars v hv), if_pos (hvars v hv), by rw [zero_mul]; exact if_pos (hvars v hv)⟩) m m'
  simp only [pow_one] at h2
  obtain ⟨w, h3, h4⟩ := hmom 2 (fun v => if v ∈ vars then some 2 else none) (fun v => if v ∈ sc r then some (e v) else none)
    (fun v => if v ∈ sc r then some (s v * e v) else none)
    (fun v hv => ⟨e v, if_pos (hvars v hv), if_pos hv, by rw [mul_comm]; exact if_pos hv⟩) (g.expectation m vars).1
    ((g.stretchedBy s).expectation m' vars).1
  refine ⟨e, w, h1, h2, ?_, ?_⟩
  · have h1' : (g.expectation m vars).2 = _ := h1
    unfold Graph.variance
    generalize hq : g.expectation m vars = q at h1' h3 ⊢
    obtain ⟨q1, q2⟩ := q
    cases h1'
    exact h3
  · have h2' : ((g.stretchedBy s).expectation m' vars).2 = _ := h2
    unfold Graph.variance
    generalize hq : (g.stretchedBy s).expectation m' vars = q at h2' h4 ⊢
    obtain ⟨q1, q2⟩ := q
    cases h2'
    exact h4

/-- C112, determinism and mode.  `translate(t)` keeps the answer of `is_deterministic`; if it is `True`, and every leaf density has a
maximum, then `mode` answers with the old likelihood and with the old points moved by `t`.  Missing: single leaves; leaves without a
maximum (`C15_full_false`). -/
theorem C112_mode_partial (hdec : Decomposable g sc) (hp : ProductsNonempty g)
    (hm : ∀ n d, g.kind? n = some (.leaf d) → AttainsMax d)
    (hpw : ∀ n, g.kind? n = some .sum → ∃ e ∈ g.outEdges n, 0 < linWeight e)
    (hsym : ∀ n d, g.kind? n = some (.leaf d) → ∀ v probs, d ≠ .symbolic v probs)
    {t : Var → Option ℝ} {c : Var → ℝ} (ht : ∀ v ∈ sc r, t v = some (c v))
    (hint : ∀ n d, g.kind? n = some (.leaf d) → ∀ v probs, d = .integer v probs → ∃ k : ℤ, c v = k) :
    ∃ g', g.translate t = .ok g' ∧ (∀ m₁ m₂, (g'.isDeterministic m₁).2 = (g.isDeterministic m₂).2) ∧
      ∀ m₁ m₂ m₃ m₄ next next', (g.isDeterministic m₁).2 = .ok true → ∃ E E' p, g.mode next m₁ m₂ = .ok (E, p) ∧
        g'.mode next' m₃ m₄ = .ok (E', p) ∧ ∀ x : Var → ℝ, E'.Mem (fun v => x v + c v) ↔ E.Mem x := by
  have hψ : ∀ n d, g.kind? n = some (.leaf d) → (d.moved (c d.var)).Valid ∧
      ∀ x, leafDensity (d.moved (c d.var)) (x + c d.var) = leafDensity d x := by
    intro n d hk
    obtain ⟨d', h1, _, h2, h3⟩ := leaf_translate (hv n d hk) (ht _ (leaf_var_in_root hL hs hk)) (hsym n d hk) (fun v probs he => by
      have := hint n d hk v probs he
      subst he
      exact this)
    rw [leaf_moved (hv n d hk) (ht _ (leaf_var_in_root hL hs hk)) (hsym n d hk)] at h1
    cases h1
    exact ⟨h2, h3⟩
  have hL' := mapLeaves_layered hL fun d => d.moved (c d.var)
  have hs' := mapLeaves_scoped hs (ψ := fun d => d.moved (c d.var)) fun n d _ => Leaf.moved_var d _
  have hdec' := mapLeaves_decomposable hdec fun d => d.moved (c d.var)
  have hp' := mapLeaves_productsNonempty hp fun d => d.moved (c d.var)
  have hty : Typed g fun _ => false := fun n d hk => by
    constructor
    · intro h; cases h
    · rintro ⟨v, probs, he⟩; exact absurd he (hsym n d hk v probs)
  have hty' : Typed (g.movedBy c) fun _ => false := fun n d' hk => by
    obtain ⟨d, hd, rfl⟩ := kind?_mapLeaves_leaf.1 hk
    constructor
    · intro h; cases h
    · rintro ⟨v, probs, he⟩; exact absurd he (moved_not_symbolic (hsym n d hd) _ v probs)
  have hv' : ∀ n d, (g.movedBy c).kind? n = some (.leaf d) → d.Valid := fun n d' hk => by
    obtain ⟨d, hd, rfl⟩ := kind?_mapLeaves_leaf.1 hk
    exact (hψ n d hd).1
  have hm' : ∀ n d, (g.movedBy c).kind? n = some (.leaf d) → AttainsMax d := fun n d' hk => by
    obtain ⟨d, hd, rfl⟩ := kind?_mapLeaves_leaf.1 hk
    obtain ⟨x, hx1, hx2⟩ := hm n d hd
    refine ⟨x + c d.var, by rw [(hψ n d hd).2]; exact hx1, fun y => ?_⟩
    rw [(hψ n d hd).2, ← sub_add_cancel y (c d.var), (hψ n d hd).2]
    exact hx2 _
  obtain ⟨S, hS⟩ := exists_possiblePoints hL.graded.acyclic (g := g)
  have hS' : PossiblePoints (g.movedBy c) fun n => {x | (fun v => x v - c v) ∈ S n} := by
    refine ⟨fun n d' hk x => ?_, fun n hk x => hS.sum n (kind?_mapLeaves_sum.1 hk) _, fun n hk x => hS.prod n (kind?_mapLeaves_prod.1 hk) _⟩
    obtain ⟨d, hd, rfl⟩ := kind?_mapLeaves_leaf.1 hk
    show (fun v => x v - c v) ∈ S n ↔ _
    rw [hS.leaf n d hd, Leaf.moved_var, ← (hψ n d hd).2, sub_add_cancel]
  have hdet : ∀ m₁ m₂, ((g.movedBy c).isDeterministic m₁).2 = (g.isDeterministic m₂).2 := by
    intro m₁ m₂
    obtain ⟨b, hb1, hb2⟩ := C14_is_deterministic hL hs hp hty hv hS m₂
    obtain ⟨b', hb1', hb2'⟩ := C14_is_deterministic hL' hs' hp' hty' hv' hS' m₁
    have : b' = true ↔ b = true := by
      rw [hb2, hb2']
      constructor
      · intro h n hk
        refine (h n (kind?_mapLeaves_sum.2 hk)).imp fun {a b} hab x hx => hab (fun v => x v + c v) ?_
        simpa using hx
      · intro h n hk
        exact (h n (kind?_mapLeaves_sum.1 hk)).imp fun {a b} hab x hx => hab (fun v => x v - c v) hx
    exact hb1'.trans (by rw [hb1, Bool.eq_iff_iff.2 this])
  refine ⟨_, translate_eq hL hs hr hv hsym ht, hdet, fun m₁ m₂ m₃ m₄ next next' hd => ?_⟩
  obtain ⟨E, p, h1, _, ⟨x, hx⟩, h2⟩ := C15_mode_partial hL hs hdec hp hty hv hm hpw m₁ hd next m₂
  obtain ⟨E', p', h1', _, ⟨x', hx'⟩, h2'⟩ := C15_mode_partial hL' hs' hdec' hp' hty' hv' hm'
    (fun n hk => hpw n (kind?_mapLeaves_sum.1 hk)) m₃ ((hdet m₃ m₁).trans hd) next' m₄
  have hval : ∀ x : Var → ℝ, ∃ f, CircuitValue g (fun d => leafDensity d (x d.var)) f ∧
      CircuitValue (g.movedBy c) (fun d => leafDensity d (x d.var + c d.var)) f := by
    intro x
    obtain ⟨f, hf⟩ := exists_circuitValue hL.graded.acyclic (g := g) (fun d => leafDensity d (x d.var))
    exact ⟨f, hf, mapLeaves_value hf fun n d hk => by rw [Leaf.moved_var, (hψ n d hk).2]⟩
  have hpp : p = p' := by
    apply le_antisymm
    · obtain ⟨f, hf, hf'⟩ := hval x
      rw [← ((h2 x f hf).2.1 hx)]
      exact (h2' (fun v => x v + c v) f hf').1
    · obtain ⟨f, hf, hf'⟩ := hval fun v => x' v - c v
      simp only [sub_add_cancel] at hf'
      rw [← ((h2' x' f hf').2.1 hx')]
      exact (h2 (fun v => x' v - c v) f hf).1
  subst hpp
  refine ⟨E, E', p, h1, h1', fun x => ?_⟩
  obtain ⟨f, hf, hf'⟩ := hval x
  rw [(h2 x f hf).2, (h2' (fun v => x v + c v) f hf').2]

end

theorem dag_inner (d : Leaf) : Ex.dag.kind? 0 ≠ some (.leaf d) := fun h => by
  injection (show some (.sum : Kind Leaf) = some (.leaf d) from h) with h
  cases h

theorem dag_noInteger (c : Var → ℝ) : ∀ n d, Ex.dag.kind? n = some (.leaf d) → ∀ v probs, d = .integer v probs → ∃ k : ℤ, c v = k :=
  fun n d hk v probs he => absurd he (Ex.forall_kind (g := Ex.dag)
    (P := fun _ k => ∀ d, k = .leaf d → d ≠ .integer v probs) (by simp [Ex.dag]) n _ hk d rfl)

theorem dag_attainsMax : ∀ n d, Ex.dag.kind? n = some (.leaf d) → AttainsMax d := fun n d h => by
  have hv := Ex.dag_valid n d h
  have := Ex.forall_kind (g := Ex.dag) (P := fun n k => ∀ d, k = .leaf d → ∃ v lo hi l r, d = .uniform v lo hi l r)
    (by simp [Ex.dag]) n _ h d rfl
  obtain ⟨v, lo, hi, l, r, rfl⟩ := this
  obtain ⟨A, L, -, -, hm⟩ := leaf_mode hv trivial (fun x _ => x) (s := false) (by simp)
  obtain ⟨x, hx⟩ := hm.ne
  have hx := (hm.mem x).1 hx
  exact ⟨x, by rw [hx]; exact hm.pos, fun y => by rw [hx]; exact hm.le y⟩

theorem dag_somePositive : ∀ n, Ex.dag.kind? n = some .sum → ∃ e ∈ Ex.dag.outEdges n, 0 < linWeight e := by
  intro n hk
  have hn : n = 0 := Ex.forall_kind (g := Ex.dag) (P := fun n k => k = .sum → n = 0) (by simp [Ex.dag]) n _ hk rfl
  subst hn
  exact ⟨⟨0, 1, some (.fin (Real.log (1 / 4)))⟩, by simp [Ex.dag, outEdges], by simp only [linWeight, LogP.exp_fin]; exact Real.exp_pos _⟩

/-- The hypotheses are met by the example circuit with a shared unit, moved by `3` and `-1`: expectations move, variances stay. -/
example (m m' : Mem (Var → ℝ)) : ∃ g', Ex.dag.translate (fun v => some (if v = 0 then 3 else -1)) = .ok g' ∧
    ∃ e w : Var → ℝ, (Ex.dag.expectation m [0, 1]).2 = .ok (fun v => if v ∈ Ex.dagScope 0 then some (e v) else none) ∧
      (g'.expectation m' [0, 1]).2 = .ok (fun v => if v ∈ Ex.dagScope 0 then some (e v + if v = 0 then 3 else -1) else none) ∧
      (Ex.dag.variance m [0, 1]).2 = .ok (fun v => if v ∈ Ex.dagScope 0 then some (w v) else none) ∧
      (g'.variance m' [0, 1]).2 = .ok fun v => if v ∈ Ex.dagScope 0 then some (w v) else none := by
  obtain ⟨g', h, _, h'⟩ := C112_moments_partial Ex.dag_layered Ex.dag_scoped dag_inner Ex.dag_valid Ex.dag_decomposable dag_normalized.1
    dag_normalized.2 dag_numeric (t := fun v => some (if v = 0 then 3 else -1)) (c := fun v => if v = 0 then 3 else -1)
    (fun v _ => rfl) (dag_noInteger _)
  exact ⟨g', h, h' [0, 1] (fun v hv => by simpa [Ex.dagScope] using hv) m m'⟩

/-- Its moved events keep their probabilities. -/
example : ∃ g', Ex.dag.translate (fun v => some (if v = 0 then 3 else -1)) = .ok g' ∧
    ∀ m E, g'.probabilityOfSimpleEvent m (moveEvent (fun v => if v = 0 then 3 else -1) E) = Ex.dag.probabilityOfSimpleEvent m E :=
  C112_probability_partial Ex.dag_layered Ex.dag_scoped dag_inner Ex.dag_valid dag_numeric
    (t := fun v => some (if v = 0 then 3 else -1)) (fun _ _ => rfl) (dag_noInteger _)

/-- Its mode moves along. -/
example (next : ℝ → Bool → ℝ) (m : Mem Event) (m' : Mem (Event × LogP)) :
    ∃ g', Ex.dag.translate (fun v => some (if v = 0 then 3 else -1)) = .ok g' ∧ ∃ E E' p, Ex.dag.mode next m m' = .ok (E, p) ∧
      g'.mode next m m' = .ok (E', p) ∧ ∀ x : Var → ℝ, E'.Mem (fun v => x v + if v = 0 then 3 else -1) ↔ E.Mem x := by
  obtain ⟨g', h, _, h'⟩ := C112_mode_partial Ex.dag_layered Ex.dag_scoped dag_inner Ex.dag_valid Ex.dag_decomposable dag_products
    dag_attainsMax dag_somePositive dag_numeric (t := fun v => some (if v = 0 then 3 else -1)) (c := fun v => if v = 0 then 3 else -1)
    (fun v _ => rfl) (dag_noInteger _)
  exact ⟨g', h, h' m m' m m' next next (dag_deterministic m)⟩

/-- Scaled by `3` and `1/2`, its expectations are scaled by the factors, its variances by `9` and `1/4`. -/
example (m m' : Mem (Var → ℝ)) : ∃ g', Ex.dag.rescale (fun v => some (if v = 0 then 3 else 1 / 2)) = .ok g' ∧
    ∃ e w : Var → ℝ, (Ex.dag.expectation m [0, 1]).2 = .ok (fun v => if v ∈ Ex.dagScope 0 then some (e v) else none) ∧
      (g'.expectation m' [0, 1]).2 = .ok (fun v => if v ∈ Ex.dagScope 0 then some ((if v = 0 then 3 else 1 / 2) * e v) else none) ∧
      (Ex.dag.variance m [0, 1]).2 = .ok (fun v => if v ∈ Ex.dagScope 0 then some (w v) else none) ∧
      (g'.variance m' [0, 1]).2 = .ok fun v => if v ∈ Ex.dagScope 0 then some ((if v = 0 then 3 else 1 / 2) ^ 2 * w v) else none := by
  obtain ⟨g', h, _, h'⟩ := C112_scale_partial Ex.dag_layered Ex.dag_scoped dag_inner Ex.dag_valid Ex.dag_decomposable dag_normalized.1
    (t := fun v => some (if v = 0 then 3 else 1 / 2)) (s := fun v => if v = 0 then 3 else 1 / 2) (fun v _ => rfl)
    (fun n d hk => Or.inl (Ex.forall_kind (g := Ex.dag) (P := fun _ k => ∀ d, k = .leaf d → ∃ v lo hi l r,
      d = .uniform v lo hi l r ∧ 0 < (if v = 0 then (3 : ℝ) else 1 / 2)) (by simp [Ex.dag]) n _ hk d rfl))
  exact ⟨g', h, h' [0, 1] (fun v hv => by simpa [Ex.dagScope] using hv) m m'⟩

/-- C112 is false of the code: `translate` by `5` leaves a circuit that consists of one leaf, and its expectation, as they were. -/
theorem C112_full_false : ¬ C112_full := by
  intro H
  have hnum : ∀ n d, single.kind? n = some (.leaf d) → ∀ v probs, d ≠ .symbolic v probs :=
    fun n d hk => Ex.forall_kind (g := single) (P := fun _ k => ∀ d, k = .leaf d → ∀ v probs, d ≠ .symbolic v probs)
      (by simp [single]) n _ hk d rfl
  have hdec : Decomposable single fun _ => {0} := Ex.decomposable_of (by simp [single])
  have hsn : NormalizedSums single := fun n hk =>
    absurd rfl (Ex.forall_kind (g := single) (P := fun _ k => k ≠ .sum) (by simp [single]) n _ hk)
  obtain ⟨g', h, _, h'⟩ := H single 0 (fun _ => {0}) (fun _ => 5) single_layered single_scoped hdec hsn
    (fun n d hk => ⟨single_valid n d hk,
      Ex.forall_kind (g := single) (P := fun _ k => ∀ d, k = .leaf d → d.Normalized) (by simp [single, Leaf.Normalized]) n _ hk d rfl⟩) hnum
    (fun n d hk v probs he => absurd he (Ex.forall_kind (g := single)
      (P := fun _ k => ∀ d, k = .leaf d → d ≠ .integer v probs) (by simp [single]) n _ hk d rfl))
  have h0 : single.translate (fun _ => some 5) = .ok single := rfl
  rw [h0] at h
  injection h with h
  subst h
  have h1 := (h' [0] (fun v hv => by simpa using hv) fun _ => none).1
  obtain ⟨e, he⟩ := moment_keys single_layered single_scoped hdec hsn (order := fun v => if v ∈ [0] then some 1 else none)
    (center := fun v => if v ∈ [0] then some 0 else none)
    (fun n d hk => by
      have : d = .uniform 0 0 1 closed closed := Ex.forall_kind (g := single)
        (P := fun _ k => ∀ d, k = .leaf d → d = .uniform 0 0 1 closed closed) (by simp [single]) n _ hk d rfl
      subst this
      exact ⟨_, momentMap_at (by simp) (k := 1) (a := 0) (by simp [Leaf.var]) (by simp [Leaf.var])⟩) fun _ => none
  have h2 := h1 _ he
  rw [show (single.expectation (fun _ => none) [0]).2 = _ from he] at h2
  have := congrFun (Except.ok.inj h2) 0
  simp at this

/-- A product unit over the Dirac distribution at `0`. -/
noncomputable def diracProduct : Circuit := ⟨[(0, .prod), (1, .leaf (.dirac 0 0 1))], [⟨0, 1, none⟩]⟩

/-- C112 for `scale` is false of the code: scaling a Dirac distribution by `1` adds `1` to its expectation. -/
theorem C112_scale_full_false : ¬ C112_scale_full := by
  intro H
  have hL : Layered diracProduct 0 :=
    { wf := ⟨by decide, by decide, by simp [diracProduct, ids], by simp [diracProduct, ids]⟩
      graded := ⟨fun n => n, by simp [diracProduct]⟩
      leaves := Ex.leafTerminal_of (by simp [diracProduct, succ, outEdges])
      weighted := Ex.weighted_of (by simp [diracProduct])
      root := rfl }
  have hs : Scoped diracProduct fun _ => {0} :=
    Ex.scoped_of (by simp [diracProduct, Leaf.var]) (by simp [diracProduct]) (by simp [diracProduct, succ, outEdges])
  have hdec : Decomposable diracProduct fun _ => {0} := Ex.decomposable_of (by simp [diracProduct, succ, outEdges])
  have hsn : NormalizedSums diracProduct := fun n hk =>
    absurd rfl (Ex.forall_kind (g := diracProduct) (P := fun _ k => k ≠ .sum) (by simp [diracProduct]) n _ hk)
  have hr : ∀ d, diracProduct.kind? 0 ≠ some (.leaf d) := fun d h => by
    injection (show some (.prod : Kind Leaf) = some (.leaf d) from h) with h
    cases h
  have hd : ∀ n d, diracProduct.kind? n = some (.leaf d) → d = .dirac 0 0 1 := fun n d hk => Ex.forall_kind (g := diracProduct)
    (P := fun _ k => ∀ d, k = .leaf d → d = .dirac 0 0 1) (by simp [diracProduct]) n _ hk d rfl
  have hv : ∀ n d, diracProduct.kind? n = some (.leaf d) → d.Valid := fun n d hk => by
    rw [hd n d hk]; exact one_pos
  have hn : ∀ n d, diracProduct.kind? n = some (.leaf d) → d.Normalized := fun n d hk => by
    rw [hd n d hk]; simp [Leaf.Normalized]
  have hsym : ∀ n d, diracProduct.kind? n = some (.leaf d) → ∀ v probs, d ≠ .symbolic v probs := fun n d hk => by
    rw [hd n d hk]; simp
  have hint : ∀ n d, diracProduct.kind? n = some (.leaf d) → ∀ v probs, d = .integer v probs → ∃ k : ℤ, (1 : ℝ) = k :=
    fun n d hk v probs he => ⟨1, by simp⟩
  obtain ⟨g', h, h'⟩ := H diracProduct 0 (fun _ => {0}) (fun _ => 1) hL hs hdec hsn (fun n d hk => ⟨hv n d hk, hn n d hk⟩) hr hsym
    (fun _ => one_pos) hint
  obtain ⟨g'', h1, _, h2⟩ := C112_moments_partial hL hs hr hv hdec hsn hn hsym (t := fun _ => some 1) (c := fun _ => 1) (fun _ _ => rfl) hint
  have heq : diracProduct.rescale (fun _ => some 1) = diracProduct.translate fun _ => some 1 := by
    rw [translate_eq hL hs hr hv hsym (c := fun _ => 1) fun _ _ => rfl]
    exact changeLeaves_eq hL hr fun n d hk => by rw [hd n d hk]; rfl
  rw [heq, h1] at h
  cases h
  obtain ⟨e, w, h3, h4, _⟩ := h2 [0] (fun v hv => by simpa using hv) (fun _ => none) fun _ => none
  have h5 := (h' [0] (fun v hv => by simpa using hv) fun _ => none).1 _ h3
  rw [h4] at h5
  have := congrFun (Except.ok.inj h5) 0
  simp at this

end PM.Props
