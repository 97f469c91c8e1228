import Verif.Circuit.MomentValue
import Verif.Circuit.TransformLemmas
import Verif.Dist.MoveLemmas
import Verif.Spec.Support

/-! # Moved and scaled circuits: helper lemmas for C112 -/

namespace PM

open Classical Spec Graph

variable {g : Circuit} {r : Node} {sc : Node → Finset Var}

/-- Mixtures and products of affine images. -/
theorem value_affine (hw : g.WF) (ha : g.Acyclic) (hs : Scoped g sc) (hdec : Decomposable g sc) (hsn : NormalizedSums g) {v : Var}
    {x x' : Leaf → ℝ} {s c : ℝ} (hx : ∀ n d, g.kind? n = some (.leaf d) → d.var = v → x' d = s * x d + c) {f f' : Node → ℝ}
    (hf : CircuitValue g (fun d => if d.var = v then x d else 1) f) (hf' : CircuitValue g (fun d => if d.var = v then x' d else 1) f') :
    ∀ n, n ∈ g.ids → v ∈ sc n → f' n = s * f n + c := by
  refine ha.induct ?_
  intro n ih hn hv
  obtain ⟨k, hk⟩ := exists_kind? hn
  have hids : ∀ e ∈ g.outEdges n, e.dst ∈ g.ids := fun e he => succ_mem_ids hw (dst_mem_succ he)
  have hch : ∀ e ∈ g.outEdges n, v ∈ sc e.dst → f' e.dst = s * f e.dst + c := fun e he => ih _ (dst_mem_succ he) (hids e he)
  cases k with
  | leaf d =>
    have hd : d.var = v := by rw [hs.leaf n d hk] at hv; simpa [eq_comm] using hv
    rw [hf.leaf n d hk, hf'.leaf n d hk, if_pos hd, if_pos hd, hx n d hk hd]
  | sum =>
    rw [hf.sum n hk, hf'.sum n hk]
    have : ((g.outEdges n).map fun e => linWeight e * f' e.dst) =
        (g.outEdges n).map fun e => s * (linWeight e * f e.dst) + c * linWeight e := by
      apply List.map_congr_left
      intro e he
      rw [hch e he (by rwa [hs.sum n hk _ (dst_mem_succ he)])]
      ring
    rw [this, List.sum_map_add, List.sum_map_mul_left, List.sum_map_mul_left]
    have h1 := hsn n hk
    rw [h1, mul_one]
  | prod =>
    obtain ⟨m, hm, hvm⟩ := (hs.prod n hk v).1 hv
    obtain ⟨e, he, rfl⟩ := List.mem_map.1 hm
    rw [hf.prod n hk, hf'.prod n hk,
      prod_single_real (sc := sc) _ (hdec n hk) f
        (fun e he => value_one_off hw ha hs hsn hf (fun n d _ h => if_neg h) _ (hids e he)) e he hvm,
      prod_single_real (sc := sc) _ (hdec n hk) f'
        (fun e he => value_one_off hw ha hs hsn hf' (fun n d _ h => if_neg h) _ (hids e he)) e he hvm]
    exact hch e he hvm

theorem mapLeaves_decomposable (hdec : Decomposable g sc) (ψ : Leaf → Leaf) : Decomposable (g.mapLeavesOn ψ fun _ => true) sc :=
  fun n hk => hdec n (kind?_mapLeaves_prod.1 hk)

theorem mapLeaves_normalizedSums (h : NormalizedSums g) (ψ : Leaf → Leaf) : NormalizedSums (g.mapLeavesOn ψ fun _ => true) :=
  fun n hk => h n (kind?_mapLeaves_sum.1 hk)

theorem mapLeaves_productsNonempty (h : ProductsNonempty g) (ψ : Leaf → Leaf) : ProductsNonempty (g.mapLeavesOn ψ fun _ => true) :=
  fun n hk => h n (kind?_mapLeaves_prod.1 hk)

theorem leaf_var_in_root (hL : Layered g r) (hs : Scoped g sc) {n : Node} {d : Leaf} (hk : g.kind? n = some (.leaf d)) : d.var ∈ sc r :=
  scope_mono hL.wf hL.leaves hs (root_mem hL.root).1
    (reachable_of_root hL.wf hL.graded.acyclic hL.root n (mem_ids_of_kind? hk)) (by rw [hs.leaf n d hk]; simp)

/-- Moments after an affine change of all leaf moments. -/
theorem moment_affine (hL : Layered g r) (hs : Scoped g sc) (hdec : Decomposable g sc) (hsn : NormalizedSums g) {ψ : Leaf → Leaf}
    (hψ : ∀ d, (ψ d).var = d.var) {order : Var → Option ℕ} {center center' : Var → Option ℝ} {s c : Var → ℝ}
    (h : ∀ n d, g.kind? n = some (.leaf d) → ∃ x, d.momentMap order center = .ok x ∧
      (ψ d).momentMap order center' = .ok (s d.var * x + c d.var)) (m m' : Mem (Var → ℝ)) :
    ∃ e : Var → Option ℝ, (g.moment m order center).2 = .ok e ∧
      ((g.mapLeavesOn ψ fun _ => true).moment m' order center').2 = .ok fun v => (e v).map fun y => s v * y + c v := by
  have hac := hL.graded.acyclic
  have hex : ∀ d, ∃ x, (∃ n, g.kind? n = some (.leaf d)) → d.momentMap order center = .ok x ∧
      (ψ d).momentMap order center' = .ok (s d.var * x + c d.var) := by
    intro d
    by_cases hd : ∃ n, g.kind? n = some (.leaf d)
    · obtain ⟨n, hk⟩ := hd
      obtain ⟨x, hx⟩ := h n d hk
      exact ⟨x, fun _ => hx⟩
    · exact ⟨0, fun h => absurd h hd⟩
  choose x hx using hex
  have hf : ∀ v, ∃ f, CircuitValue g (fun d => if d.var = v then x d else 1) f := fun v => exists_circuitValue hac _
  choose f hf using hf
  have hf' : ∀ v, ∃ f, CircuitValue g (fun d => if d.var = v then s d.var * x d + c d.var else 1) f := fun v => exists_circuitValue hac _
  choose f' hf' using hf'
  let y : Leaf → ℝ := fun d => match d.momentMap order center' with
    | .ok y => y
    | .error _ => 0
  have hy : ∀ n d, g.kind? n = some (.leaf d) → y (ψ d) = s d.var * x d + c d.var := fun n d hk => by
    simp only [y, (hx d ⟨n, hk⟩).2]
  have h1 := moment_value hL hs hdec hsn (fun n d hk => (hx d ⟨n, hk⟩).1) hf m
  have h2 := moment_value (mapLeaves_layered hL ψ) (mapLeaves_scoped hs fun n d _ => hψ d) (mapLeaves_decomposable hdec ψ)
    (mapLeaves_normalizedSums hsn ψ) (order := order) (center := center') (x := y)
    (fun n d' hk => by
      obtain ⟨d, hd, rfl⟩ := kind?_mapLeaves_leaf.1 hk
      rw [hy n d hd, (hx d ⟨n, hd⟩).2])
    (f := f')
    (fun v => mapLeaves_value (hf' v) fun n d hk => by rw [hψ, hy n d hk]) m'
  refine ⟨_, h1, h2.trans ?_⟩
  congr 1
  funext v
  by_cases hv : v ∈ sc r
  · rw [if_pos hv, if_pos hv, Option.map_some]
    congr 1
    exact value_affine hL.wf hac hs hdec hsn (s := s v) (c := c v) (fun n d _ h => by rw [h]) (hf v) (hf' v) r (root_mem hL.root).1 hv
  · rw [if_neg hv, if_neg hv]; rfl

theorem moment_keys (hL : Layered g r) (hs : Scoped g sc) (hdec : Decomposable g sc) (hsn : NormalizedSums g)
    {order : Var → Option ℕ} {center : Var → Option ℝ} (h : ∀ n d, g.kind? n = some (.leaf d) → ∃ x, d.momentMap order center = .ok x)
    (m : Mem (Var → ℝ)) : ∃ e : Var → ℝ, (g.moment m order center).2 = .ok fun v => if v ∈ sc r then some (e v) else none := by
  have hac := hL.graded.acyclic
  have hex : ∀ d, ∃ x, (∃ n, g.kind? n = some (.leaf d)) → d.momentMap order center = .ok x := by
    intro d
    by_cases hd : ∃ n, g.kind? n = some (.leaf d)
    · obtain ⟨n, hk⟩ := hd
      obtain ⟨x, hx⟩ := h n d hk
      exact ⟨x, fun _ => hx⟩
    · exact ⟨0, fun h => absurd h hd⟩
  choose x hx using hex
  have hf : ∀ v, ∃ f, CircuitValue g (fun d => if d.var = v then x d else 1) f := fun v => exists_circuitValue hac _
  choose f hf using hf
  exact ⟨_, moment_value hL hs hdec hsn (fun n d hk => hx d ⟨n, hk⟩) hf m⟩

/-- The moved circuit. -/
noncomputable def Graph.movedBy (g : Circuit) (c : Var → ℝ) : Circuit := g.mapLeavesOn (fun d => d.moved (c d.var)) fun _ => true

theorem translate_eq (hL : Layered g r) (hs : Scoped g sc) (hr : ∀ d, g.kind? r ≠ some (.leaf d))
    (hv : ∀ n d, g.kind? n = some (.leaf d) → d.Valid)
    (hsym : ∀ n d, g.kind? n = some (.leaf d) → ∀ v probs, d ≠ .symbolic v probs)
    {t : Var → Option ℝ} {c : Var → ℝ} (ht : ∀ v ∈ sc r, t v = some (c v)) : g.translate t = .ok (g.movedBy c) :=
  changeLeaves_eq hL hr fun n d hk => leaf_moved (hv n d hk) (ht _ (leaf_var_in_root hL hs hk)) (hsym n d hk)

/-- The scaled circuit. -/
noncomputable def Graph.stretchedBy (g : Circuit) (s : Var → ℝ) : Circuit :=
  g.mapLeavesOn (fun d => d.stretched (s d.var)) fun _ => true

theorem leaf_cases {s : Var → ℝ} {d : Leaf} (h : (∃ v lo hi l r, d = .uniform v lo hi l r ∧ 0 < s v) ∨
      (∃ (v : Var) (probs : List (ℤ × ℝ)) (k : ℤ), d = .integer v probs ∧ s v = k ∧ k ≠ 0)) :
    (∃ v lo hi l r, d = .uniform v lo hi l r ∧ 0 < s d.var) ∨
      (∃ (v : Var) (probs : List (ℤ × ℝ)) (k : ℤ), d = .integer v probs ∧ s d.var = k ∧ k ≠ 0) := by
  rcases h with ⟨v, lo, hi, l, r, rfl, h1⟩ | ⟨v, probs, k, rfl, h1, h2⟩
  · exact Or.inl ⟨v, lo, hi, l, r, rfl, h1⟩
  · exact Or.inr ⟨v, probs, k, rfl, h1, h2⟩

theorem rescale_eq (hL : Layered g r) (hs : Scoped g sc) (hr : ∀ d, g.kind? r ≠ some (.leaf d))
    (hv : ∀ n d, g.kind? n = some (.leaf d) → d.Valid) {t : Var → Option ℝ} {s : Var → ℝ} (ht : ∀ v ∈ sc r, t v = some (s v))
    (h : ∀ n d, g.kind? n = some (.leaf d) → (∃ v lo hi l r, d = .uniform v lo hi l r ∧ 0 < s v) ∨
      (∃ (v : Var) (probs : List (ℤ × ℝ)) (k : ℤ), d = .integer v probs ∧ s v = k ∧ k ≠ 0)) : g.rescale t = .ok (g.stretchedBy s) :=
  changeLeaves_eq hL hr fun n d hk => leaf_stretched (hv n d hk) (ht _ (leaf_var_in_root hL hs hk)) (leaf_cases (h n d hk))

theorem moveEvent_get (c : Var → ℝ) (E : SimpleEvent) (v : Var) : (moveEvent c E).get v = (E.get v).map (moveSet (c v)) := by
  unfold moveEvent SimpleEvent.get
  rw [List.find?_map]
  have : ((fun p : Var × VSet => p.1 == v) ∘ fun p : Var × VSet => (p.1, moveSet (c p.1) p.2)) = fun p => p.1 == v := rfl
  rw [this]
  cases hf : E.find? fun p => p.1 == v with
  | none => rfl
  | some p =>
    have : p.1 = v := by simpa using List.find?_some hf
    simp [Except.map, this]

/-- Probabilities of moved events. -/
theorem probability_movedBy {c : Var → ℝ}
    (hint : ∀ n d, g.kind? n = some (.leaf d) → ∀ v probs, d = .integer v probs → ∃ k : ℤ, c v = k) (m : Mem ℝ) (E : SimpleEvent) :
    (g.movedBy c).probabilityOfSimpleEvent m (moveEvent c E) = g.probabilityOfSimpleEvent m E := by
  unfold probabilityOfSimpleEvent
  refine query_mapLeaves (A := forwardAlg fun d => d.probEvent E) (A' := forwardAlg fun d => d.probEvent (moveEvent c E)) ?_ rfl rfl m
  intro n d hk
  simp only [forwardAlg, Leaf.probEvent, Leaf.moved_var, moveEvent_get]
  cases E.get d.var with
  | error e => rfl
  | ok A => exact prob_moved d (fun v probs he => by have := hint n d hk v probs he; subst he; exact this) A

theorem momentMap_at {d : Leaf} (hs : ∀ v p, d ≠ .symbolic v p) {order : Var → Option ℕ} {center : Var → Option ℝ} {k : ℕ} {a : ℝ}
    (ho : order d.var = some k) (hc : center d.var = some a) : d.momentMap order center = d.moment k a := by
  cases d with
  | symbolic v p => exact absurd rfl (hs v p)
  | _ => simp only [Leaf.momentMap, ho, hc]

theorem moved_not_symbolic {d : Leaf} (hs : ∀ v p, d ≠ .symbolic v p) (c : ℝ) : ∀ v p, d.moved c ≠ .symbolic v p := by
  cases d with
  | symbolic v p => exact absurd rfl (hs v p)
  | _ => intro v p h; cases h

theorem stretched_not_symbolic {d : Leaf} (hs : ∀ v p, d ≠ .symbolic v p) (c : ℝ) : ∀ v p, d.stretched c ≠ .symbolic v p := by
  cases d with
  | symbolic v p => exact absurd rfl (hs v p)
  | _ => intro v p h; cases h

end PM
