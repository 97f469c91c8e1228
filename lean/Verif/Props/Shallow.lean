import Verif.Circuit.ShallowValue
import Verif.Props.Queries

/-!
# C76: shallow circuits
-/

namespace PM.Props

open Spec Graph

variable {D : Type}

/-- C76 as claimed: the shallow version of a circuit (here: a tree, in which leaves may be shared) is a sum unit of product units of leaf
units and has the same value, whatever the values of the leaf units are. -/
def C76_full : Prop := ∀ (g : Graph Leaf) (t : UTree Leaf), IsTree g t → ∃ g' r, g.toShallow = .ok g' ∧ ShallowForm g' r ∧
  ∀ (ℓ : Leaf → ℝ) (f f' : Node → ℝ), CircuitValue g ℓ f → CircuitValue g' ℓ f' → f' r = f t.root

theorem layered_flat {g : Graph D} {K : Node → Option (Kind D)} {O : Outs} (h : View g K O) {F : Flat D} (hF : RepFlat K O F)
    (hs : ShallowForm g F.m) : Layered g F.m := by
  have hsuccr : g.succ F.m = F.pids := by rw [h.succ, hF.out, List.map_map]; rfl
  have hsuccp : ∀ q ∈ F.prods, g.succ q.2.1 = q.2.2.map Prod.fst := fun q hq => by
    rw [h.succ, hF.pout q hq, List.map_map]; rfl
  have hcase : ∀ u ∈ g.ids, u = F.m ∨ (∃ q ∈ F.prods, u = q.2.1) ∨ ∃ q ∈ F.prods, ∃ l ∈ q.2.2, u = l.1 := by
    intro u hu
    rcases hs.2.2.1 u hu with e | e | ⟨c, hc, e⟩
    · exact .inl e
    · rw [hsuccr] at e
      obtain ⟨q, hq, e⟩ := List.mem_map.1 e
      exact .inr (.inl ⟨q, hq, e.symm⟩)
    · rw [hsuccr] at hc
      obtain ⟨q, hq, rfl⟩ := List.mem_map.1 hc
      rw [hsuccp q hq] at e
      obtain ⟨l, hl, e⟩ := List.mem_map.1 e
      exact .inr (.inr ⟨q, hq, l, hl, e.symm⟩)
  refine ⟨h.wf, ⟨fun u => match K u with | some .sum => 0 | some .prod => 1 | _ => 2, ?_⟩, ?_, ?_, hs.1⟩
  · rintro ⟨u, v, w⟩ he
    have hto : (v, w) ∈ O u := h.mem_edges.1 he
    rcases hcase u (h.mem_ids.2 (h.src (u := u) (v := v) (List.mem_map.2 ⟨_, hto, rfl⟩))) with e | ⟨q, hq, e⟩ | ⟨q, hq, l, hl, e⟩
    · rw [e, hF.out] at hto
      obtain ⟨q, hq, e'⟩ := List.mem_map.1 hto
      rw [Prod.mk.injEq] at e'
      simp only [e, hF.sum, ← e'.1, hF.prod q hq]
    · rw [e, hF.pout q hq] at hto
      obtain ⟨l, hl, e'⟩ := List.mem_map.1 hto
      rw [Prod.mk.injEq] at e'
      simp only [e, hF.prod q hq, ← e'.1, hF.leaf q hq l hl]
    · rw [e, hF.lout q hq l hl] at hto
      simp at hto
  · intro u d hu
    rcases hcase u (mem_ids_iff_kind?.2 (by rw [hu]; simp)) with e | ⟨q, hq, e⟩ | ⟨q, hq, l, hl, e⟩
    · rw [e, h.kind, hF.sum] at hu; simp at hu
    · rw [e, h.kind, hF.prod q hq] at hu; simp at hu
    · rw [e, h.succ, hF.lout q hq l hl]; rfl
  · intro u hu e he
    rcases hcase u (mem_ids_iff_kind?.2 (by rw [hu]; simp)) with e' | ⟨q, hq, e'⟩ | ⟨q, hq, l, hl, e'⟩
    · have : (e.dst, e.weight) ∈ O u := by rw [← h.out u]; exact List.mem_map.2 ⟨e, he, rfl⟩
      rw [e', hF.out] at this
      obtain ⟨q, hq, e''⟩ := List.mem_map.1 this
      rw [Prod.mk.injEq] at e''
      rw [← e''.2]; rfl
    · rw [e', h.kind, hF.prod q hq] at hu; simp at hu
    · rw [e', h.kind, hF.leaf q hq l hl] at hu; simp at hu

/-- **C76** (partial): for trees the conversion terminates without an exception and the result is a well-formed circuit in shallow form.
Its value is that of the circuit in which all weights below the outermost unit are replaced by `1`, multiplied with `e`. -/
theorem C76_shallow_partial {g : Graph D} {t : UTree D} (h : IsTree g t) :
    ∃ g' r, g.toShallow = .ok g' ∧ Layered g' r ∧ ShallowForm g' r ∧
      ∀ (ℓ : D → ℝ) (f' : Node → ℝ), CircuitValue g' ℓ f' → f' r = t.shallowed ℓ := by
  obtain ⟨g', K', O', F, h1, h2, h3, h4, h5⟩ := toShallow_tree h
  refine ⟨g', F.m, h1, layered_flat h2 h3 h5, h5, fun ℓ f' hf' => ?_⟩
  rw [value_view h2 h3 hf', h4]
  cases t with
  | leaf n d => rw [flatValue_leaf, UTree.shallowed]
  | inner n b cs =>
    cases b with
    | true => rw [flatValue_sum, UTree.shallowed]
    | false => rw [flatValue_prod, UTree.shallowed]

theorem list_sum_pos_iff {α : Type} {v : α → ℝ} : ∀ {l : List α}, (∀ a ∈ l, 0 ≤ v a) → (0 < (l.map v).sum ↔ ∃ a ∈ l, 0 < v a)
  | [], _ => by simp
  | a :: l, h => by
    have ih := list_sum_pos_iff (v := v) (l := l) fun b hb => h b (by simp [hb])
    have h1 := h a (by simp)
    have h2 : 0 ≤ (l.map v).sum := List.sum_nonneg fun x hx => by
      obtain ⟨b, hb, rfl⟩ := List.mem_map.1 hx
      exact h b (by simp [hb])
    rw [List.map_cons, List.sum_cons, List.exists_mem_cons_iff, ← ih]
    constructor
    · intro hp
      by_contra hc
      push Not at hc
      linarith
    · rintro (hp | hp) <;> linarith

theorem list_prod_pos_iff {α : Type} {v : α → ℝ} : ∀ {l : List α}, (∀ a ∈ l, 0 ≤ v a) → (0 < (l.map v).prod ↔ ∀ a ∈ l, 0 < v a)
  | [], _ => by simp
  | a :: l, h => by
    have ih := list_prod_pos_iff (v := v) (l := l) fun b hb => h b (by simp [hb])
    have h1 := h a (by simp)
    have h2 : 0 ≤ (l.map v).prod := List.prod_nonneg fun x hx => by
      obtain ⟨b, hb, rfl⟩ := List.mem_map.1 hx
      exact h b (by simp [hb])
    rw [List.map_cons, List.prod_cons, List.forall_mem_cons, ← ih]
    constructor
    · intro hp
      refine ⟨lt_of_le_of_ne h1 fun e => ?_, lt_of_le_of_ne h2 fun e => ?_⟩
      · rw [← e] at hp; simp at hp
      · rw [← e] at hp; simp at hp
    · rintro ⟨a, b⟩; exact mul_pos a b

theorem total_support {ℓ : D → ℝ} (hℓ : ∀ d, 0 ≤ ℓ d) {t : UTree D} (h : WellBuilt t) :
    0 ≤ t.total ℓ ∧ 0 ≤ t.value ℓ ∧ (0 < t.total ℓ ↔ 0 < t.value ℓ) := by
  induction h with
  | leaf => rw [UTree.total, UTree.value]; exact ⟨hℓ _, hℓ _, Iff.rfl⟩
  | @sum n cs h1 h2 h3 ih =>
    rw [UTree.total, UTree.value]
    have p1 : ∀ c ∈ cs, 0 ≤ c.2.total ℓ := fun c hc => (ih c hc).1
    have p2 : ∀ c ∈ cs, 0 ≤ (c.1.getD 0).exp * c.2.value ℓ := fun c hc => mul_nonneg (LogP.exp_nonneg _) (ih c hc).2.1
    refine ⟨List.sum_nonneg fun x hx => ?_, List.sum_nonneg fun x hx => ?_, ?_⟩
    · obtain ⟨b, hb, rfl⟩ := List.mem_map.1 hx
      exact p1 b hb
    · obtain ⟨b, hb, rfl⟩ := List.mem_map.1 hx
      exact p2 b hb
    · rw [list_sum_pos_iff p1, list_sum_pos_iff p2]
      refine exists_congr fun c => and_congr_right fun hc => ?_
      obtain ⟨x, hx⟩ := h2 c hc
      rw [(ih c hc).2.2, hx, Option.getD_some, LogP.exp_fin, mul_pos_iff_of_pos_left (Real.exp_pos x)]
  | @prod n cs h1 h2 h3 ih =>
    rw [UTree.total, UTree.value]
    have p1 : ∀ c ∈ cs, 0 ≤ c.2.total ℓ := fun c hc => (ih c hc).1
    have p2 : ∀ c ∈ cs, 0 ≤ c.2.value ℓ := fun c hc => (ih c hc).2.1
    refine ⟨List.prod_nonneg fun x hx => ?_, List.prod_nonneg fun x hx => ?_, ?_⟩
    · obtain ⟨b, hb, rfl⟩ := List.mem_map.1 hx
      exact p1 b hb
    · obtain ⟨b, hb, rfl⟩ := List.mem_map.1 hx
      exact p2 b hb
    · rw [list_prod_pos_iff p1, list_prod_pos_iff p2]
      exact forall₂_congr fun c hc => (ih c hc).2.2

/-- **C76** (partial): circuit and shallow circuit have the same support: a point has density zero in one exactly if it has density zero
in the other. -/
theorem C76_support_partial {g : Graph D} {t : UTree D} (h : IsTree g t) :
    ∃ g' r, g.toShallow = .ok g' ∧ ShallowForm g' r ∧ ∀ (ℓ : D → ℝ), (∀ d, 0 ≤ ℓ d) → ∀ (f f' : Node → ℝ),
      CircuitValue g ℓ f → CircuitValue g' ℓ f' → (0 < f' r ↔ 0 < f t.root) := by
  obtain ⟨g', r, h1, _, h2, h3⟩ := C76_shallow_partial h
  refine ⟨g', r, h1, h2, fun ℓ hℓ f f' hf hf' => ?_⟩
  rw [h3 ℓ f' hf', value_drawn h.drawn h.built hf]
  have hb := h.built
  cases hb with
  | leaf => rw [UTree.shallowed, UTree.value]
  | @sum n cs b1 b2 b3 =>
    rw [UTree.shallowed, UTree.value, mul_pos_iff_of_pos_left (Real.exp_pos 1), list_sum_pos_iff, list_sum_pos_iff]
    · refine exists_congr fun c => and_congr_right fun hc => ?_
      obtain ⟨x, hx⟩ := b2 c hc
      rw [hx, Option.getD_some, LogP.exp_fin, mul_pos_iff_of_pos_left (Real.exp_pos x), mul_pos_iff_of_pos_left (Real.exp_pos x),
        (total_support hℓ (b3 c hc)).2.2]
    · exact fun c hc => mul_nonneg (LogP.exp_nonneg _) (total_support hℓ (b3 c hc)).2.1
    · exact fun c hc => mul_nonneg (LogP.exp_nonneg _) (total_support hℓ (b3 c hc)).1
  | @prod n cs b1 b2 b3 =>
    have := (total_support hℓ (WellBuilt.prod (n := n) b1 b2 b3)).2.2
    rw [UTree.total] at this
    rw [UTree.shallowed, mul_pos_iff_of_pos_left (Real.exp_pos 1), this]

/-- **C76** (partial): if no subcircuit of the outermost unit contains a sum unit, the values of the shallow circuit are `e` times those of
the circuit. -/
theorem C76_scale {g : Graph D} {n : Node} {b : Bool} {cs : List (Option LogP × UTree D)} (h : IsTree g (.inner n b cs))
    (hflat : ∀ c ∈ cs, c.2.isSum = false ∧ ∀ m cs', c.2 = .inner m false cs' → ∀ c' ∈ cs', ∃ l d, c'.2 = .leaf l d) :
    ∃ g' r, g.toShallow = .ok g' ∧ ShallowForm g' r ∧ ∀ (ℓ : D → ℝ) (f f' : Node → ℝ),
      CircuitValue g ℓ f → CircuitValue g' ℓ f' → f' r = Real.exp 1 * f n := by
  obtain ⟨g', r, h1, _, h2, h3⟩ := C76_shallow_partial h
  refine ⟨g', r, h1, h2, fun ℓ f f' hf hf' => ?_⟩
  have hfn : f n = (UTree.inner n b cs).value ℓ := value_drawn h.drawn h.built hf
  have hc : ∀ c ∈ cs, c.2.total ℓ = c.2.value ℓ := by
    intro c hc
    obtain ⟨hs, hl⟩ := hflat c hc
    obtain ⟨w, t⟩ := c
    cases t with
    | leaf n d => rw [UTree.total, UTree.value]
    | inner m b' cs' =>
      simp only [UTree.isSum] at hs
      subst hs
      rw [UTree.total, UTree.value]
      refine congrArg List.prod (List.map_congr_left fun c' hc' => ?_)
      obtain ⟨l, d, e⟩ := hl m cs' rfl c' hc'
      rw [e, UTree.total, UTree.value]
  rw [h3 ℓ f' hf', hfn]
  cases b with
  | true =>
    rw [UTree.shallowed, UTree.value]
    refine congrArg (Real.exp 1 * ·) (congrArg List.sum (List.map_congr_left fun c hc' => ?_))
    rw [hc c hc']
  | false =>
    rw [UTree.shallowed, UTree.value]
    refine congrArg (Real.exp 1 * ·) (congrArg List.prod (List.map_congr_left fun c hc' => ?_))
    rw [hc c hc']

/-- A mixture of two leaf units. -/
noncomputable def twoLeaves (d₁ d₂ : D) : Graph D :=
  ⟨[(0, .sum), (1, .leaf d₁), (2, .leaf d₂)], [⟨0, 1, some (.fin (Real.log (1 / 2)))⟩, ⟨0, 2, some (.fin (Real.log (1 / 2)))⟩]⟩

noncomputable def twoLeavesTree (d₁ d₂ : D) : UTree D :=
  .inner 0 true [(some (.fin (Real.log (1 / 2))), .leaf 1 d₁), (some (.fin (Real.log (1 / 2))), .leaf 2 d₂)]

theorem twoLeaves_isTree (d₁ d₂ : D) : IsTree (twoLeaves d₁ d₂) (twoLeavesTree d₁ d₂) where
  wf := ⟨by simp [twoLeaves, ids], by simp [twoLeaves], by simp [twoLeaves, ids], by simp [twoLeaves, ids]⟩
  drawn := by
    refine .inner (by simp [twoLeaves, kind?]) (by simp [twoLeaves, outEdges, UTree.root]) fun c hc => ?_
    simp only [List.mem_cons, List.not_mem_nil, or_false] at hc
    rcases hc with rfl | rfl
    · exact .leaf (by simp [twoLeaves, kind?]) (by simp [twoLeaves, outEdges, Graph.succ])
    · exact .leaf (by simp [twoLeaves, kind?]) (by simp [twoLeaves, outEdges, Graph.succ])
  inn := by simp [twoLeavesTree, UTree.inn]
  all := by simp [twoLeavesTree, UTree.inn, UTree.lvs, twoLeaves, ids]
  built := .sum (by simp) (by simp) (by
    intro c hc
    simp only [List.mem_cons, List.not_mem_nil, or_false] at hc
    rcases hc with rfl | rfl <;> exact .leaf)

/-- C76 does not hold as claimed: the shallow version of a mixture of two leaf units is not normalized, its values are `e` times too large
(the weights are looked up under the wrong name, and the default `1` is then used as a log weight). -/
theorem C76_full_false : ¬ C76_full := by
  intro h
  have ht := twoLeaves_isTree (Leaf.dirac 0 0 0) (Leaf.dirac 0 1 0)
  obtain ⟨g', r, h1, h2, h3⟩ := h _ _ ht
  obtain ⟨g'', r', h1', hL, h2', h3'⟩ := C76_shallow_partial ht
  rw [h1, Except.ok.injEq] at h1'
  subst h1'
  have hr : r = r' := by
    have := h2.1
    rw [h2'.1, Except.ok.injEq] at this
    exact this.symm
  subst hr
  obtain ⟨f', hf'⟩ := exists_circuitValue hL.graded.acyclic fun _ : Leaf => (1 : ℝ)
  have hf : CircuitValue (twoLeaves (Leaf.dirac 0 0 0) (Leaf.dirac 0 1 0)) (fun _ => (1 : ℝ)) fun _ => 1 := by
    refine ⟨fun _ _ _ => rfl, ?_, ?_⟩
    · intro n hn
      have : n = 0 := by
        by_contra hc
        simp [twoLeaves, kind?, List.find?] at hn
        grind
      subst this
      simp only [twoLeaves, outEdges, linWeight]
      simp [Real.exp_neg, Real.exp_log]
      norm_num
    · intro n hn
      exfalso
      simp [twoLeaves, kind?, List.find?] at hn
      grind
  have e1 := h3 _ _ _ hf hf'
  have e2 := h3' _ _ hf'
  rw [e1, twoLeavesTree, UTree.shallowed] at e2
  simp [UTree.total, Real.exp_neg, Real.exp_log] at e2
  have := Real.add_one_lt_exp (x := 1) (by norm_num)
  norm_num at e2
  linarith

/-- The hypotheses hold, and the theorem gives values: `e` times the mixture. -/
example (d₁ d₂ : D) : ∃ g' r, (twoLeaves d₁ d₂).toShallow = .ok g' ∧ ShallowForm g' r ∧ ∀ (ℓ : D → ℝ) (f f' : Node → ℝ),
    CircuitValue (twoLeaves d₁ d₂) ℓ f → CircuitValue g' ℓ f' → f' r = Real.exp 1 * f 0 :=
  C76_scale (twoLeaves_isTree d₁ d₂) (by
    intro c hc
    simp only [List.mem_cons, List.not_mem_nil, or_false] at hc
    rcases hc with rfl | rfl <;> simp [UTree.isSum])

end PM.Props
