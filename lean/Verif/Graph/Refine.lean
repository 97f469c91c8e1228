import Verif.Graph.Bfs

/-!
# Passes compute meanings

A *meaning* of a circuit under the local rules `A` is an assignment of a value to every unit that obeys the local rule
at every unit reachable from the root.  It does not mention layers, memory or visiting order.
-/

namespace PM.Graph

variable {D V : Type}

/-- `val` obeys the local rules of `A` at every unit reachable from `r`. -/
def Meaning (g : Graph D) (A : Alg D V) (r : Node) (val : Node → V) : Prop :=
  ∀ n, g.Reachable r n → g.evalUnit A (fun c => some (val c)) n = .ok (val n)

theorem mapM_readResult_congr {m m' : Mem V} {l : List Node} (h : ∀ c ∈ l, m c = m' c) :
    l.mapM (readResult m) = l.mapM (readResult m') := by
  induction l with
  | nil => rfl
  | cons a l ih =>
    have h1 : readResult m a = readResult m' a := by simp [readResult, h a (by simp)]
    rw [List.mapM_cons, List.mapM_cons, h1, ih (fun c hc => h c (by simp [hc]))]

theorem evalUnit_congr {g : Graph D} {A : Alg D V} {m m' : Mem V} {n : Node}
    (h : ∀ c ∈ g.succ n, m c = m' c) : g.evalUnit A m n = g.evalUnit A m' n := by
  unfold evalUnit
  rw [mapM_readResult_congr h]

theorem Mem.set_same (m : Mem V) (n : Node) (v : V) : m.set n v n = some v := by simp [Mem.set]

theorem Mem.set_other (m : Mem V) {n k : Node} (v : V) (h : k ≠ n) : m.set n v k = m k := by simp [Mem.set, h]

theorem passLoop_append (g : Graph D) (A : Alg D V) (xs ys : List Node) (m m' : Mem V)
    (h : g.passLoop A xs m = (m', .ok ())) : g.passLoop A (xs ++ ys) m = g.passLoop A ys m' := by
  induction xs generalizing m with
  | nil => simp only [passLoop, Prod.mk.injEq] at h; simp [h.1]
  | cons x xs ih =>
    simp only [passLoop, List.cons_append] at h ⊢
    split at h
    · exact ih _ h
    · simp at h

/-- Visiting nodes whose children already hold their meaning makes them hold theirs. -/
theorem passLoop_layer {g : Graph D} {A : Alg D V} {val : Node → V} (done : Node → Prop) :
    ∀ (l : List Node) (m : Mem V), (∀ c, done c → m c = some (val c)) →
      (∀ n ∈ l, ∀ c ∈ g.succ n, done c) →
      (∀ n ∈ l, g.evalUnit A (fun c => some (val c)) n = .ok (val n)) →
      ∃ m', g.passLoop A l m = (m', .ok ()) ∧ (∀ c, done c → m' c = some (val c)) ∧
        (∀ n ∈ l, m' n = some (val n)) ∧ (∀ k, k ∉ l → m' k = m k) := by
  intro l
  induction l with
  | nil => intro m hm _ _; exact ⟨m, rfl, hm, by simp, by simp⟩
  | cons n l ih =>
    intro m hm hch hev
    have h1 : g.evalUnit A m n = .ok (val n) := by
      rw [← hev n (by simp)]
      exact evalUnit_congr (fun c hc => hm c (hch n (by simp) c hc))
    obtain ⟨m', hp, hd, hl, hk⟩ := ih (m.set n (val n))
      (by
        intro c hc
        by_cases h : c = n
        · subst h; exact Mem.set_same _ _ _
        · rw [Mem.set_other _ _ h]; exact hm c hc)
      (fun x hx => hch x (by simp [hx])) (fun x hx => hev x (by simp [hx]))
    refine ⟨m', by simp [passLoop, h1, hp], hd, ?_, ?_⟩
    · intro x hx
      rcases List.mem_cons.1 hx with rfl | hx
      · by_cases h : x ∈ l
        · exact hl x h
        · rw [hk x h]; exact Mem.set_same _ _ _
      · exact hl x hx
    · intro k hk'
      simp only [List.mem_cons, not_or] at hk'
      rw [hk k hk'.2, Mem.set_other _ _ hk'.1]

theorem passLoop_strat {g : Graph D} {A : Alg D V} {val : Node → V} :
    ∀ (ls : List (List Node)) (m : Mem V), Strat g ls →
      (∀ n ∈ ls.flatten, g.evalUnit A (fun c => some (val c)) n = .ok (val n)) →
      ∃ m', g.passLoop A ls.reverse.flatten m = (m', .ok ()) ∧ (∀ n ∈ ls.flatten, m' n = some (val n)) ∧
        (∀ k, k ∉ ls.flatten → m' k = m k) := by
  intro ls
  induction ls with
  | nil => intro m _ _; exact ⟨m, rfl, by simp, by simp⟩
  | cons l ls ih =>
    intro m hs hev
    obtain ⟨hs1, hs2⟩ := hs
    obtain ⟨m1, hp1, hv1, hk1⟩ := ih m hs2 (fun n hn => hev n (by simp [List.flatten_cons, hn]))
    obtain ⟨m2, hp2, hd2, hl2, hk2⟩ := passLoop_layer (g := g) (A := A) (val := val) (fun c => c ∈ ls.flatten) l m1 hv1
      (by
        intro n hn c hc
        have := hs1 n hn c hc
        cases ls with
        | nil => simp at this
        | cons l' ls' => simp only [List.headD_cons] at this; simp [this])
      (fun n hn => hev n (by simp [hn]))
    refine ⟨m2, ?_, ?_, ?_⟩
    · rw [List.reverse_cons, List.flatten_append, passLoop_append _ _ _ _ _ _ hp1]
      simpa using hp2
    · intro n hn
      rw [List.flatten_cons, List.mem_append] at hn
      rcases hn with hn | hn
      · exact hl2 n hn
      · exact hd2 n hn
    · intro k hk
      rw [List.flatten_cons, List.mem_append, not_or] at hk
      rw [hk2 k hk.1, hk1 k hk.2]

/-- **Refinement.** On a graded circuit a query returns the root's meaning and leaves every unit's meaning in its
memory cell, whatever the memory was before. -/
theorem query_eq_meaning {g : Graph D} {A : Alg D V} {r : Node} {val : Node → V} (hw : g.WF) (hg : g.Graded)
    (hr : g.root = .ok r) (hv : g.Meaning A r val) (m : Mem V) :
    (g.query A m).2 = .ok (val r) ∧ ∀ n, g.Reachable r n → (g.query A m).1 n = some (val n) := by
  obtain ⟨hri, _⟩ := root_mem hr
  obtain ⟨depth, hd⟩ := id hg
  obtain ⟨hs, -⟩ := layersFrom_strat hw hd hri
  obtain ⟨m', hp, hv', -⟩ := passLoop_strat (g := g) (A := A) (val := val) (g.layersFrom r) m hs
    (fun n hn => hv n (mem_layersFrom_reachable g hn))
  have hq : g.query A m = (m', readResult m' r) := by
    simp [query, hr, bottomUp, hp]
  have hroot := hv' r ((mem_layersFrom_iff hw hg hri).2 .refl)
  refine ⟨by simp [hq, readResult, hroot], fun n hn => ?_⟩
  rw [hq]
  exact hv' n ((mem_layersFrom_iff hw hg hri).2 hn)

/-! ### Errors: a pass on a graded circuit never depends on the old memory -/

theorem passLoop_strat_indep {g : Graph D} {A : Alg D V} :
    ∀ (ls : List (List Node)) (m₁ m₂ : Mem V), Strat g ls →
      (g.passLoop A ls.reverse.flatten m₁).2 = (g.passLoop A ls.reverse.flatten m₂).2 ∧
      ((g.passLoop A ls.reverse.flatten m₁).2 = .ok () → ∀ n ∈ ls.flatten,
        (g.passLoop A ls.reverse.flatten m₁).1 n = (g.passLoop A ls.reverse.flatten m₂).1 n) := by
  have layer : ∀ (done : Node → Prop) (l : List Node) (m₁ m₂ : Mem V), (∀ c, done c → m₁ c = m₂ c) →
      (∀ n ∈ l, ∀ c ∈ g.succ n, done c) →
      (g.passLoop A l m₁).2 = (g.passLoop A l m₂).2 ∧ ((g.passLoop A l m₁).2 = .ok () →
        ∀ n, (done n ∨ n ∈ l) → (g.passLoop A l m₁).1 n = (g.passLoop A l m₂).1 n) := by
    intro done l
    induction l generalizing done with
    | nil =>
      intro m₁ m₂ h _
      refine ⟨rfl, fun _ n hn => ?_⟩
      simpa [passLoop] using h n (by simpa using hn)
    | cons x l ih =>
      intro m₁ m₂ h hch
      have h1 : g.evalUnit A m₁ x = g.evalUnit A m₂ x :=
        evalUnit_congr (fun c hc => h c (hch x (by simp) c hc))
      simp only [passLoop, h1]
      cases hx : g.evalUnit A m₂ x with
      | error e => simp
      | ok v =>
        simp only
        obtain ⟨ih1, ih2⟩ := ih (fun c => done c ∨ c = x) (m₁.set x v) (m₂.set x v)
          (by
            rintro c (hc | rfl)
            · simp only [Mem.set]; split
              · rfl
              · exact h c hc
            · simp [Mem.set])
          (fun n hn c hc => .inl (hch n (by simp [hn]) c hc))
        refine ⟨ih1, fun hok n hn => ih2 hok n ?_⟩
        rcases hn with hn | hn
        · exact .inl (.inl hn)
        · rcases List.mem_cons.1 hn with rfl | hn
          · exact .inl (.inr rfl)
          · exact .inr hn
  have errAppend : ∀ (xs ys : List Node) (m : Mem V) (e : PyErr), (g.passLoop A xs m).2 = .error e →
      g.passLoop A (xs ++ ys) m = g.passLoop A xs m := by
    intro xs ys
    induction xs with
    | nil => intro m e h; simp [passLoop] at h
    | cons x xs ih =>
      intro m e h
      simp only [passLoop, List.cons_append] at h ⊢
      cases hx : g.evalUnit A m x with
      | error e => simp
      | ok v => simp only [hx] at h ⊢; exact ih _ _ h
  intro ls
  induction ls with
  | nil => intro m₁ m₂ _; simp [passLoop]
  | cons l ls ih =>
    intro m₁ m₂ hs
    obtain ⟨hs1, hs2⟩ := hs
    obtain ⟨ih1, ih2⟩ := ih m₁ m₂ hs2
    rw [List.reverse_cons, List.flatten_append]
    simp only [List.flatten_cons, List.flatten_nil, List.append_nil]
    cases h1 : (g.passLoop A ls.reverse.flatten m₁).2 with
    | error e =>
      rw [errAppend _ _ _ _ h1, errAppend _ _ _ _ (ih1 ▸ h1)]
      refine ⟨ih1, fun hok => ?_⟩
      rw [h1] at hok; cases hok
    | ok u =>
      have e1 := passLoop_append g A _ l m₁ (g.passLoop A ls.reverse.flatten m₁).1 (by rw [← h1])
      have e2 := passLoop_append g A _ l m₂ (g.passLoop A ls.reverse.flatten m₂).1 (by rw [← h1, ih1])
      rw [e1, e2]
      obtain ⟨l1, l2⟩ := layer (fun c => c ∈ ls.flatten) l _ _ (ih2 h1)
        (by
          intro n hn c hc
          have := hs1 n hn c hc
          cases ls with
          | nil => simp at this
          | cons l' ls' => simp only [List.headD_cons] at this; simp [this])
      refine ⟨l1, fun hok n hn => l2 hok n ?_⟩
      rw [List.mem_append] at hn
      exact hn.symm

theorem query_indep {g : Graph D} {A : Alg D V} (hw : g.WF) (hg : g.Graded) (m₁ m₂ : Mem V) :
    (g.query A m₁).2 = (g.query A m₂).2 := by
  unfold query
  cases hr : g.root with
  | error e => simp
  | ok r =>
    obtain ⟨hri, _⟩ := root_mem hr
    obtain ⟨depth, hd⟩ := id hg
    obtain ⟨hs, -⟩ := layersFrom_strat hw hd hri
    obtain ⟨h1, h2⟩ := passLoop_strat_indep (A := A) (g.layersFrom r) m₁ m₂ hs
    simp only [bottomUp] at *
    generalize hp1 : g.passLoop A (g.layersFrom r).reverse.flatten m₁ = p1 at *
    generalize hp2 : g.passLoop A (g.layersFrom r).reverse.flatten m₂ = p2 at *
    obtain ⟨a1, b1⟩ := p1
    obtain ⟨a2, b2⟩ := p2
    simp only at h1 h2
    subst h1
    cases b1 with
    | error e => simp
    | ok u =>
      have := h2 rfl r ((mem_layersFrom_iff hw hg hri).2 .refl)
      simp [readResult, this]

end PM.Graph
