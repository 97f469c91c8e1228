import Verif.Graph.Refine

/-! Helper lemmas: passes in which some units raise. -/

namespace PM.Graph

variable {D V : Type}

theorem passLoop_append_error (g : Graph D) (A : Alg D V) (xs ys : List Node) (m m' : Mem V) {e : PyErr}
    (h : g.passLoop A xs m = (m', .error e)) : g.passLoop A (xs ++ ys) m = (m', .error e) := by
  induction xs generalizing m with
  | nil => simp [passLoop] at h
  | cons x xs ih =>
    simp only [passLoop, List.cons_append] at h ⊢
    split at h
    · exact ih _ h
    · exact h

theorem passLoop_layer_error {g : Graph D} {A : Alg D V} {val : Node → V} {e : PyErr} (done : Node → Prop) :
    ∀ (l : List Node) (m : Mem V), (∀ c, done c → m c = some (val c)) →
      (∀ n ∈ l, ∀ c ∈ g.succ n, done c) →
      (∀ n ∈ l, g.evalUnit A (fun c => some (val c)) n = .ok (val n) ∨
        g.evalUnit A (fun c => some (val c)) n = .error e) →
      (∃ n ∈ l, g.evalUnit A (fun c => some (val c)) n = .error e) →
      ∃ m', g.passLoop A l m = (m', .error e) := by
  intro l
  induction l with
  | nil => intro m _ _ _ h; obtain ⟨n, hn, _⟩ := h; cases hn
  | cons n l ih =>
    intro m hm hch hev hex
    have h0 : g.evalUnit A m n = g.evalUnit A (fun c => some (val c)) n :=
      evalUnit_congr (fun c hc => hm c (hch n (by simp) c hc))
    rcases hev n (by simp) with h | h
    · obtain ⟨x, hx, hxe⟩ := hex
      have hxl : x ∈ l := by
        rcases List.mem_cons.1 hx with rfl | hx
        · rw [h] at hxe; cases hxe
        · exact hx
      obtain ⟨m', hp⟩ := ih (m.set n (val n))
        (by
          intro c hc
          by_cases h : c = n
          · subst h; exact Mem.set_same _ _ _
          · rw [Mem.set_other _ _ h]; exact hm c hc)
        (fun x hx => hch x (by simp [hx])) (fun x hx => hev x (by simp [hx])) ⟨x, hxl, hxe⟩
      exact ⟨m', by simp [passLoop, h0, h, hp]⟩
    · exact ⟨m, by simp [passLoop, h0, h]⟩

theorem passLoop_strat_error {g : Graph D} {A : Alg D V} {val : Node → V} {e : PyErr} :
    ∀ (ls : List (List Node)) (m : Mem V), Strat g ls →
      (∀ n ∈ ls.flatten, g.evalUnit A (fun c => some (val c)) n = .ok (val n) ∨
        g.evalUnit A (fun c => some (val c)) n = .error e) →
      (∃ n ∈ ls.flatten, g.evalUnit A (fun c => some (val c)) n = .error e) →
      ∃ m', g.passLoop A ls.reverse.flatten m = (m', .error e) := by
  intro ls
  induction ls with
  | nil => intro m _ _ h; obtain ⟨n, hn, _⟩ := h; simp at hn
  | cons l ls ih =>
    intro m hs hev hex
    obtain ⟨hs1, hs2⟩ := hs
    rw [List.reverse_cons, List.flatten_append]
    by_cases hx : ∃ n ∈ ls.flatten, g.evalUnit A (fun c => some (val c)) n = .error e
    · obtain ⟨m', h⟩ := ih m hs2 (fun n hn => hev n (by simp [List.flatten_cons, hn])) hx
      exact ⟨m', passLoop_append_error _ _ _ _ _ _ h⟩
    · have hok : ∀ n ∈ ls.flatten, g.evalUnit A (fun c => some (val c)) n = .ok (val n) := by
        intro n hn
        rcases hev n (by simp [List.flatten_cons, hn]) with h | h
        · exact h
        · exact absurd ⟨n, hn, h⟩ hx
      obtain ⟨m1, hp1, hv1, hk1⟩ := passLoop_strat (g := g) (A := A) (val := val) ls m hs2 hok
      have hex' : ∃ n ∈ l, g.evalUnit A (fun c => some (val c)) n = .error e := by
        obtain ⟨n, hn, he⟩ := hex
        rw [List.flatten_cons, List.mem_append] at hn
        rcases hn with hn | hn
        · exact ⟨n, hn, he⟩
        · exact absurd ⟨n, hn, he⟩ hx
      obtain ⟨m2, hp2⟩ := passLoop_layer_error (g := g) (A := A) (val := val) (e := e) (fun c => c ∈ ls.flatten) l m1 hv1
        (by
          intro n hn c hc
          have := hs1 n hn c hc
          cases ls with
          | nil => simp at this
          | cons l' ls' => simp only [List.headD_cons] at this; simp [this])
        (fun n hn => hev n (by simp [hn])) hex'
      refine ⟨m2, ?_⟩
      rw [passLoop_append _ _ _ _ _ _ hp1]
      simpa using hp2

/-- If every unit obeys its rule or raises `e`, and some unit raises, then the query raises `e`. -/
theorem query_error_of_unit {g : Graph D} {A : Alg D V} {r : Node} {val : Node → V} {e : PyErr} (hw : g.WF)
    (hg : g.Graded) (hr : g.root = .ok r)
    (hv : ∀ n, g.Reachable r n → g.evalUnit A (fun c => some (val c)) n = .ok (val n) ∨
      g.evalUnit A (fun c => some (val c)) n = .error e)
    (hex : ∃ n, g.Reachable r n ∧ g.evalUnit A (fun c => some (val c)) n = .error e) (m : Mem V) :
    (g.query A m).2 = .error e := by
  obtain ⟨hri, _⟩ := root_mem hr
  obtain ⟨depth, hd⟩ := id hg
  obtain ⟨hs, -⟩ := layersFrom_strat hw hd hri
  obtain ⟨n, hn, hne⟩ := hex
  obtain ⟨m', hp⟩ := passLoop_strat_error (g := g) (A := A) (val := val) (e := e) (g.layersFrom r) m hs
    (fun n hn => hv n (mem_layersFrom_reachable g hn)) ⟨n, (mem_layersFrom_iff hw hg hri).2 hn, hne⟩
  simp [query, hr, bottomUp, hp]

end PM.Graph
