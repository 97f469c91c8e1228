import Verif.Spec.Sample
import Verif.Graph.Bfs
import Verif.Circuit.ValueLemmas

/-! # Lemmas about `sample` -/

namespace PM.Graph
open Spec

/-- Children come later and no unit is repeated. -/
def Ordered {D : Type} (g : Graph D) : List Node → Prop
  | [] => True
  | n :: B => n ∉ B ∧ (∀ c ∈ g.succ n, c ∈ B) ∧ Ordered g B

theorem Ordered.nodup {D : Type} {g : Graph D} : ∀ {B : List Node}, Ordered g B → B.Nodup
  | [], _ => List.nodup_nil
  | _ :: _, h => List.nodup_cons.2 ⟨h.1, h.2.2.nodup⟩

theorem ordered_append {D : Type} {g : Graph D} {B : List Node} (hB : Ordered g B) : ∀ {A : List Node}, A.Nodup →
    (∀ n ∈ A, n ∉ B) → (∀ n ∈ A, ∀ c ∈ g.succ n, c ∈ B) → Ordered g (A ++ B)
  | [], _, _, _ => hB
  | a :: A, hA, hd, hc => by
    rw [List.nodup_cons] at hA
    refine ⟨?_, fun c hcc => List.mem_append_right _ (hc a (by simp) c hcc),
      ordered_append hB hA.2 (fun n hn => hd n (by simp [hn])) (fun n hn => hc n (by simp [hn]))⟩
    intro h
    rcases List.mem_append.1 h with h | h
    · exact hA.1 h
    · exact hd a (by simp) h

theorem ordered_of_strat {D : Type} {g : Graph D} {depth : Node → ℕ} : ∀ {ls : List (List Node)} {k : ℕ}, Strat g ls →
    DepthOK depth k ls → Ordered g ls.flatten
  | [], _, _, _ => trivial
  | l :: ls, k, hs, hd => by
    have hd' := hd.nodup
    rw [List.flatten_cons] at hd' ⊢
    refine ordered_append (ordered_of_strat hs.2 hd.2.2) hd.2.1 (fun n hn h => (List.nodup_append.1 hd').2.2 n hn n h rfl) ?_
    intro n hn c hc
    have := hs.1 n hn c hc
    cases ls with
    | nil => simp at this
    | cons l' ls' => simp only [List.headD_cons] at this; simp [this]

theorem ordered_topDown {D : Type} {g : Graph D} {r : Node} (hL : Layered g r) : Ordered g (g.topDown r) := by
  obtain ⟨depth, hd⟩ := hL.graded
  have := layersFrom_strat hL.wf hd (root_mem hL.root).1
  exact ordered_of_strat this.1 this.2

/-- The request covers the row. -/
def covers (ρ : ℕ) (q : ℕ × ℕ) : Bool := q.1 ≤ ρ && ρ < q.1 + q.2

theorem covers_iff {ρ : ℕ} {q : ℕ × ℕ} : covers ρ q = true ↔ q.1 ≤ ρ ∧ ρ < q.1 + q.2 := by simp [covers]

/-- The number of writes into a cell. -/
def writesTo (log : List Write) (ρ : ℕ) (v : Var) : ℕ := log.countP fun w => w.row == ρ && w.var == v

/-- Rows wanted from the pushed requests for a variable. -/
noncomputable def wanted (sc : Node → Finset Var) (v : Var) (ρ : ℕ) (P : List (Node × ℕ × ℕ)) : ℕ :=
  P.countP fun p => decide (v ∈ sc p.1) && covers ρ p.2

/-- What is still to be written. -/
noncomputable def pending (sc : Node → Finset Var) (v : Var) (ρ : ℕ) (Q : Requests) (todo : List Node) : ℕ :=
  (todo.map fun n => if v ∈ sc n then (Q n).countP (covers ρ) else 0).sum

theorem pushAll_of_notMem {Q : Requests} {P : List (Node × ℕ × ℕ)} {n : Node} (h : ∀ p ∈ P, p.1 ≠ n) : pushAll Q P n = Q n := by
  have : P.filter (fun p => p.1 == n) = [] := by
    rw [List.filter_eq_nil_iff]; intro p hp; simpa using h p hp
  simp [pushAll, this]

theorem mem_pushAll {Q : Requests} {P : List (Node × ℕ × ℕ)} {n : Node} {q : ℕ × ℕ} :
    q ∈ pushAll Q P n ↔ q ∈ Q n ∨ (n, q) ∈ P := by
  simp only [pushAll, List.mem_append, List.mem_map, List.mem_filter, beq_iff_eq]
  constructor
  · rintro (h | ⟨⟨a, b⟩, ⟨h1, rfl⟩, rfl⟩)
    · exact .inl h
    · exact .inr h1
  · rintro (h | h)
    · exact .inl h
    · exact .inr ⟨_, ⟨h, rfl⟩, rfl⟩

theorem countP_pushAll {Q : Requests} {ρ : ℕ} (P : List (Node × ℕ × ℕ)) (n : Node) :
    (pushAll Q P n).countP (covers ρ) = (Q n).countP (covers ρ) + P.countP fun p => p.1 == n && covers ρ p.2 := by
  simp only [pushAll, List.countP_append, List.countP_map, List.countP_filter]
  congr 1
  apply List.countP_congr
  rintro ⟨a, b⟩ _
  simp only [Function.comp_apply, Bool.and_eq_true]
  exact and_comm

theorem pending_push_one (sc : Node → Finset Var) (v : Var) (ρ : ℕ) (p : Node × ℕ × ℕ) : ∀ {B : List Node}, B.Nodup → p.1 ∈ B →
    (B.map fun n => if v ∈ sc n then (if p.1 == n && covers ρ p.2 then 1 else 0) else 0).sum =
      if v ∈ sc p.1 ∧ covers ρ p.2 = true then 1 else 0
  | [], _, h => by simp at h
  | b :: B, hB, h => by
    rw [List.nodup_cons] at hB
    rw [List.map_cons, List.sum_cons]
    by_cases hb : p.1 = b
    · have h0 : (B.map fun n => if v ∈ sc n then (if p.1 == n && covers ρ p.2 then 1 else 0) else 0).sum = 0 := by
        apply List.sum_eq_zero
        intro x hx
        obtain ⟨n, hn, rfl⟩ := List.mem_map.1 hx
        have : p.1 ≠ n := by rintro rfl; exact hB.1 (hb ▸ hn)
        simp [this]
      rw [h0]; subst hb
      by_cases h1 : v ∈ sc p.1 <;> by_cases h2 : covers ρ p.2 = true <;> simp [h1, h2]
    · have hB' : p.1 ∈ B := by
        rcases List.mem_cons.1 h with h | h
        · exact absurd h hb
        · exact h
      rw [pending_push_one sc v ρ p hB.2 hB']
      simp [hb]

theorem pending_pushAll (sc : Node → Finset Var) (v : Var) (ρ : ℕ) {Q : Requests} {B : List Node} (hB : B.Nodup) :
    ∀ {P : List (Node × ℕ × ℕ)}, (∀ p ∈ P, p.1 ∈ B) →
      pending sc v ρ (pushAll Q P) B = pending sc v ρ Q B + wanted sc v ρ P := by
  intro P hP
  have key : ∀ P : List (Node × ℕ × ℕ), (∀ p ∈ P, p.1 ∈ B) →
      (B.map fun n => if v ∈ sc n then P.countP (fun p => p.1 == n && covers ρ p.2) else 0).sum = wanted sc v ρ P := by
    intro P
    induction P with
    | nil => intro _; simp [wanted]
    | cons p P ih =>
      intro hP
      have h1 := ih (fun p hp => hP p (by simp [hp]))
      have h2 := pending_push_one sc v ρ p hB (hP p (by simp))
      have : (B.map fun n => if v ∈ sc n then (p :: P).countP (fun p => p.1 == n && covers ρ p.2) else 0)
          = B.map fun n => (if v ∈ sc n then P.countP (fun p => p.1 == n && covers ρ p.2) else 0) +
            (if v ∈ sc n then (if p.1 == n && covers ρ p.2 then 1 else 0) else 0) := by
        apply List.map_congr_left
        intro n _
        split
        · rw [List.countP_cons]
        · rfl
      rw [this, List.sum_map_add, h1, h2, wanted, wanted, List.countP_cons]
      simp
  rw [← key P hP, pending, pending, ← List.sum_map_add]
  congr 1
  apply List.map_congr_left
  intro n _
  split
  · rw [countP_pushAll]
  · rfl

theorem pending_congr (sc : Node → Finset Var) (v : Var) (ρ : ℕ) {Q Q' : Requests} {B : List Node} (h : ∀ n ∈ B, Q n = Q' n) :
    pending sc v ρ Q B = pending sc v ρ Q' B := by
  unfold pending
  congr 1
  apply List.map_congr_left
  intro n hn
  rw [h n hn]

/-! ### Sum units -/

/-- The pieces handed out by `distribute` are consecutive. -/
theorem distribute_ok (subs : List Node) (counts : List ℕ) : ∀ (is : List ℕ) (a : ℕ),
    (∀ i ∈ is, i < subs.length ∧ i < counts.length) →
    ∃ P, distribute subs counts is a = .ok P ∧
      (∀ p ∈ P, ∃ i ∈ is, subs[i]? = some p.1 ∧ counts[i]? = some p.2.2) ∧
      (∀ p ∈ P, a ≤ p.2.1 ∧ p.2.1 + p.2.2 ≤ a + (is.map fun i => counts.getD i 0).sum) ∧
      ∀ ρ, P.countP (fun p => covers ρ p.2) = if a ≤ ρ ∧ ρ < a + (is.map fun i => counts.getD i 0).sum then 1 else 0
  | [], a, _ => ⟨[], rfl, by simp, by simp, fun ρ => by simp⟩
  | i :: is, a, h => by
    have hi := h i (by simp)
    obtain ⟨k, hk⟩ : ∃ k, counts[i]? = some k := ⟨_, List.getElem?_eq_getElem hi.2⟩
    obtain ⟨c, hc⟩ : ∃ c, subs[i]? = some c := ⟨_, List.getElem?_eq_getElem hi.1⟩
    obtain ⟨P, h1, h2, h3, h4⟩ := distribute_ok subs counts is (a + k) (fun j hj => h j (by simp [hj]))
    have hkd : counts.getD i 0 = k := by simp [hk]
    refine ⟨(c, a, k) :: P, ?_, ?_, ?_, ?_⟩
    · simp [distribute, hk, hc, h1, bind, Except.bind]
    · intro p hp
      rcases List.mem_cons.1 hp with rfl | hp
      · exact ⟨i, by simp, hc, hk⟩
      · obtain ⟨j, hj, h⟩ := h2 p hp
        exact ⟨j, by simp [hj], h⟩
    · intro p hp
      rw [List.map_cons, List.sum_cons, hkd]
      rcases List.mem_cons.1 hp with rfl | hp
      · simp
      · have := h3 p hp
        omega
    · intro ρ
      rw [List.countP_cons, h4 ρ, List.map_cons, List.sum_cons, hkd]
      by_cases hcov : covers ρ (a, k) = true
      · have h' := covers_iff.1 hcov
        simp only at h'
        rw [if_neg (by omega), if_pos (by simpa using hcov), if_pos (by omega)]
      · have h' : ¬(a ≤ ρ ∧ ρ < a + k) := fun h => hcov (covers_iff.2 h)
        have h0 : (if covers ρ (c, a, k).2 = true then 1 else 0) = 0 := if_neg hcov
        rw [h0, add_zero]
        split <;> split <;> omega

theorem sum_getD_range (l : List ℕ) : ((List.range l.length).map fun i => l.getD i 0).sum = l.sum := by
  congr 1
  apply List.ext_getElem
  · simp
  · intro i h1 h2
    simp at h1
    simp [h1]

theorem mapM_flatten_spec {α β : Type} {f : α → Except PyErr (List β)} : ∀ {l : List α}, (∀ a ∈ l, ∃ b, f a = .ok b) →
    ∃ Ps, l.mapM f = .ok Ps ∧ (∀ x ∈ Ps.flatten, ∃ a ∈ l, ∃ b, f a = .ok b ∧ x ∈ b) ∧
      (∀ a ∈ l, ∀ b, f a = .ok b → ∀ x ∈ b, x ∈ Ps.flatten) ∧
      ∀ (p : β → Bool) (N : α → ℕ), (∀ a ∈ l, ∀ b, f a = .ok b → b.countP p = N a) → Ps.flatten.countP p = (l.map N).sum
  | [], _ => ⟨[], rfl, by simp, by simp, fun p N _ => by simp⟩
  | a :: l, h => by
    obtain ⟨b, hb⟩ := h a (by simp)
    obtain ⟨Ps, h1, h2, h3, h4⟩ := mapM_flatten_spec (f := f) (l := l) (fun a ha => h a (by simp [ha]))
    refine ⟨b :: Ps, ?_, ?_, ?_, ?_⟩
    · rw [List.mapM_cons, hb, h1]; rfl
    · intro x hx
      rw [List.flatten_cons, List.mem_append] at hx
      rcases hx with hx | hx
      · exact ⟨a, by simp, b, hb, hx⟩
      · obtain ⟨a', ha', r⟩ := h2 x hx
        exact ⟨a', by simp [ha'], r⟩
    · intro a' ha' b' hb' x hx
      rw [List.flatten_cons, List.mem_append]
      rcases List.mem_cons.1 ha' with rfl | ha'
      · rw [hb] at hb'; injection hb' with hb'; subst hb'
        exact .inl hx
      · exact .inr (h3 a' ha' b' hb' x hx)
    · intro p N hN
      rw [List.flatten_cons, List.countP_append, h4 p N (fun a ha => hN a (by simp [ha])), List.map_cons, List.sum_cons,
        hN a (by simp) b hb]

theorem sum_ite_zipIdx {α : Type} (p : α → Bool) : ∀ (l : List α) (k : ℕ),
    ((l.zipIdx k).map fun q => if p q.1 then 1 else 0).sum = l.countP p
  | [], _ => rfl
  | a :: l, k => by
    rw [List.zipIdx_cons, List.map_cons, List.sum_cons, sum_ite_zipIdx p l, List.countP_cons]
    exact Nat.add_comm _ _

theorem zipIdx_fst_mem {α : Type} {l : List α} {k : ℕ} {q : α × ℕ} (h : q ∈ l.zipIdx k) : q.1 ∈ l := by
  obtain ⟨_, _, h⟩ := List.mem_zipIdx h
  rw [h]; exact List.getElem_mem _

theorem exists_zipIdx {α : Type} {l : List α} {a : α} (h : a ∈ l) : ∃ k, (a, k) ∈ l.zipIdx := by
  obtain ⟨i, hi, rfl⟩ := List.getElem_of_mem h
  refine ⟨i, ?_⟩
  rw [List.mem_iff_getElem]
  exact ⟨i, by simpa using hi, by simp⟩

theorem logWeights_eq {D : Type} {g : Graph D} {n : Node} (hw : ∀ e ∈ g.outEdges n, e.weight.isSome) :
    ∃ ws, g.logWeights n = .ok ws ∧ ws.map LogP.exp = (g.outEdges n).map linWeight := by
  unfold logWeights
  generalize g.outEdges n = l at hw
  induction l with
  | nil => exact ⟨[], rfl, rfl⟩
  | cons e l ih =>
    obtain ⟨ws, h1, h2⟩ := ih (fun e he => hw e (by simp [he]))
    obtain ⟨w, hw'⟩ := Option.isSome_iff_exists.1 (hw e (by simp))
    refine ⟨w :: ws, ?_, ?_⟩
    · rw [List.mapM_cons, h1]
      simp [readWeight, hw', bind, Except.bind, pure, Except.pure]
    · simp [h2, linWeight, hw']

theorem linWeight_nonneg' (e : Edge) : 0 ≤ linWeight e := by
  unfold linWeight
  split
  · exact LogP.exp_nonneg _
  · exact le_refl _

theorem dropLast_sum_le : ∀ {l : List ℝ}, (∀ x ∈ l, 0 ≤ x) → l.dropLast.sum ≤ l.sum
  | [], _ => by simp
  | [a], h => by simpa using h a (by simp)
  | a :: b :: l, h => by
    rw [List.dropLast_cons_cons, List.sum_cons, List.sum_cons]
    exact add_le_add_right (dropLast_sum_le (fun x hx => h x (by simp [hx]))) _

theorem pvalsOK_of {D : Type} {g : Graph D} {n : Node} {ws : List LogP} (hexp : ws.map LogP.exp = (g.outEdges n).map linWeight)
    (hnorm : ((g.outEdges n).map linWeight).sum = 1) : pvalsOK ws := by
  unfold pvalsOK
  rw [List.map_dropLast, hexp]
  refine le_trans (dropLast_sum_le ?_) ?_
  · intro x hx
    obtain ⟨e, _, rfl⟩ := List.mem_map.1 hx
    exact linWeight_nonneg' e
  · rw [hnorm]; norm_num

/-- The requests appended by a sum unit: they go to its subcircuits, lie within the requests of the unit and cover the same rows; where
a row is requested from the unit, it is requested from a subcircuit of positive weight. -/
theorem sumRequests_ok {g : Circuit} {draws : Outcomes} (hp : Possible g draws) {n : Node} (hk : g.kind? n = some .sum)
    (hw : ∀ e ∈ g.outEdges n, e.weight.isSome) (hnorm : ((g.outEdges n).map linWeight).sum = 1) (reqs : List (ℕ × ℕ)) :
    ∃ P, g.sumRequests draws n reqs = .ok P ∧ (∀ p ∈ P, p.1 ∈ g.succ n) ∧
      (∀ p ∈ P, ∃ q ∈ reqs, q.1 ≤ p.2.1 ∧ p.2.1 + p.2.2 ≤ q.1 + q.2) ∧
      (∀ ρ, P.countP (fun p => covers ρ p.2) = reqs.countP (covers ρ)) ∧
      ∀ p ∈ P, p.2.2 ≠ 0 → ∃ e ∈ g.outEdges n, e.dst = p.1 ∧ 0 < linWeight e := by
  obtain ⟨ws, hws, hexp⟩ := logWeights_eq hw
  have hpv := pvalsOK_of hexp hnorm
  have hlen : (g.succ n).length = (g.outEdges n).length := by simp [succ]
  have hd : ∀ q : (ℕ × ℕ) × ℕ, _ := fun q => distribute_ok (g.succ n) (draws.counts n q.2 q.1.2) (draws.order n q.2) q.1.1 (by
    intro i hi
    have := (hp.order n q.2 hk).mem_iff.1 hi
    rw [List.mem_range] at this
    rw [hlen, hp.length n _ _ hk]
    exact ⟨this, this⟩)
  have htot : ∀ q : (ℕ × ℕ) × ℕ, ((draws.order n q.2).map fun i => (draws.counts n q.2 q.1.2).getD i 0).sum = q.1.2 := by
    intro q
    rw [((hp.order n q.2 hk).map _).sum_eq, ← hp.length n q.2 q.1.2 hk, sum_getD_range, hp.sum n _ _ hk]
  obtain ⟨Ps, h1, h2, h3, h4⟩ := mapM_flatten_spec (l := reqs.zipIdx)
    (f := fun q => distribute (g.succ n) (draws.counts n q.2 q.1.2) (draws.order n q.2) q.1.1)
    (fun q _ => ⟨_, (hd q).choose_spec.1⟩)
  refine ⟨Ps.flatten, ?_, ?_, ?_, ?_, ?_⟩
  · simp only [sumRequests, hws, bind, Except.bind, if_pos hpv, h1]
  · intro p hpp
    obtain ⟨q, hq, b, hb, hx⟩ := h2 p hpp
    obtain ⟨P, e1, e2, e3, e4⟩ := hd q
    rw [e1] at hb; injection hb with hb; subst hb
    obtain ⟨i, _, hi, _⟩ := e2 p hx
    exact List.mem_of_getElem? hi
  · intro p hpp
    obtain ⟨q, hq, b, hb, hx⟩ := h2 p hpp
    obtain ⟨P, e1, e2, e3, e4⟩ := hd q
    rw [e1] at hb; injection hb with hb; subst hb
    have := e3 p hx
    rw [htot q] at this
    exact ⟨q.1, zipIdx_fst_mem hq, this.1, this.2⟩
  · intro ρ
    rw [h4 _ (fun q => if covers ρ q.1 then 1 else 0), sum_ite_zipIdx]
    intro q hq b hb
    obtain ⟨P, e1, e2, e3, e4⟩ := hd q
    rw [e1] at hb; injection hb with hb; subst hb
    rw [e4 ρ, htot q]
    by_cases hc : covers ρ q.1 = true
    · rw [if_pos hc, if_pos (covers_iff.1 hc)]
    · rw [if_neg hc, if_neg (fun h => hc (covers_iff.2 h))]
  · intro p hpp hne
    obtain ⟨q, hq, b, hb, hx⟩ := h2 p hpp
    obtain ⟨P, e1, e2, e3, e4⟩ := hd q
    rw [e1] at hb; injection hb with hb; subst hb
    obtain ⟨i, _, hi, hc⟩ := e2 p hx
    simp only [succ, List.getElem?_map, Option.map_eq_some_iff] at hi
    obtain ⟨e, he, hed⟩ := hi
    refine ⟨e, List.mem_of_getElem? he, hed, lt_of_le_of_ne (linWeight_nonneg' e) fun h0 => hne ?_⟩
    have := hp.zero n q.2 q.1.2 i e hk he h0.symm
    rw [this] at hc; injection hc with hc; exact hc.symm

/-! ### Leaves -/

theorem countP_range_eq (a k ρ : ℕ) : (List.range k).countP (fun i => a + i == ρ) = if a ≤ ρ ∧ ρ < a + k then 1 else 0 := by
  induction k with
  | zero => rw [if_neg (by omega)]; rfl
  | succ k ih =>
    rw [List.range_succ, List.countP_append, ih]
    simp only [List.countP_cons, List.countP_nil, beq_iff_eq]
    split <;> split <;> split <;> omega

/-- The writes of a leaf. -/
theorem leafWrites_ok (draws : Outcomes) {rows : ℕ} (n : Node) (v : Var) {reqs : List (ℕ × ℕ)}
    (hr : ∀ q ∈ reqs, q.1 + q.2 ≤ rows) :
    ∃ W, leafWrites draws rows n v reqs = .ok W ∧
      (∀ w ∈ W, w.row < rows ∧ w.var = v ∧ w.leaf = n ∧ ∃ k a i, i < a ∧ w.value = draws.value n k a i) ∧
      (∀ ρ u, writesTo W ρ u = if u = v then reqs.countP (covers ρ) else 0) ∧
      ∀ ρ, (∃ q ∈ reqs, covers ρ q = true) → ∃ w ∈ W, w.row = ρ := by
  obtain ⟨Ws, h1, h2, h3, h4⟩ := mapM_flatten_spec (l := reqs.zipIdx)
    (f := fun q => if q.1.1 + q.1.2 ≤ rows then
        .ok ((List.range q.1.2).map fun i => (⟨q.1.1 + i, v, n, draws.value n q.2 q.1.2 i⟩ : Write))
      else .error .valueError)
    (fun q hq => ⟨_, if_pos (hr q.1 (zipIdx_fst_mem hq))⟩)
  have hb : ∀ q ∈ reqs.zipIdx, ∀ b, (if q.1.1 + q.1.2 ≤ rows then
        (.ok ((List.range q.1.2).map fun i => (⟨q.1.1 + i, v, n, draws.value n q.2 q.1.2 i⟩ : Write)) : Except PyErr _)
      else .error .valueError) = .ok b → b = (List.range q.1.2).map fun i => (⟨q.1.1 + i, v, n, draws.value n q.2 q.1.2 i⟩ : Write) := by
    intro q hq b hb
    rw [if_pos (hr q.1 (zipIdx_fst_mem hq))] at hb
    injection hb with hb; exact hb.symm
  refine ⟨Ws.flatten, ?_, ?_, ?_, ?_⟩
  · simp only [leafWrites, h1, bind, Except.bind]
  · intro w hw
    obtain ⟨q, hq, b, hb', hx⟩ := h2 w hw
    rw [hb q hq b hb'] at hx
    obtain ⟨i, hi, rfl⟩ := List.mem_map.1 hx
    rw [List.mem_range] at hi
    have := hr q.1 (zipIdx_fst_mem hq)
    exact ⟨by simp only; omega, rfl, rfl, _, _, _, hi, rfl⟩
  · intro ρ u
    rw [writesTo, h4 _ (fun q => if u = v then (if covers ρ q.1 then 1 else 0) else 0)]
    · by_cases huv : u = v
      · simp only [if_pos huv]
        exact sum_ite_zipIdx _ _ _
      · simp [huv]
    · intro q hq b hb'
      rw [hb q hq b hb', List.countP_map]
      by_cases huv : u = v
      · subst huv
        have : ((fun w : Write => w.row == ρ && w.var == u) ∘ fun i => (⟨q.1.1 + i, u, n, draws.value n q.2 q.1.2 i⟩ : Write))
            = fun i => q.1.1 + i == ρ := by
          funext i; simp
        rw [this, countP_range_eq, if_pos rfl]
        by_cases hc : covers ρ q.1 = true
        · rw [if_pos hc, if_pos (covers_iff.1 hc)]
        · rw [if_neg hc, if_neg (fun h => hc (covers_iff.2 h))]
      · rw [if_neg huv, List.countP_eq_zero]
        intro i _
        simp [Ne.symm huv]
  · rintro ρ ⟨q, hq, hc⟩
    obtain ⟨k, hk⟩ := exists_zipIdx hq
    obtain ⟨c1, c2⟩ := covers_iff.1 hc
    refine ⟨⟨q.1 + (ρ - q.1), v, n, draws.value n k q.2 (ρ - q.1)⟩, ?_, by simp only; omega⟩
    refine h3 (q, k) hk _ (if_pos (hr q hq)) _ ?_
    exact List.mem_map.2 ⟨ρ - q.1, List.mem_range.2 (by simp only; omega), rfl⟩

/-! ### The pass -/

/-- The row is requested from the unit. -/
def Active (Q : Requests) (ρ : ℕ) (n : Node) : Prop := ∃ q ∈ Q n, covers ρ q = true

/-- A unit that was visited: what was requested from it is written or requested from its subcircuits. -/
structure Served (g : Circuit) (s : Requests × List Write) (n : Node) : Prop where
  leaf : ∀ d, g.kind? n = some (.leaf d) → ∀ ρ, Active s.1 ρ n → ∃ w ∈ s.2, w.row = ρ ∧ w.var = d.var ∧ w.leaf = n
  sum : g.kind? n = some .sum → ∀ ρ, Active s.1 ρ n → ∃ e ∈ g.outEdges n, 0 < linWeight e ∧ Active s.1 ρ e.dst
  prod : g.kind? n = some .prod → ∀ ρ, Active s.1 ρ n → ∀ c ∈ g.succ n, Active s.1 ρ c

/-- A write by a leaf over the variable, with a value that the leaf sampled. -/
def Genuine (g : Circuit) (draws : Outcomes) (rows : ℕ) (w : Write) : Prop :=
  w.row < rows ∧ ∃ d, g.kind? w.leaf = some (.leaf d) ∧ d.var = w.var ∧ ∃ k a i, i < a ∧ w.value = draws.value w.leaf k a i

/-- What one visit or several do. -/
structure Progress (g : Circuit) (sc : Node → Finset Var) (draws : Outcomes) (rows : ℕ) (done todo : List Node)
    (s s' : Requests × List Write) : Prop where
  fixed : ∀ m, m ∉ todo → s'.1 m = s.1 m
  grow : ∀ m, ∀ q ∈ s.1 m, q ∈ s'.1 m
  log : ∀ w ∈ s.2, w ∈ s'.2
  range : (∀ m, ∀ q ∈ s.1 m, q.1 + q.2 ≤ rows) → ∀ m, ∀ q ∈ s'.1 m, q.1 + q.2 ≤ rows
  genuine : (∀ w ∈ s.2, Genuine g draws rows w) → ∀ w ∈ s'.2, Genuine g draws rows w
  balance : ∀ ρ v, pending sc v ρ s'.1 todo + writesTo s'.2 ρ v = pending sc v ρ s.1 (done ++ todo) + writesTo s.2 ρ v
  served : ∀ m ∈ done, Served g s' m

theorem pending_append (sc : Node → Finset Var) (v : Var) (ρ : ℕ) (Q : Requests) (A B : List Node) :
    pending sc v ρ Q (A ++ B) = pending sc v ρ Q A + pending sc v ρ Q B := by simp [pending]

theorem wanted_prod {sc : Node → Finset Var} {v : Var} {ρ : ℕ} (q : ℕ × ℕ) : ∀ {l : List Node},
    l.Pairwise (fun a b => Disjoint (sc a) (sc b)) →
    wanted sc v ρ (l.map fun c => (c, q)) = if (∃ c ∈ l, v ∈ sc c) ∧ covers ρ q = true then 1 else 0
  | [], _ => by simp [wanted]
  | a :: l, h => by
    rw [List.pairwise_cons] at h
    have ih := wanted_prod (v := v) (ρ := ρ) q h.2
    unfold wanted at ih ⊢
    rw [List.map_cons, List.countP_cons, ih]
    by_cases hc : covers ρ q = true
    · by_cases ha : v ∈ sc a
      · have : ¬∃ c ∈ l, v ∈ sc c := by
          rintro ⟨c, hcl, hv⟩
          exact Finset.disjoint_left.1 (h.1 c hcl) ha hv
        simp [hc, ha, this]
      · simp [hc, ha]
    · simp [hc]

theorem wanted_sum {g : Circuit} {sc : Node → Finset Var} (hs : Scoped g sc) {n : Node} (hk : g.kind? n = some .sum) {v : Var} {ρ : ℕ}
    {P : List (Node × ℕ × ℕ)} (h2 : ∀ p ∈ P, p.1 ∈ g.succ n) :
    wanted sc v ρ P = if v ∈ sc n then P.countP (fun p => covers ρ p.2) else 0 := by
  unfold wanted
  split
  · rename_i hv
    apply List.countP_congr
    intro p hp'
    simp [hs.sum n hk _ (h2 p hp'), hv]
  · rename_i hv
    rw [List.countP_eq_zero]
    intro p hp'
    simp [hs.sum n hk _ (h2 p hp'), hv]

theorem mem_prodRequests {g : Circuit} {n : Node} {reqs : List (ℕ × ℕ)} {p : Node × ℕ × ℕ} (hp : p ∈ g.prodRequests n reqs) :
    p.1 ∈ g.succ n ∧ p.2 ∈ reqs := by
  obtain ⟨q, hq, h⟩ := List.mem_flatMap.1 hp
  obtain ⟨c, hc', rfl⟩ := List.mem_map.1 h
  exact ⟨hc', hq⟩

theorem wanted_prodRequests {g : Circuit} {sc : Node → Finset Var} (hs : Scoped g sc) (hde : Decomposable g sc) {n : Node}
    (hk : g.kind? n = some .prod) {v : Var} {ρ : ℕ} (l : List (ℕ × ℕ)) :
    wanted sc v ρ (g.prodRequests n l) = if v ∈ sc n then l.countP (covers ρ) else 0 := by
  unfold prodRequests
  induction l with
  | nil => simp [wanted]
  | cons q l ih =>
    have ha : ∀ A B : List (Node × ℕ × ℕ), wanted sc v ρ (A ++ B) = wanted sc v ρ A + wanted sc v ρ B := by
      intro A B; simp [wanted]
    rw [List.flatMap_cons, ha, ih, wanted_prod q (hde n hk), List.countP_cons]
    have hsp := hs.prod n hk v
    by_cases hv : v ∈ sc n
    · have := hsp.1 hv
      simp [hv, this, Nat.add_comm]
    · have : ¬∃ c ∈ g.succ n, v ∈ sc c := fun h => hv (hsp.2 h)
      simp only [hv, this, false_and, if_false, Nat.add_zero]

theorem sampleUnit_ok {g : Circuit} {sc : Node → Finset Var} {draws : Outcomes} {rows : ℕ} (hs : Scoped g sc) (hde : Decomposable g sc)
    (hw : Weighted g) (hn : ∀ n, g.kind? n = some .sum → ((g.outEdges n).map linWeight).sum = 1) (hp : Possible g draws)
    {n : Node} (hmem : n ∈ g.ids) {B : List Node} (hB : B.Nodup) (hnB : n ∉ B) (hc : ∀ c ∈ g.succ n, c ∈ B)
    (s : Requests × List Write) (hr : ∀ m, ∀ q ∈ s.1 m, q.1 + q.2 ≤ rows) :
    ∃ s', g.sampleUnit draws rows s n = .ok s' ∧ Progress g sc draws rows [n] B s s' := by
  obtain ⟨k, hk⟩ := exists_kind? hmem
  cases k with
  | leaf d =>
    obtain ⟨W, h1, h2, h3, h4⟩ := leafWrites_ok draws n d.var (hr n)
    refine ⟨(s.1, s.2 ++ W), by simp [sampleUnit, hk, h1, bind, Except.bind], ?_⟩
    refine ⟨fun _ _ => rfl, fun _ _ h => h, fun w h => List.mem_append_left _ h, fun h => h, ?_, ?_, ?_⟩
    · intro h w hw
      rcases List.mem_append.1 hw with hw | hw
      · exact h w hw
      · obtain ⟨a1, a2, a3, a4⟩ := h2 w hw
        refine ⟨a1, d, by rw [a3]; exact hk, a2.symm, by rw [a3]; exact a4⟩
    · intro ρ v
      rw [pending_append]
      have e1 : writesTo (s.2 ++ W) ρ v = writesTo s.2 ρ v + writesTo W ρ v := by simp [writesTo]
      have e2 : pending sc v ρ s.1 [n] = writesTo W ρ v := by
        rw [h3]
        simp [pending, hs.leaf n d hk]
      simp only [e1, e2]; omega
    · intro m hm
      rw [List.mem_singleton] at hm; subst hm
      refine ⟨?_, fun h => by rw [hk] at h; simp at h, fun h => by rw [hk] at h; simp at h⟩
      intro d' hd' ρ ha
      rw [hk] at hd'; simp only [Option.some.injEq, Kind.leaf.injEq] at hd'; subst hd'
      obtain ⟨w, hw, he⟩ := h4 ρ ha
      obtain ⟨a1, a2, a3, a4⟩ := h2 w hw
      exact ⟨w, List.mem_append_right _ hw, he, a2, a3⟩
  | sum =>
    obtain ⟨P, h1, h2, h3, h4, h5⟩ := sumRequests_ok hp hk (hw n hk) (hn n hk) (s.1 n)
    have hnP : ∀ p ∈ P, p.1 ≠ n := fun p hp he => hnB (he ▸ hc _ (h2 p hp))
    refine ⟨(pushAll s.1 P, s.2), by simp [sampleUnit, hk, h1, bind, Except.bind], ?_⟩
    refine ⟨?_, fun m q h => mem_pushAll.2 (.inl h), fun w h => h, ?_, fun h => h, ?_, ?_⟩
    · intro m hm
      exact pushAll_of_notMem fun p hp he => hm (he ▸ hc _ (h2 p hp))
    · intro h m q hq
      rcases mem_pushAll.1 hq with hq | hq
      · exact h m q hq
      · obtain ⟨q', hq', _, hle⟩ := h3 _ hq
        exact le_trans hle (h n q' hq')
    · intro ρ v
      have e1 : pending sc v ρ s.1 [n] = wanted sc v ρ P := by
        rw [wanted_sum hs hk h2, h4]; simp [pending]
      rw [pending_append, pending_pushAll sc v ρ hB (fun p hp => hc _ (h2 p hp)), e1]; simp only; omega
    · intro m hm
      rw [List.mem_singleton] at hm; subst hm
      refine ⟨fun d h => by rw [hk] at h; simp at h, ?_, fun h => by rw [hk] at h; simp at h⟩
      intro _ ρ ha
      simp only [Active] at ha
      rw [pushAll_of_notMem hnP] at ha
      obtain ⟨q, hq, hcov⟩ := ha
      have : 0 < P.countP (fun p => covers ρ p.2) := by
        rw [h4]; exact List.countP_pos_iff.2 ⟨q, hq, hcov⟩
      obtain ⟨p, hp', hcp⟩ := List.countP_pos_iff.1 this
      obtain ⟨e, he, hed, hpos⟩ := h5 p hp' (by have := covers_iff.1 hcp; omega)
      exact ⟨e, he, hpos, p.2, mem_pushAll.2 (.inr (by rw [hed]; exact hp')), hcp⟩
  | prod =>
    have h2 : ∀ p ∈ g.prodRequests n (s.1 n), p.1 ∈ g.succ n ∧ p.2 ∈ s.1 n := fun p hp' => mem_prodRequests hp'
    have hnP : ∀ p ∈ g.prodRequests n (s.1 n), p.1 ≠ n := fun p hp he => hnB (he ▸ hc _ (h2 p hp).1)
    refine ⟨(pushAll s.1 (g.prodRequests n (s.1 n)), s.2), by simp [sampleUnit, hk], ?_⟩
    refine ⟨?_, fun m q h => mem_pushAll.2 (.inl h), fun w h => h, ?_, fun h => h, ?_, ?_⟩
    · intro m hm
      exact pushAll_of_notMem fun p hp he => hm (he ▸ hc _ (h2 p hp).1)
    · intro h m q hq
      rcases mem_pushAll.1 hq with hq | hq
      · exact h m q hq
      · exact h n q (h2 _ hq).2
    · intro ρ v
      have e1 : pending sc v ρ s.1 [n] = wanted sc v ρ (g.prodRequests n (s.1 n)) := by
        rw [wanted_prodRequests hs hde hk]; simp [pending]
      rw [pending_append, pending_pushAll sc v ρ hB (fun p hp => hc _ (h2 p hp).1), e1]; simp only; omega
    · intro m hm
      rw [List.mem_singleton] at hm; subst hm
      refine ⟨fun d h => by rw [hk] at h; simp at h, fun h => by rw [hk] at h; simp at h, ?_⟩
      intro _ ρ ha c hcc
      simp only [Active] at ha
      rw [pushAll_of_notMem hnP] at ha
      obtain ⟨q, hq, hcov⟩ := ha
      refine ⟨q, mem_pushAll.2 (.inr ?_), hcov⟩
      exact List.mem_flatMap.2 ⟨q, hq, List.mem_map.2 ⟨c, hcc, rfl⟩⟩

/-- The whole pass. -/
theorem samplePass_ok {g : Circuit} {sc : Node → Finset Var} {draws : Outcomes} {rows : ℕ} (hs : Scoped g sc) (hde : Decomposable g sc)
    (hw : Weighted g) (hn : ∀ n, g.kind? n = some .sum → ((g.outEdges n).map linWeight).sum = 1) (hp : Possible g draws) :
    ∀ (L : List Node), Ordered g L → (∀ n ∈ L, n ∈ g.ids) → ∀ (s : Requests × List Write),
      (∀ m, ∀ q ∈ s.1 m, q.1 + q.2 ≤ rows) →
      ∃ s', L.foldlM (g.sampleUnit draws rows) s = .ok s' ∧ (∀ m, m ∉ L → s'.1 m = s.1 m) ∧
        (∀ m, ∀ q ∈ s.1 m, q ∈ s'.1 m) ∧ (∀ w ∈ s.2, w ∈ s'.2) ∧
        ((∀ w ∈ s.2, Genuine g draws rows w) → ∀ w ∈ s'.2, Genuine g draws rows w) ∧
        (∀ ρ v, writesTo s'.2 ρ v = pending sc v ρ s.1 L + writesTo s.2 ρ v) ∧ ∀ m ∈ L, Served g s' m
  | [], _, _, s, _ => ⟨s, rfl, fun _ _ => rfl, fun _ _ h => h, fun _ h => h, fun h => h, fun ρ v => by simp [pending], by simp⟩
  | n :: B, hO, hids, s, hr => by
    obtain ⟨s1, e1, p1⟩ := sampleUnit_ok hs hde hw hn hp (hids n (by simp)) hO.2.2.nodup hO.1 hO.2.1 s hr
    obtain ⟨s', e2, q1, q2, q3, q4, q5, q6⟩ := samplePass_ok (rows := rows) hs hde hw hn hp B hO.2.2
      (fun m hm => hids m (by simp [hm])) s1 (p1.range hr)
    refine ⟨s', ?_, ?_, fun m q h => q2 m q (p1.grow m q h), fun w h => q3 w (p1.log w h), fun h => q4 (p1.genuine h), ?_, ?_⟩
    · rw [List.foldlM_cons, e1]; exact e2
    · intro m hm
      simp only [List.mem_cons, not_or] at hm
      rw [q1 m hm.2, p1.fixed m hm.2]
    · intro ρ v
      rw [q5 ρ v, p1.balance ρ v]; rfl
    · intro m hm
      rcases List.mem_cons.1 hm with rfl | hm
      · have hv := p1.served m (by simp)
        have ha : ∀ ρ, Active s'.1 ρ m → Active s1.1 ρ m := by
          intro ρ ⟨q, hq, h⟩
          rw [q1 m hO.1] at hq
          exact ⟨q, hq, h⟩
        have hm' : ∀ ρ c, Active s1.1 ρ c → Active s'.1 ρ c := fun ρ c ⟨q, hq, h⟩ => ⟨q, q2 c q hq, h⟩
        refine ⟨?_, ?_, ?_⟩
        · intro d hd ρ h
          obtain ⟨w, hw, h⟩ := hv.leaf d hd ρ (ha ρ h)
          exact ⟨w, q3 w hw, h⟩
        · intro hd ρ h
          obtain ⟨e, he, hpos, h⟩ := hv.sum hd ρ (ha ρ h)
          exact ⟨e, he, hpos, hm' _ _ h⟩
        · intro hd ρ h c hc
          exact hm' _ _ (hv.prod hd ρ (ha ρ h) c hc)
      · exact q6 m hm

end PM.Graph
