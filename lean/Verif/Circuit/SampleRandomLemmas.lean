import Verif.Circuit.SampleRandom
import Verif.Circuit.SampleLemmas
import Verif.Circuit.ProbLemmas

/-! # Lemmas about random sampling -/

namespace PM

open Classical

namespace Rand

variable {α β : Type}

/-- All results have the property: the operator only looks at the values of `f` there. -/
def On (d : Rand α) (P : α → Prop) : Prop := ∀ f f', (∀ a, P a → f a = f' a) → d f = d f'

/-- Constants can be pulled out. -/
def Hom (d : Rand α) : Prop := ∀ (c : ℝ) f, d (fun a => c * f a) = c * d f

theorem On.mono {d : Rand α} {P Q : α → Prop} (h : On d P) (hPQ : ∀ a, P a → Q a) : On d Q :=
  fun f f' hf => h f f' fun a ha => hf a (hPQ a ha)

theorem on_pure {a : α} {P : α → Prop} (h : P a) : On (pure a) P := fun _ _ hf => hf a h

theorem on_comp {d : Rand α} {P : α → Prop} (h : On d P) {k : α → Rand β} {Q : β → Prop} (hk : ∀ a, P a → On (k a) Q) :
    On (fun f => d fun a => k a f) Q :=
  fun f f' hf => h _ _ fun a ha => hk a ha f f' hf

theorem on_bindE {d : Rand (Except PyErr α)} {P : α → Prop} (h : On d fun res => ∃ a, res = .ok a ∧ P a)
    {k : α → Rand (Except PyErr β)} {Q : Except PyErr β → Prop} (hk : ∀ a, P a → On (k a) Q) : On (bindE d k) Q := by
  intro f f' hf
  refine h _ _ ?_
  rintro _ ⟨a, rfl, ha⟩
  exact hk a ha f f' hf

theorem hom_pure (a : α) : Hom (pure a) := fun _ _ => rfl

theorem hom_categorical (ps : List ℝ) : Hom (categorical ps) := by
  intro c f
  unfold categorical
  rw [← List.sum_map_mul_left]
  congr 1
  apply List.map_congr_left
  intro p _
  ring

theorem hom_multinomial (ps : List ℝ) : ∀ a, Hom (multinomial ps a)
  | 0 => hom_pure _
  | a + 1 => fun c f => by
    unfold multinomial
    rw [← hom_multinomial ps a c]
    congr 1
    funext x
    exact hom_categorical ps c _

theorem hom_shuffle (l : List ℕ) : Hom (shuffle l) := by
  intro c f
  unfold shuffle
  rw [List.sum_map_mul_left]
  ring

theorem hom_leafValues (d : Leaf) : ∀ a, Hom (leafValues d a)
  | 0 => hom_pure _
  | a + 1 => fun c f => by
    unfold leafValues
    rw [← MeasureTheory.integral_const_mul]
    congr 1
    funext x
    exact hom_leafValues d a c _

theorem shuffle_const (l : List ℕ) (c : ℝ) : shuffle l (fun _ => c) = c := by
  unfold shuffle
  have : (l.permutations.length : ℝ) ≠ 0 := by
    rw [List.length_permutations]
    exact_mod_cast (Nat.factorial_pos _).ne'
  rw [List.map_const', List.sum_replicate, nsmul_eq_mul]
  field_simp

theorem on_shuffle (l : List ℕ) : On (shuffle l) fun l' => l'.Perm l := by
  intro f f' hf
  unfold shuffle
  congr 2
  apply List.map_congr_left
  intro l' hl'
  exact hf l' (List.mem_permutations.1 hl')

theorem on_categorical (ps : List ℝ) : On (categorical ps) fun i => ∃ p, ps[i]? = some p ∧ p ≠ 0 := by
  intro f f' hf
  unfold categorical
  congr 1
  apply List.map_congr_left
  intro p hp
  by_cases h0 : p.1 = 0
  · simp [h0]
  · rw [hf p.2 ⟨p.1, List.mem_zipIdx_iff_getElem?.1 hp, h0⟩]

theorem sum_modify : ∀ (c : List ℕ) (i : ℕ), i < c.length → (c.modify i (· + 1)).sum = c.sum + 1
  | [], i, h => by simp at h
  | a :: c, 0, _ => by simp [List.modify]; omega
  | a :: c, i + 1, h => by
    have := sum_modify c i (by simpa using h)
    rw [List.modify_succ_cons, List.sum_cons, List.sum_cons, this]; omega

theorem on_multinomial (ps : List ℝ) : ∀ a, On (multinomial ps a) fun c =>
    c.length = ps.length ∧ c.sum = a ∧ ∀ i : ℕ, ps[i]? = some 0 → c[i]? = some 0
  | 0 => on_pure ⟨by simp, by simp, fun i hi => by
      have : i < ps.length := (List.getElem?_eq_some_iff.1 hi).1
      simp [this]⟩
  | a + 1 => by
    refine on_comp (on_multinomial ps a) fun c hc => ?_
    refine on_comp (on_categorical ps) fun i hi => on_pure ?_
    obtain ⟨p, hp, hp0⟩ := hi
    have hil : i < c.length := by rw [hc.1]; exact (List.getElem?_eq_some_iff.1 hp).1
    refine ⟨by simp [hc.1], by rw [sum_modify c i hil, hc.2.1], ?_⟩
    intro j hj
    rw [List.getElem?_modify]
    have hij : i ≠ j := by
      rintro rfl
      rw [hp] at hj; injection hj with hj; exact hp0 hj
    simp [hij, hc.2.2 j hj]

theorem on_leafValues (d : Leaf) : ∀ a, On (leafValues d a) fun xs => xs.length = a
  | 0 => on_pure rfl
  | a + 1 => by
    intro f f' hf
    unfold leafValues
    congr 1
    funext x
    exact on_leafValues d a _ _ fun xs hxs => hf _ (by simp [hxs])

/-! ### Expected values of products -/

/-- `∏ tᵢ ^ cᵢ`. -/
noncomputable def pw : List ℝ → List ℕ → ℝ
  | t :: ts, c :: cs => t ^ c * pw ts cs
  | _, _ => 1

theorem pw_modify : ∀ (ts : List ℝ) (c : List ℕ) (i : ℕ) (t : ℝ), ts[i]? = some t → i < c.length →
    pw ts (c.modify i (· + 1)) = t * pw ts c
  | [], _, i, t, h, _ => by simp at h
  | _, [], i, t, _, h => by simp at h
  | s :: ts, c :: cs, 0, t, h, _ => by
    simp at h; subst h
    simp [List.modify, pw]; ring
  | s :: ts, c :: cs, i + 1, t, h, h' => by
    have := pw_modify ts cs i t (by simpa using h) (by simpa using h')
    rw [List.modify_succ_cons, pw, pw, this]; ring

theorem pw_replicate : ∀ (ts : List ℝ) (n : ℕ), pw ts (List.replicate n 0) = 1
  | [], _ => by simp [pw]
  | t :: ts, 0 => by simp [pw]
  | t :: ts, n + 1 => by simp [List.replicate_succ, pw, pw_replicate]

theorem pw_eq_prod : ∀ (ts : List ℝ) (c : List ℕ), ts.length = c.length →
    pw ts c = ((List.range c.length).map fun i => ts.getD i 1 ^ c.getD i 0).prod
  | [], [], _ => by simp [pw]
  | [], c :: cs, h => by simp at h
  | t :: ts, [], h => by simp at h
  | t :: ts, c :: cs, h => by
    rw [pw, pw_eq_prod ts cs (by simpa using h), List.length_cons, List.range_succ_eq_map, List.map_cons, List.prod_cons, List.map_map]
    simp [Function.comp_def]

theorem categorical_getD (ps ts : List ℝ) (h : ps.length = ts.length) :
    categorical ps (fun i => ts.getD i 1) = (List.zipWith (· * ·) ps ts).sum := by
  unfold categorical
  congr 1
  apply List.ext_getElem
  · simp [h]
  · intro i h1 h2
    simp at h1 h2
    simp [h2.2]

/-- The generating function of the multinomial distribution. -/
theorem multinomial_pw (ps ts : List ℝ) (h : ps.length = ts.length) : ∀ a,
    multinomial ps a (pw ts) = (List.zipWith (· * ·) ps ts).sum ^ a
  | 0 => by simp [multinomial, pure, pw_replicate]
  | a + 1 => by
    unfold multinomial
    rw [on_multinomial ps a _ (fun c => (List.zipWith (· * ·) ps ts).sum * pw ts c), hom_multinomial ps a, multinomial_pw ps ts h a]
    · ring
    · intro c hc
      rw [on_categorical ps _ (fun i => pw ts c * ts.getD i 1), hom_categorical, categorical_getD ps ts h, mul_comm]
      rintro i ⟨p, hp, -⟩
      have hi : i < ps.length := (List.getElem?_eq_some_iff.1 hp).1
      have ht : ts[i]? = some (ts[i]'(h ▸ hi)) := List.getElem?_eq_getElem _
      rw [pw_modify ts c i _ ht (hc.1 ▸ hi), mul_comm]
      simp [ht]

theorem leafValues_indicator (d : Leaf) {A : Set ℝ} (hA : MeasurableSet A) : ∀ a,
    leafValues d a (fun xs => (xs.map fun x => if x ∈ A then (1 : ℝ) else 0).prod) = (Spec.leafLaw d).real A ^ a
  | 0 => by simp [leafValues, pure]
  | a + 1 => by
    unfold leafValues
    simp only [List.map_cons, List.prod_cons]
    have : (fun x => leafValues d a fun xs => (if x ∈ A then (1 : ℝ) else 0) * (xs.map fun x => if x ∈ A then (1 : ℝ) else 0).prod)
        = fun x => A.indicator (fun _ => (Spec.leafLaw d).real A ^ a) x := by
      funext x
      rw [hom_leafValues d a, leafValues_indicator d hA a]
      by_cases hx : x ∈ A <;> simp [hx]
    rw [this, MeasureTheory.integral_indicator hA, MeasureTheory.setIntegral_const, smul_eq_mul]
    ring

end Rand

namespace Graph

open Spec Rand

/-! ### What a visit does in any case -/

/-- One visit keeps the balance. -/
structure Step (sc : Node → Finset Var) (rows : ℕ) (n : Node) (B : List Node) (s s' : Requests × List Write) : Prop where
  range : ∀ m, ∀ q ∈ s'.1 m, q.1 + q.2 ≤ rows
  balance : ∀ ρ v, pending sc v ρ s'.1 B + writesTo s'.2 ρ v = pending sc v ρ s.1 (n :: B) + writesTo s.2 ρ v

theorem on_sumRequestsR {g : Circuit} {n : Node} {ws : List LogP} (hp : pvalsOK ws) (hlen : ws.length = (g.succ n).length) :
    ∀ reqs : List (ℕ × ℕ), On (g.sumRequestsR n ws reqs) fun res => ∃ P, res = .ok P ∧ (∀ p ∈ P, p.1 ∈ g.succ n) ∧
      (∀ p ∈ P, ∃ q ∈ reqs, p.2.1 + p.2.2 ≤ q.1 + q.2) ∧ ∀ ρ, P.countP (fun p => covers ρ p.2) = reqs.countP (covers ρ)
  | [] => on_pure ⟨[], rfl, by simp, by simp, by simp⟩
  | q :: qs => by
    unfold sumRequestsR
    rw [if_pos hp]
    refine on_comp (on_multinomial _ _) fun c hc => ?_
    refine on_comp (on_shuffle _) fun o ho => ?_
    rw [List.length_map] at hc
    obtain ⟨P, h1, h2, h3, h4⟩ := distribute_ok (g.succ n) c o q.1 (fun i hi => by
      have := ho.mem_iff.1 hi
      rw [List.mem_range] at this
      exact ⟨this, by omega⟩)
    have htot : (o.map fun i => c.getD i 0).sum = q.2 := by
      rw [(ho.map _).sum_eq, ← hlen, ← hc.1, sum_getD_range, hc.2.1]
    rw [htot] at h3 h4
    refine on_bindE (P := fun P' => P' = P) (on_pure ⟨P, h1, rfl⟩) ?_
    rintro _ rfl
    refine on_bindE (on_sumRequestsR hp hlen qs) fun Ps hPs => on_pure ⟨_, rfl, ?_, ?_, ?_⟩
    · intro p hp
      rcases List.mem_append.1 hp with hp | hp
      · obtain ⟨i, _, hi, _⟩ := h2 p hp
        exact List.mem_of_getElem? hi
      · exact hPs.1 p hp
    · intro p hp
      rcases List.mem_append.1 hp with hp | hp
      · exact ⟨q, by simp, (h3 p hp).2⟩
      · obtain ⟨q', hq', h⟩ := hPs.2.1 p hp
        exact ⟨q', by simp [hq'], h⟩
    · intro ρ
      rw [List.countP_append, h4 ρ, hPs.2.2 ρ, List.countP_cons, Nat.add_comm]
      congr 1
      by_cases hcov : covers ρ q = true
      · rw [if_pos hcov, if_pos (covers_iff.1 hcov)]
      · rw [if_neg hcov, if_neg (fun h => hcov (covers_iff.2 h))]

theorem writesTo_append (A B : List Write) (ρ : ℕ) (v : Var) : writesTo (A ++ B) ρ v = writesTo A ρ v + writesTo B ρ v := by
  simp [writesTo]

theorem writesTo_zipIdx (a : ℕ) (n : Node) (u v : Var) (ρ : ℕ) (xs : List ℝ) :
    writesTo (xs.zipIdx.map fun x => (⟨a + x.2, u, n, x.1⟩ : Write)) ρ v =
      if v = u then (if covers ρ (a, xs.length) = true then 1 else 0) else 0 := by
  unfold writesTo
  rw [List.countP_map]
  by_cases huv : v = u
  · subst huv
    have h : ((fun w : Write => w.row == ρ && w.var == v) ∘ fun x : ℝ × ℕ => (⟨a + x.2, v, n, x.1⟩ : Write))
        = (fun i => a + i == ρ) ∘ Prod.snd := by
      funext x; simp
    rw [h, ← List.countP_map, List.zipIdx_map_snd, ← List.range_eq_range', countP_range_eq, if_pos rfl]
    by_cases hc : covers ρ (a, xs.length) = true
    · rw [if_pos hc, if_pos (covers_iff.1 hc)]
    · rw [if_neg hc, if_neg (fun h => hc (covers_iff.2 h))]
  · rw [if_neg huv, List.countP_eq_zero]
    intro i _
    simp [Ne.symm huv]

theorem on_leafWritesR {rows : ℕ} {n : Node} {d : Leaf} (hd : d.Normalized) :
    ∀ reqs : List (ℕ × ℕ), (∀ q ∈ reqs, q.1 + q.2 ≤ rows) → On (leafWritesR rows n d reqs) fun res => ∃ W, res = .ok W ∧
      ∀ ρ v, writesTo W ρ v = if v = d.var then reqs.countP (covers ρ) else 0
  | [], _ => on_pure ⟨[], rfl, by simp [writesTo]⟩
  | q :: qs, hr => by
    unfold leafWritesR
    rw [if_pos ⟨hd, hr q (by simp)⟩]
    refine on_comp (on_leafValues d q.2) fun xs hxs => ?_
    refine on_bindE (on_leafWritesR hd qs (fun q hq => hr q (by simp [hq]))) fun W hW => on_pure ⟨_, rfl, ?_⟩
    intro ρ v
    rw [writesTo_append, hW ρ v, writesTo_zipIdx, hxs, List.countP_cons]
    by_cases huv : v = d.var
    · simp only [if_pos huv]
      exact Nat.add_comm _ _
    · simp [huv]

theorem on_sampleUnitR {g : Circuit} {sc : Node → Finset Var} {rows : ℕ} (hs : Scoped g sc) (hde : Decomposable g sc)
    (hw : Weighted g) (hn : NormalizedSums g) (hln : ∀ n d, g.kind? n = some (.leaf d) → d.Normalized)
    {n : Node} (hmem : n ∈ g.ids) {B : List Node} (hB : B.Nodup) (hc : ∀ c ∈ g.succ n, c ∈ B)
    (s : Requests × List Write) (hr : ∀ m, ∀ q ∈ s.1 m, q.1 + q.2 ≤ rows) :
    On (g.sampleUnitR rows s n) fun res => ∃ s', res = .ok s' ∧ Step sc rows n B s s' := by
  obtain ⟨k, hk⟩ := exists_kind? hmem
  have hcons : ∀ v ρ, pending sc v ρ s.1 (n :: B) = pending sc v ρ s.1 [n] + pending sc v ρ s.1 B := fun v ρ =>
    pending_append sc v ρ s.1 [n] B
  cases k with
  | leaf d =>
    simp only [sampleUnitR, hk]
    refine on_bindE (on_leafWritesR (hln n d hk) _ (hr n)) fun W hW => on_pure ⟨_, rfl, hr, ?_⟩
    intro ρ v
    have e2 : pending sc v ρ s.1 [n] = writesTo W ρ v := by
      rw [hW]; simp [pending, hs.leaf n d hk]
    simp only [hcons, writesTo_append, e2]; omega
  | sum =>
    obtain ⟨ws, hws, hexp⟩ := logWeights_eq (hw n hk)
    have hlen : ws.length = (g.succ n).length := by
      have := congrArg List.length hexp
      simpa [succ] using this
    simp only [sampleUnitR, hk, hws]
    refine on_bindE (P := fun w => w = ws) (on_pure ⟨ws, rfl, rfl⟩) ?_
    rintro _ rfl
    refine on_bindE (on_sumRequestsR (pvalsOK_of hexp (hn n hk)) hlen _) fun P hP => on_pure ⟨_, rfl, ?_, ?_⟩
    · intro m q hq
      rcases mem_pushAll.1 hq with hq | hq
      · exact hr m q hq
      · obtain ⟨q', hq', hle⟩ := hP.2.1 _ hq
        exact le_trans hle (hr n q' hq')
    · intro ρ v
      have e1 : pending sc v ρ s.1 [n] = wanted sc v ρ P := by
        rw [wanted_sum hs hk hP.1, hP.2.2]; simp [pending]
      rw [hcons, pending_pushAll sc v ρ hB (fun p hp => hc _ (hP.1 p hp)), e1]; simp only; omega
  | prod =>
    have h2 : ∀ p ∈ g.prodRequests n (s.1 n), p.1 ∈ g.succ n ∧ p.2 ∈ s.1 n := fun p hp' => mem_prodRequests hp'
    simp only [sampleUnitR, hk]
    refine on_pure ⟨_, rfl, ?_, ?_⟩
    · intro m q hq
      rcases mem_pushAll.1 hq with hq | hq
      · exact hr m q hq
      · exact hr n q (h2 _ hq).2
    · intro ρ v
      have e1 : pending sc v ρ s.1 [n] = wanted sc v ρ (g.prodRequests n (s.1 n)) := by
        rw [wanted_prodRequests hs hde hk]; simp [pending]
      rw [hcons, pending_pushAll sc v ρ hB (fun p hp => hc _ (h2 p hp).1), e1]; simp only; omega

theorem on_samplePassR {g : Circuit} {sc : Node → Finset Var} {rows : ℕ} (hs : Scoped g sc) (hde : Decomposable g sc)
    (hw : Weighted g) (hn : NormalizedSums g) (hln : ∀ n d, g.kind? n = some (.leaf d) → d.Normalized) :
    ∀ (L : List Node), Ordered g L → (∀ n ∈ L, n ∈ g.ids) → ∀ (s : Requests × List Write), (∀ m, ∀ q ∈ s.1 m, q.1 + q.2 ≤ rows) →
      On (g.samplePassR rows L s) fun res => ∃ s', res = .ok s' ∧
        ∀ ρ v, writesTo s'.2 ρ v = pending sc v ρ s.1 L + writesTo s.2 ρ v
  | [], _, _, s, _ => on_pure ⟨s, rfl, by simp [pending]⟩
  | n :: B, hO, hids, s, hr => by
    unfold samplePassR
    refine on_bindE (on_sampleUnitR hs hde hw hn hln (hids n (by simp)) hO.2.2.nodup hO.2.1 s hr) fun s1 h1 => ?_
    refine (on_samplePassR hs hde hw hn hln B hO.2.2 (fun m hm => hids m (by simp [hm])) s1 h1.range).mono ?_
    rintro _ ⟨s', rfl, h⟩
    exact ⟨s', rfl, fun ρ v => by rw [h, h1.balance]⟩

/-! ### Expected values -/

/-- The value of a list of requests if a unit `n` contributes `f n` per row. -/
noncomputable def worth (f : Node → ℝ) (P : List (Node × ℕ × ℕ)) : ℝ := (P.map fun p => f p.1 ^ p.2.2).prod

/-- The value of all pending requests. -/
noncomputable def worthOf (f : Node → ℝ) (Q : Requests) (todo : List Node) : ℝ :=
  (todo.map fun n => ((Q n).map fun q => f n ^ q.2).prod).prod

/-- `1` if all written values are in the sets. -/
noncomputable def inside (A : Var → Set ℝ) (log : List Write) : ℝ := (log.map fun w => if w.value ∈ A w.var then (1 : ℝ) else 0).prod

theorem inside_append (A : Var → Set ℝ) (l l' : List Write) : inside A (l ++ l') = inside A l * inside A l' := by simp [inside]

theorem inside_eq (A : Var → Set ℝ) (log : List Write) : inside A log = if ∀ w ∈ log, w.value ∈ A w.var then 1 else 0 := by
  induction log with
  | nil => simp [inside]
  | cons w log ih =>
    have : inside A (w :: log) = (if w.value ∈ A w.var then (1 : ℝ) else 0) * inside A log := by simp [inside]
    rw [this, ih]
    by_cases h : w.value ∈ A w.var <;> simp [h]

theorem worth_append (f : Node → ℝ) (P P' : List (Node × ℕ × ℕ)) : worth f (P ++ P') = worth f P * worth f P' := by simp [worth]

theorem worthOf_pushAll (f : Node → ℝ) {Q : Requests} : ∀ {B : List Node}, B.Nodup → ∀ {P : List (Node × ℕ × ℕ)}, (∀ p ∈ P, p.1 ∈ B) →
    worthOf f (pushAll Q P) B = worthOf f Q B * worth f P := by
  intro B hB P hP
  have key : ∀ P : List (Node × ℕ × ℕ), (∀ p ∈ P, p.1 ∈ B) →
      (B.map fun n => (((P.filter fun p => p.1 == n).map Prod.snd).map fun q => f n ^ q.2).prod).prod = worth f P := by
    intro P
    induction P with
    | nil => intro _; simp [worth]
    | cons p P ih =>
      intro hP
      have h1 := ih fun p hp => hP p (by simp [hp])
      have h2 : ∀ B : List Node, B.Nodup → p.1 ∈ B → (B.map fun n => if p.1 = n then f n ^ p.2.2 else 1).prod = f p.1 ^ p.2.2 := by
        intro B
        induction B with
        | nil => intro _ h; simp at h
        | cons b B ih =>
          intro hB h
          rw [List.nodup_cons] at hB
          rw [List.map_cons, List.prod_cons]
          by_cases hb : p.1 = b
          · have h0 : (B.map fun n => if p.1 = n then f n ^ p.2.2 else 1).prod = 1 := by
              apply List.prod_eq_one
              intro x hx
              obtain ⟨n, hn, rfl⟩ := List.mem_map.1 hx
              have : p.1 ≠ n := by rintro rfl; exact hB.1 (hb ▸ hn)
              simp [this]
            rw [h0]; simp [hb]
          · have hB' : p.1 ∈ B := by
              rcases List.mem_cons.1 h with h | h
              · exact absurd h hb
              · exact h
            rw [ih hB.2 hB']; simp [hb]
      have h3 : (B.map fun n => ((((p :: P).filter fun p => p.1 == n).map Prod.snd).map fun q => f n ^ q.2).prod)
          = B.map fun n => (if p.1 = n then f n ^ p.2.2 else 1) *
            (((P.filter fun p => p.1 == n).map Prod.snd).map fun q => f n ^ q.2).prod := by
        apply List.map_congr_left
        intro n _
        by_cases hn : p.1 = n <;> simp [hn]
      rw [h3, List.prod_map_mul, h1, h2 B hB (hP p (by simp)), worth, worth, List.map_cons, List.prod_cons]
  rw [← key P hP, worthOf, worthOf, ← List.prod_map_mul]
  congr 1
  apply List.map_congr_left
  intro n _
  simp [pushAll]

theorem distribute_worth (f : Node → ℝ) (subs : List Node) (counts : List ℕ) : ∀ (is : List ℕ) (a : ℕ) (P : List (Node × ℕ × ℕ)),
    distribute subs counts is a = .ok P → worth f P = (is.map fun i => (subs.map f).getD i 1 ^ counts.getD i 0).prod
  | [], a, P, h => by
    simp only [distribute] at h; injection h with h; subst h; simp [worth]
  | i :: is, a, P, h => by
    unfold distribute at h
    split at h
    · rename_i c k hc hk
      simp only [bind, Except.bind] at h
      split at h
      · exact absurd h (by simp)
      · rename_i P' hP'
        injection h with h
        subst h
        have := distribute_worth f subs counts is _ P' hP'
        rw [worth, List.map_cons, List.prod_cons, List.map_cons, List.prod_cons, ← this, worth]
        simp [hc, hk]
    · exact absurd h (by simp)

/-- The functional applied to the result of a computation that may fail: failures count zero. -/
noncomputable def okOr (h : α → ℝ) : Except PyErr α → ℝ
  | .ok a => h a
  | .error _ => 0

theorem bindE_pure_ok {α β : Type} (a : α) (k : α → Rand (Except PyErr β)) : bindE (Rand.pure (.ok a)) k = k a := rfl

theorem bindE_okOr {α β : Type} {d : Rand (Except PyErr α)} {k : α → Rand (Except PyErr β)} {h : β → ℝ} {h' : α → ℝ}
    {P : α → Prop} (hd : On d fun res => ∃ a, res = .ok a ∧ P a) (hk : ∀ a, P a → k a (okOr h) = h' a) :
    bindE d k (okOr h) = d (okOr h') := by
  refine hd _ _ ?_
  rintro _ ⟨a, rfl, ha⟩
  exact hk a ha

theorem hom_sumRequestsR (g : Circuit) (n : Node) (ws : List LogP) : ∀ reqs, Hom (g.sumRequestsR n ws reqs)
  | [] => hom_pure _
  | q :: qs => by
    unfold sumRequestsR
    split
    · intro c f
      beta_reduce
      rw [← hom_multinomial _ _ c]
      congr 1; funext counts
      rw [← hom_shuffle _ c]
      congr 1; funext order
      simp only [bindE, Rand.pure]
      split
      · rw [← hom_sumRequestsR g n ws qs c]
        congr 1; funext res
        cases res <;> rfl
      · rfl
    · exact hom_pure _

theorem hom_leafWritesR (rows : ℕ) (n : Node) (d : Leaf) : ∀ reqs, Hom (leafWritesR rows n d reqs)
  | [] => hom_pure _
  | q :: qs => by
    unfold leafWritesR
    split
    · intro c f
      beta_reduce
      rw [← hom_leafValues _ _ c]
      congr 1; funext xs
      simp only [bindE, Rand.pure]
      rw [← hom_leafWritesR rows n d qs c]
      congr 1; funext res
      cases res <;> rfl
    · exact hom_pure _

theorem okOr_mul {α : Type} (c : ℝ) (h : α → ℝ) : okOr (fun a => c * h a) = fun res => c * okOr h res := by
  funext res; cases res <;> simp [okOr]

theorem sumRequestsR_worth {g : Circuit} {n : Node} {ws : List LogP} (hp : pvalsOK ws) (hlen : ws.length = (g.succ n).length)
    (f : Node → ℝ) : ∀ reqs : List (ℕ × ℕ), g.sumRequestsR n ws reqs (okOr (worth f)) =
      (reqs.map fun q => (List.zipWith (· * ·) (ws.map LogP.exp) ((g.succ n).map f)).sum ^ q.2).prod
  | [] => by simp [sumRequestsR, Rand.pure, okOr, worth]
  | q :: qs => by
    unfold sumRequestsR
    rw [if_pos hp, List.map_cons, List.prod_cons, ← sumRequestsR_worth hp hlen f qs]
    rw [on_multinomial _ _ _ (fun c => g.sumRequestsR n ws qs (okOr (worth f)) * pw ((g.succ n).map f) c), hom_multinomial,
      multinomial_pw _ _ (by simp [hlen]), mul_comm]
    intro c hc
    rw [List.length_map] at hc
    rw [on_shuffle _ _ (fun _ => g.sumRequestsR n ws qs (okOr (worth f)) * pw ((g.succ n).map f) c), shuffle_const]
    intro o ho
    obtain ⟨P, h1, -⟩ := distribute_ok (g.succ n) c o q.1 (fun i hi => by
      have := ho.mem_iff.1 hi
      rw [List.mem_range] at this
      exact ⟨this, by omega⟩)
    have hw : worth f P = pw ((g.succ n).map f) c := by
      rw [distribute_worth f _ _ _ _ _ h1, (ho.map _).prod_eq, pw_eq_prod _ _ (by simp [hc.1, hlen]), ← hlen, ← hc.1]
    rw [h1, bindE_pure_ok, bindE_okOr (h' := fun Ps => worth f P * worth f Ps) (on_sumRequestsR hp hlen qs)
      (fun Ps _ => worth_append f P Ps), okOr_mul, hom_sumRequestsR, hw, mul_comm]

theorem inside_zipIdx (A : Var → Set ℝ) (a : ℕ) (v : Var) (n : Node) (xs : List ℝ) :
    inside A (xs.zipIdx.map fun x => (⟨a + x.2, v, n, x.1⟩ : Write)) = (xs.map fun x => if x ∈ A v then (1 : ℝ) else 0).prod := by
  unfold inside
  rw [List.map_map]
  have : ((fun w : Write => if w.value ∈ A w.var then (1 : ℝ) else 0) ∘ fun x : ℝ × ℕ => (⟨a + x.2, v, n, x.1⟩ : Write))
      = (fun x => if x ∈ A v then (1 : ℝ) else 0) ∘ Prod.fst := rfl
  rw [this, ← List.map_map, List.zipIdx_map_fst]

theorem leafWritesR_inside {rows : ℕ} {n : Node} {d : Leaf} (hd : d.Normalized) {A : Var → Set ℝ} (hA : MeasurableSet (A d.var)) :
    ∀ reqs : List (ℕ × ℕ), (∀ q ∈ reqs, q.1 + q.2 ≤ rows) → leafWritesR rows n d reqs (okOr (inside A)) =
      (reqs.map fun q => (leafLaw d).real (A d.var) ^ q.2).prod
  | [], _ => by simp [leafWritesR, Rand.pure, okOr, inside]
  | q :: qs, hr => by
    have hr' : ∀ q ∈ qs, q.1 + q.2 ≤ rows := fun q hq => hr q (by simp [hq])
    unfold leafWritesR
    rw [if_pos ⟨hd, hr q (by simp)⟩, List.map_cons, List.prod_cons, ← leafWritesR_inside hd hA qs hr', ← leafValues_indicator d hA q.2,
      mul_comm, ← hom_leafValues d q.2]
    congr 1
    funext xs
    rw [bindE_okOr (h' := fun W => inside A (xs.zipIdx.map fun x => (⟨q.1 + x.2, d.var, n, x.1⟩ : Write)) * inside A W)
      (on_leafWritesR hd qs hr') (fun W _ => inside_append A _ W), okOr_mul, hom_leafWritesR, inside_zipIdx, mul_comm]

theorem prod_map_pow {α : Type} (F : α → ℝ) (k : ℕ) : ∀ l : List α, (l.map fun e => F e ^ k).prod = (l.map F).prod ^ k
  | [] => by simp
  | a :: l => by rw [List.map_cons, List.prod_cons, prod_map_pow F k l, List.map_cons, List.prod_cons, mul_pow]

theorem sampleUnitR_worth {g : Circuit} {rows : ℕ}
    (hw : Weighted g) (hn : NormalizedSums g) (hln : ∀ n d, g.kind? n = some (.leaf d) → d.Normalized)
    {A : Var → Set ℝ} (hA : ∀ v, MeasurableSet (A v)) {f : Node → ℝ} (hf : CircuitValue g (fun d => (leafLaw d).real (A d.var)) f)
    {n : Node} (hmem : n ∈ g.ids) {B : List Node} (hB : B.Nodup) (hc : ∀ c ∈ g.succ n, c ∈ B)
    (s : Requests × List Write) (hr : ∀ m, ∀ q ∈ s.1 m, q.1 + q.2 ≤ rows) :
    g.sampleUnitR rows s n (okOr fun s' => worthOf f s'.1 B * inside A s'.2) = worthOf f s.1 (n :: B) * inside A s.2 := by
  obtain ⟨k, hk⟩ := exists_kind? hmem
  have hcons : worthOf f s.1 (n :: B) = ((s.1 n).map fun q => f n ^ q.2).prod * worthOf f s.1 B := by simp [worthOf]
  cases k with
  | leaf d =>
    simp only [sampleUnitR, hk]
    rw [bindE_okOr (h' := fun W => worthOf f s.1 B * inside A s.2 * inside A W) (on_leafWritesR (hln n d hk) _ (hr n))
      (fun W _ => by simp only [Rand.pure, okOr, inside_append]; ring), okOr_mul, hom_leafWritesR,
      leafWritesR_inside (hln n d hk) (hA _) _ (hr n), hcons, hf.leaf n d hk]
    ring
  | sum =>
    obtain ⟨ws, hws, hexp⟩ := logWeights_eq (hw n hk)
    have hlen : ws.length = (g.succ n).length := by
      have := congrArg List.length hexp
      simpa [succ] using this
    have hp := pvalsOK_of hexp (hn n hk)
    simp only [sampleUnitR, hk, hws]
    rw [bindE_pure_ok, bindE_okOr (h' := fun P => worthOf f s.1 B * inside A s.2 * worth f P) (on_sumRequestsR hp hlen _)
      (fun P hP => by
        simp only [Rand.pure, okOr]
        rw [worthOf_pushAll f hB (fun p hp => hc _ (hP.1 p hp))]; ring), okOr_mul, hom_sumRequestsR, sumRequestsR_worth hp hlen, hcons]
    have : (List.zipWith (· * ·) (ws.map LogP.exp) ((g.succ n).map f)).sum = f n := by
      rw [hf.sum n hk, hexp, succ, List.map_map, List.zipWith_map, List.zipWith_self]
      rfl
    rw [this]; ring
  | prod =>
    simp only [sampleUnitR, hk, Rand.pure, okOr]
    rw [worthOf_pushAll f hB (fun p hp => hc _ (mem_prodRequests hp).1), hcons]
    have : worth f (g.prodRequests n (s.1 n)) = ((s.1 n).map fun q => f n ^ q.2).prod := by
      unfold prodRequests
      generalize s.1 n = reqs
      induction reqs with
      | nil => simp [worth]
      | cons q reqs ih =>
        rw [List.flatMap_cons, worth_append, ih, List.map_cons, List.prod_cons]
        congr 1
        rw [worth, List.map_map, hf.prod n hk, succ, List.map_map]
        show ((g.outEdges n).map fun e => f e.dst ^ q.2).prod = _
        exact prod_map_pow (fun e : Edge => f e.dst) q.2 _
    rw [this]; ring

theorem samplePassR_worth {g : Circuit} {sc : Node → Finset Var} {rows : ℕ} (hs : Scoped g sc) (hde : Decomposable g sc)
    (hw : Weighted g) (hn : NormalizedSums g) (hln : ∀ n d, g.kind? n = some (.leaf d) → d.Normalized)
    {A : Var → Set ℝ} (hA : ∀ v, MeasurableSet (A v)) {f : Node → ℝ} (hf : CircuitValue g (fun d => (leafLaw d).real (A d.var)) f) :
    ∀ (L : List Node), Ordered g L → (∀ n ∈ L, n ∈ g.ids) → ∀ (s : Requests × List Write), (∀ m, ∀ q ∈ s.1 m, q.1 + q.2 ≤ rows) →
      g.samplePassR rows L s (okOr fun s' => inside A s'.2) = worthOf f s.1 L * inside A s.2
  | [], _, _, s, _ => by simp [samplePassR, Rand.pure, okOr, worthOf]
  | n :: B, hO, hids, s, hr => by
    unfold samplePassR
    rw [bindE_okOr (h' := fun s' => worthOf f s'.1 B * inside A s'.2)
      (on_sampleUnitR hs hde hw hn hln (hids n (by simp)) hO.2.2.nodup hO.2.1 s hr)
      (fun s1 h1 => samplePassR_worth hs hde hw hn hln hA hf B hO.2.2 (fun m hm => hids m (by simp [hm])) s1 h1.range)]
    exact sampleUnitR_worth hw hn hln hA hf (hids n (by simp)) hO.2.2.nodup hO.2.1 s hr

end Graph

end PM
