import Verif.Circuit.Mode
import Verif.Circuit.SupportLemmas
import Verif.Circuit.Integral
import Verif.Dist.ModeLemmas

/-! Helper lemmas for `log_mode` on circuits. -/

namespace PM

open Spec Classical

theorem LogP.exp_inj {a b : LogP} (h : a.exp = b.exp) : a = b := by rw [← LogP.log_exp a, h, LogP.log_exp]

theorem LogP.foldl_max_spec : ∀ (l : List LogP) (a : LogP), (∀ x ∈ a :: l, x.exp ≤ (l.foldl (fun m x => if m ≤ x then x else m) a).exp) ∧
    l.foldl (fun m x => if m ≤ x then x else m) a ∈ a :: l
  | [], a => by simp
  | b :: l, a => by
    have hab : a.exp ≤ (if a ≤ b then b else a).exp ∧ b.exp ≤ (if a ≤ b then b else a).exp := by
      by_cases h : a ≤ b
      · rw [if_pos h]; exact ⟨LogP.le_iff.1 h, le_rfl⟩
      · rw [if_neg h]; rw [LogP.le_iff, not_le] at h; exact ⟨le_rfl, h.le⟩
    obtain ⟨h1, h2⟩ := LogP.foldl_max_spec l (if a ≤ b then b else a)
    rw [List.foldl_cons]
    refine ⟨?_, ?_⟩
    · intro x hx
      rcases List.mem_cons.1 hx with rfl | hx
      · exact hab.1.trans (h1 (if x ≤ b then b else x) (List.mem_cons_self))
      · rcases List.mem_cons.1 hx with rfl | hx
        · exact hab.2.trans (h1 (if a ≤ x then x else a) (List.mem_cons_self))
        · exact h1 x (List.mem_cons_of_mem _ hx)
    · rcases List.mem_cons.1 h2 with h | h
      · rw [h]
        by_cases h' : a ≤ b
        · rw [if_pos h']; simp
        · rw [if_neg h']; simp
      · exact List.mem_cons_of_mem _ (List.mem_cons_of_mem _ h)

theorem LogP.maxOf_spec {l : List LogP} (h : l ≠ []) : ∃ M, LogP.maxOf l = .ok M ∧ M ∈ l ∧ ∀ x ∈ l, x.exp ≤ M.exp := by
  cases l with
  | nil => exact absurd rfl h
  | cons a l => exact ⟨_, rfl, (LogP.foldl_max_spec l a).2, (LogP.foldl_max_spec l a).1⟩

/-- At most one summand is not zero. -/
theorem sum_one_nonzero {α : Type} {f : α → ℝ} : ∀ {l : List α}, l.Pairwise (fun a b => f a = 0 ∨ f b = 0) →
    ∀ a ∈ l, f a ≠ 0 → (l.map f).sum = f a
  | b :: l, h, a, ha, hne => by
    rw [List.pairwise_cons] at h
    rw [List.map_cons, List.sum_cons]
    rcases List.mem_cons.1 ha with rfl | ha
    · have : (l.map f).sum = 0 := List.sum_eq_zero fun x hx => by
        obtain ⟨c, hc, rfl⟩ := List.mem_map.1 hx
        exact (h.1 c hc).resolve_left hne
      rw [this, add_zero]
    · rw [(h.1 a ha).resolve_right hne, zero_add]
      exact sum_one_nonzero h.2 a ha hne

theorem prod_le_prod_list {α : Type} {f g : α → ℝ} : ∀ {l : List α}, (∀ a ∈ l, 0 ≤ f a ∧ f a ≤ g a ∧ 0 < g a) →
    0 ≤ (l.map f).prod ∧ (l.map f).prod ≤ (l.map g).prod ∧ 0 < (l.map g).prod ∧
      ((l.map f).prod = (l.map g).prod ↔ ∀ a ∈ l, f a = g a)
  | [], _ => by simp
  | b :: l, h => by
    obtain ⟨h1, h2, h3, h4⟩ := prod_le_prod_list (l := l) fun a ha => h a (List.mem_cons_of_mem _ ha)
    obtain ⟨k1, k2, k3⟩ := h b (by simp)
    simp only [List.map_cons, List.prod_cons, List.forall_mem_cons]
    refine ⟨mul_nonneg k1 h1, mul_le_mul k2 h2 h1 k3.le, mul_pos k3 h3, ?_⟩
    rw [← h4]
    constructor
    · intro he
      have e1 : f b = g b := by
        by_contra hne
        have hlt : f b < g b := lt_of_le_of_ne k2 hne
        have : f b * (l.map f).prod < g b * (l.map g).prod :=
          lt_of_le_of_lt (mul_le_mul_of_nonneg_left h2 k1) (mul_lt_mul_of_pos_right hlt h3)
        exact this.ne he
      refine ⟨e1, ?_⟩
      rw [e1] at he
      exact mul_left_cancel₀ k3.ne' he
    · rintro ⟨e1, e2⟩; rw [e1, e2]

namespace Graph

theorem cv_dependsOn {g : Circuit} (hw : g.WF) (ha : g.Acyclic) {sc : Node → Finset Var} (hs : Scoped g sc) {ψ : Leaf → ℝ → ℝ}
    {F : (Var → ℝ) → Node → ℝ} (hF : ∀ x, CircuitValue g (fun d => ψ d (x d.var)) (F x)) :
    ∀ n ∈ g.ids, ∀ x y : Var → ℝ, (∀ v ∈ sc n, x v = y v) → F x n = F y n := by
  refine ha.induct (P := fun n => n ∈ g.ids → ∀ x y : Var → ℝ, (∀ v ∈ sc n, x v = y v) → F x n = F y n) ?_
  intro n ih hn x y hxy
  obtain ⟨k, hk⟩ := exists_kind? hn
  have hch : ∀ e ∈ g.outEdges n, sc e.dst ⊆ sc n → F x e.dst = F y e.dst := fun e he hsub =>
    ih _ (dst_mem_succ he) (succ_mem_ids hw (dst_mem_succ he)) x y (fun v hv => hxy v (hsub hv))
  cases k with
  | leaf d =>
    rw [(hF x).leaf n d hk, (hF y).leaf n d hk, hxy d.var (by simp [hs.leaf n d hk])]
  | sum =>
    rw [(hF x).sum n hk, (hF y).sum n hk]
    congr 1
    exact List.map_congr_left (fun e he => by rw [hch e he (hs.sum n hk _ (dst_mem_succ he)).subset])
  | prod =>
    rw [(hF x).prod n hk, (hF y).prod n hk]
    congr 1
    exact List.map_congr_left (fun e he => hch e he (fun v hv => (hs.prod n hk v).2 ⟨_, dst_mem_succ he, hv⟩))

/-- Glue assignments of disjoint sets of variables. -/
theorem exists_glue {sc : Node → Finset Var} (pt : Node → Var → ℝ) : ∀ l : List Node, l.Pairwise (fun a b => Disjoint (sc a) (sc b)) →
    ∃ x : Var → ℝ, ∀ c ∈ l, ∀ v ∈ sc c, x v = pt c v
  | [], _ => ⟨fun _ => 0, by simp⟩
  | a :: l, h => by
    rw [List.pairwise_cons] at h
    obtain ⟨x, hx⟩ := exists_glue pt l h.2
    refine ⟨fun v => if v ∈ sc a then pt a v else x v, ?_⟩
    intro c hc v hv
    rcases List.mem_cons.1 hc with rfl | hc
    · simp only [if_pos hv]
    · simp only [if_neg (fun hv' => Finset.disjoint_left.1 (h.1 c hc) hv' hv)]
      exact hx c hc v hv

/-- What the mode of a unit has to be. -/
structure UnitMode (F : (Var → ℝ) → Node → ℝ) (sym : Var → Bool) (V : Finset Var) (n : Node) (p : Event × LogP) : Prop where
  good : p.1.Good sym V
  pos : 0 < p.2.exp
  le : ∀ x, F x n ≤ p.2.exp
  mem : ∀ x, p.1.Mem x ↔ F x n = p.2.exp
  ne : ∃ x, p.1.Mem x

theorem prod_fold_mode {F : (Var → ℝ) → Node → ℝ} {sym : Var → Bool} {V : Finset Var} {child : Node → Event × LogP} :
    ∀ (l : List Node) (a : Event × LogP), a.1.Good sym V → (∀ c ∈ l, (child c).1.Good sym V) →
    let r := (l.map child).foldl (fun acc b => (acc.1.inter b.1, acc.2 + b.2)) a
    r.1.Good sym V ∧ (∀ x, r.1.Mem x ↔ a.1.Mem x ∧ ∀ c ∈ l, (child c).1.Mem x) ∧
      r.2.exp = a.2.exp * (l.map fun c => (child c).2.exp).prod
  | [], a, ha, _ => by simp [ha]
  | c :: l, a, ha, hl => by
    have hc := hl c (by simp)
    have hac := ha.inter hc
    rw [Finset.union_idempotent] at hac
    obtain ⟨h1, h2, h3⟩ := prod_fold_mode (F := F) l (a.1.inter (child c).1, a.2 + (child c).2) hac
      fun d hd => hl d (List.mem_cons_of_mem _ hd)
    refine ⟨h1, fun x => ?_, ?_⟩
    · rw [List.map_cons, List.foldl_cons, h2, Event.mem_inter ha hc]
      simp [and_assoc]
    · rw [List.map_cons, List.foldl_cons, h3, LogP.exp_add]
      simp [mul_assoc]

/-- The pass gives every unit the maximum of its value and the set of maximisers. -/
theorem mode_eval {g : Circuit} (hw : g.WF) (ha : g.Acyclic) (hwt : Weighted g) {sc : Node → Finset Var} (hs : Scoped g sc)
    (hdec : Decomposable g sc) (hp : ProductsNonempty g) {sym : Var → Bool} (ht : Typed g sym)
    (hv : ∀ n d, g.kind? n = some (.leaf d) → d.Valid) (hm : ∀ n d, g.kind? n = some (.leaf d) → HasMode d)
    (hpw : ∀ n, g.kind? n = some .sum → ∃ e ∈ g.outEdges n, 0 < linWeight e)
    {F : (Var → ℝ) → Node → ℝ} (hF : ∀ x, CircuitValue g (fun d => leafDensity d (x d.var)) (F x))
    (hdet : ∀ n, g.kind? n = some .sum → ∀ x, (g.succ n).Pairwise fun a c => F x a = 0 ∨ F x c = 0) (next : ℝ → Bool → ℝ) :
    ∃ val : Node → Event × LogP, ∀ n ∈ g.ids, Eval g (modeAlg next) n (val n) ∧ UnitMode F sym (sc n) n (val n) := by
  have : Nonempty (Event × LogP) := ⟨([], 0)⟩
  have hnn : ∀ x, ∀ n ∈ g.ids, 0 ≤ F x n := fun x => circuitValue_nonneg hw ha (hF x) fun n d h => by
    rw [← exp_logLik (hv n d h)]; exact LogP.exp_nonneg _
  refine exists_eval hw ha (P := fun n p => UnitMode F sym (sc n) n p) ?_
  intro n hn child hc
  obtain ⟨k, hk⟩ := exists_kind? hn
  cases k with
  | leaf d =>
    obtain ⟨A, l, h1, h2, h3⟩ := leaf_mode (hv n d hk) (hm n d hk) next (ht n d hk)
    refine ⟨([[(d.var, A)]], l), .leaf hk (by simp only [modeAlg, h1, bind, Except.bind]), ?_, h3.pos, ?_, ?_, ?_⟩
    · rw [hs.leaf n d hk]; exact leafEvent_good h2
    · intro x; rw [(hF x).leaf n d hk]; exact h3.le _
    · intro x; rw [mem_leafEvent, (hF x).leaf n d hk]; exact h3.mem _
    · obtain ⟨y, hy⟩ := h3.ne; exact ⟨fun _ => y, mem_leafEvent.2 hy⟩
  | sum =>
    have hne : g.outEdges n ≠ [] := fun h => hs.sumNe n hk (by unfold succ; rw [h]; rfl)
    let T := (g.outEdges n).map fun e => (e.weight.getD 0, child e.dst)
    have hlin : ∀ e ∈ g.outEdges n, linWeight e = (e.weight.getD 0).exp := by
      intro e he
      obtain ⟨w, hw'⟩ := Option.isSome_iff_exists.1 (hwt n hk e he)
      simp [linWeight, hw']
    obtain ⟨M, hM1, hM2, hM3⟩ := LogP.maxOf_spec (l := T.map fun wv => wv.1 + wv.2.2) (by simp [T, hne])
    have hMe : ∀ e ∈ g.outEdges n, linWeight e * (child e.dst).2.exp ≤ M.exp := by
      intro e he
      rw [hlin e he, ← LogP.exp_add]
      exact hM3 _ (List.mem_map.2 ⟨_, List.mem_map.2 ⟨e, he, rfl⟩, rfl⟩)
    have hU : ∀ e ∈ g.outEdges n, UnitMode F sym (sc e.dst) e.dst (child e.dst) := fun e he => (hc _ (dst_mem_succ he)).2
    have hMpos : 0 < M.exp := by
      obtain ⟨e, he, hpos⟩ := hpw n hk
      exact lt_of_lt_of_le (mul_pos hpos (hU e he).pos) (hMe e he)
    -- the maximal summands
    let B := (T.filter fun wv => wv.1 + wv.2.2 = M).map fun wv => wv.2.1
    have hB : ∀ b, b ∈ B ↔ ∃ e ∈ g.outEdges n, (e.weight.getD 0) + (child e.dst).2 = M ∧ (child e.dst).1 = b := by
      intro b
      simp only [B, T, List.mem_map, List.mem_filter, decide_eq_true_eq]
      constructor
      · rintro ⟨wv, ⟨⟨e, he, rfl⟩, h⟩, rfl⟩; exact ⟨e, he, h, rfl⟩
      · rintro ⟨e, he, h, rfl⟩; exact ⟨_, ⟨⟨e, he, rfl⟩, h⟩, rfl⟩
    have hBne : B ≠ [] := by
      obtain ⟨wv, h1, h2⟩ := List.mem_map.1 hM2
      obtain ⟨e, he, rfl⟩ := List.mem_map.1 h1
      exact List.ne_nil_of_mem ((hB _).2 ⟨e, he, h2, rfl⟩)
    obtain ⟨b, l, hbl⟩ := List.exists_cons_of_ne_nil hBne
    have hgood : ∀ c ∈ B, c.Good sym (sc n) := by
      intro c hcB
      obtain ⟨e, he, _, rfl⟩ := (hB c).1 hcB
      rw [← hs.sum n hk _ (dst_mem_succ he)]
      exact (hU e he).good
    obtain ⟨h1, h2⟩ := foldl_union_good (sym := sym) (V := sc n) l b (hgood b (by rw [hbl]; simp))
      fun c hcl => hgood c (by rw [hbl]; exact List.mem_cons_of_mem _ hcl)
    have hmemB : ∀ x, (l.foldl Event.union b).Mem x ↔ ∃ e ∈ g.outEdges n, (e.weight.getD 0) + (child e.dst).2 = M ∧ F x e.dst = (child e.dst).2.exp := by
      intro x
      have : (l.foldl Event.union b).Mem x ↔ ∃ c ∈ B, c.Mem x := by rw [h2, hbl]; simp
      rw [this]
      constructor
      · rintro ⟨c, hcB, hx⟩
        obtain ⟨e, he, h, rfl⟩ := (hB c).1 hcB
        exact ⟨e, he, h, ((hU e he).mem x).1 hx⟩
      · rintro ⟨e, he, h, hx⟩
        exact ⟨_, (hB _).2 ⟨e, he, h, rfl⟩, ((hU e he).mem x).2 hx⟩
    -- the value of a sum unit is one of its summands
    have hpair : ∀ x, (g.outEdges n).Pairwise fun a c => linWeight a * F x a.dst = 0 ∨ linWeight c * F x c.dst = 0 := by
      intro x
      have := hdet n hk x
      unfold succ at this
      rw [List.pairwise_map] at this
      refine this.imp ?_
      rintro a c (h | h)
      · exact .inl (by rw [h, mul_zero])
      · exact .inr (by rw [h, mul_zero])
    have hval : ∀ x, F x n = 0 ∨ ∃ e ∈ g.outEdges n, F x n = linWeight e * F x e.dst ∧ F x n ≠ 0 := by
      intro x
      by_cases h0 : F x n = 0
      · exact .inl h0
      · right
        by_cases hall : ∀ e ∈ g.outEdges n, linWeight e * F x e.dst = 0
        · refine absurd ?_ h0
          rw [(hF x).sum n hk]
          exact List.sum_eq_zero fun y hy => by
            obtain ⟨e, he, rfl⟩ := List.mem_map.1 hy
            exact hall e he
        · push Not at hall
          obtain ⟨e, he, hne⟩ := hall
          refine ⟨e, he, ?_, h0⟩
          rw [(hF x).sum n hk]
          exact sum_one_nonzero (hpair x) e he hne
    have hsummand : ∀ x, ∀ e ∈ g.outEdges n, linWeight e * F x e.dst ≤ linWeight e * (child e.dst).2.exp := fun x e he =>
      mul_le_mul_of_nonneg_left ((hU e he).le x) (linWeight_nonneg e)
    refine ⟨(l.foldl Event.union b, M), .sum child hk (fun c h => (hc c h).1) (hwt n hk) ?_, h1, hMpos, ?_, ?_, ?_⟩
    · show (do
        let M ← LogP.maxOf (T.map fun wv : LogP × Event × LogP => wv.1 + wv.2.2)
        let E ← unionAll ((T.filter fun wv : LogP × Event × LogP => wv.1 + wv.2.2 = M).map fun wv : LogP × Event × LogP => wv.2.1)
        Except.ok (E, M)) = _
      rw [hM1]
      simp only [bind, Except.bind]
      have hun : unionAll B = .ok (l.foldl Event.union b) := by rw [hbl]; rfl
      simp only [B] at hun
      rw [hun]
    · intro x
      rcases hval x with h | ⟨e, he, h, _⟩
      · rw [h]; exact hMpos.le
      · rw [h]; exact (hsummand x e he).trans (hMe e he)
    · intro x
      rw [hmemB]
      constructor
      · rintro ⟨e, he, h, hx⟩
        have hve : linWeight e * F x e.dst = M.exp := by rw [hx, hlin e he, ← LogP.exp_add, h]
        rw [(hF x).sum n hk, sum_one_nonzero (hpair x) e he (by rw [hve]; exact hMpos.ne'), hve]
      · intro h
        rcases hval x with h0 | ⟨e, he, hv', _⟩
        · rw [h0] at h; exact absurd h hMpos.ne
        · have e1 : linWeight e * F x e.dst = M.exp := by rw [← hv']; exact h
          have e2 : linWeight e * (child e.dst).2.exp = M.exp := le_antisymm (hMe e he) (e1 ▸ hsummand x e he)
          have hw0 : linWeight e ≠ 0 := fun h0 => by rw [h0, zero_mul] at e1; exact hMpos.ne e1
          refine ⟨e, he, LogP.exp_inj (by rw [LogP.exp_add, ← hlin e he, e2]), mul_left_cancel₀ hw0 (e1.trans e2.symm)⟩
    · obtain ⟨wv, k1, k2⟩ := List.mem_map.1 hM2
      obtain ⟨e, he, rfl⟩ := List.mem_map.1 k1
      obtain ⟨x, hx⟩ := (hU e he).ne
      exact ⟨x, (hmemB x).2 ⟨e, he, k2, ((hU e he).mem x).1 hx⟩⟩
  | prod =>
    obtain ⟨a, l, hal⟩ := List.exists_cons_of_ne_nil (hp n hk)
    have hU : ∀ c ∈ g.succ n, UnitMode F sym (sc c) c (child c) := fun c h => (hc c h).2
    have hsub : ∀ c ∈ g.succ n, sc c ⊆ sc n := fun c h v hv => (hs.prod n hk v).2 ⟨c, h, hv⟩
    have hmema : a ∈ g.succ n := by rw [hal]; simp
    have hmeml : ∀ c ∈ l, c ∈ g.succ n := fun c h => by rw [hal]; exact List.mem_cons_of_mem _ h
    obtain ⟨h1, h2, h3⟩ := prod_fold_mode (F := F) (sym := sym) (V := sc n) (child := child) l (child a)
      ((hU a hmema).good.mono (hsub a hmema)) fun c h => (hU c (hmeml c h)).good.mono (hsub c (hmeml c h))
    have hFn : ∀ x, F x n = ((g.succ n).map fun c => F x c).prod := fun x => by
      rw [(hF x).prod n hk]; unfold succ; rw [List.map_map]; rfl
    have hL : ((l.map child).foldl (fun acc b => (acc.1.inter b.1, acc.2 + b.2)) (child a)).2.exp =
        ((g.succ n).map fun c => (child c).2.exp).prod := by rw [h3, hal]; simp
    have hcmp := fun x => prod_le_prod_list (l := g.succ n) (f := fun c => F x c) (g := fun c => (child c).2.exp)
      fun c h => ⟨hnn x c (succ_mem_ids hw h), (hU c h).le x, (hU c h).pos⟩
    have hmem : ∀ x, ((l.map child).foldl (fun acc b => (acc.1.inter b.1, acc.2 + b.2)) (child a)).1.Mem x ↔
        ∀ c ∈ g.succ n, F x c = (child c).2.exp := by
      intro x
      rw [h2, hal, List.forall_mem_cons, (hU a hmema).mem]
      exact and_congr_right fun _ => forall_congr' fun c => imp_congr_right fun h => (hU c (hmeml c h)).mem x
    refine ⟨_, .prod child hk (fun c h => (hc c h).1) (by rw [hal, List.map_cons]; rfl), h1, ?_, ?_, ?_, ?_⟩
    · rw [hL]; exact (hcmp fun _ => 0).2.2.1
    · intro x; rw [hL, hFn]; exact (hcmp x).2.1
    · intro x; rw [hmem, hL, hFn, (hcmp x).2.2.2]
    · have hpt : ∀ c : Node, ∃ x : Var → ℝ, c ∈ g.succ n → (child c).1.Mem x := by
        intro c
        by_cases h : c ∈ g.succ n
        · obtain ⟨x, hx⟩ := (hU c h).ne
          exact ⟨x, fun _ => hx⟩
        · exact ⟨fun _ => 0, fun h' => absurd h' h⟩
      choose pt hpt using hpt
      obtain ⟨x, hx⟩ := exists_glue pt (g.succ n) (hdec n hk)
      refine ⟨x, (hmem x).2 fun c h => ?_⟩
      rw [cv_dependsOn hw ha hs hF c (succ_mem_ids hw h) x (pt c) (hx c h)]
      exact ((hU c h).mem _).1 (hpt c h)

end Graph
end PM
