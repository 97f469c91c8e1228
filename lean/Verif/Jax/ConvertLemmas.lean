import Mathlib.Data.Finset.Sort
import Mathlib.Algebra.BigOperators.Group.List.Basic
import Verif.Spec.Convert
import Verif.Spec.Integral
import Verif.Jax.LayersLemmas
import Verif.Circuit.ValueLemmas

/-! Helper lemmas about the conversion to layers; the property theorems are in `Verif/Props/Convert.lean`. -/

namespace PM.Jax
open Graph Spec Classical

/-! ### Lists -/

/-- The block of row `i`. -/
theorem filter_rows {α β : Type} (B : α → List β) (l : List α) (k i : ℕ) (hk : k ≤ i) (h : i - k < l.length) :
    ((l.zipIdx k).flatMap fun p => (B p.1).map (Prod.mk p.2)).filter (fun e => e.1 == i) = (B l[i - k]).map (Prod.mk i) := by
  induction l generalizing k with
  | nil => simp at h
  | cons x l ih =>
    rw [List.zipIdx_cons, List.flatMap_cons, List.filter_append]
    have hrest : ∀ (l : List α) (k' : ℕ), i < k' →
        ((l.zipIdx k').flatMap fun p => (B p.1).map (Prod.mk p.2)).filter (fun e => e.1 == i) = [] := by
      intro l k' hk'
      rw [List.filter_eq_nil_iff]
      rintro ⟨j, b⟩ hb
      obtain ⟨⟨y, j'⟩, hy, hb'⟩ := List.mem_flatMap.1 hb
      obtain ⟨b', -, h'⟩ := List.mem_map.1 hb'
      have := (List.mem_zipIdx hy).1
      simp only [Prod.mk.injEq] at h'
      simp only [beq_iff_eq]
      omega
    rcases Nat.eq_or_lt_of_le hk with rfl | hlt
    · rw [hrest l (k + 1) (by omega), List.append_nil]
      simp only [Nat.sub_self, List.getElem_cons_zero]
      rw [List.filter_eq_self]
      simp
    · have h0 : ((B x).map (Prod.mk k)).filter (fun e => e.1 == i) = [] := by
        rw [List.filter_eq_nil_iff]
        simp only [List.mem_map, forall_exists_index, and_imp, forall_apply_eq_imp_iff₂, beq_iff_eq]
        omega
      rw [h0, List.nil_append, ih (k + 1) (by omega) (by simp at h; omega)]
      have : i - k = (i - (k + 1)) + 1 := by omega
      simp only [this, List.getElem_cons_succ]

theorem filter_rows' {α β : Type} (B : α → List β) (l : List α) {i : ℕ} (h : i < l.length) :
    (l.zipIdx.flatMap fun p => (B p.1).map (Prod.mk p.2)).filter (fun e => e.1 == i) = (B l[i]).map (Prod.mk i) :=
  filter_rows B l 0 i (by omega) (by omega)

@[to_additive]
theorem single_prod {γ M : Type} [CommMonoid M] (cs : List γ) (p : γ → Prop) [DecidablePred p] (y : M)
    (hd : cs.Pairwise fun c c' => p c → ¬ p c')
    (hc : ∃ c ∈ cs, p c) : (cs.map fun c => if p c then y else 1).prod = y := by
  obtain ⟨c, hc, hp⟩ := hc
  induction cs with
  | nil => simp at hc
  | cons c' cs ih =>
    rw [List.pairwise_cons] at hd
    rw [List.map_cons, List.prod_cons]
    by_cases hp' : p c'
    · rw [if_pos hp', List.prod_eq_one, mul_one]
      intro z hz
      obtain ⟨c'', hc'', rfl⟩ := List.mem_map.1 hz
      rw [if_neg (hd.1 c'' hc'' hp')]
    · rw [if_neg hp', one_mul]
      rcases List.mem_cons.1 hc with rfl | hc
      · exact absurd hp hp'
      · exact ih hd.2 hc

/-- Splitting a product along a partition of the factors. -/
@[to_additive /-- Splitting a sum along a partition of the terms. -/]
theorem partition_prod {γ δ M : Type} [CommMonoid M] (cs : List γ) (E : List δ) (p : γ → δ → Prop)
    [∀ c, DecidablePred (p c)] (φ : δ → M)
    (hd : ∀ e ∈ E, cs.Pairwise fun c c' => p c e → ¬ p c' e) (hc : ∀ e ∈ E, ∃ c ∈ cs, p c e) :
    (cs.map fun c => ((E.filter fun e => p c e).map φ).prod).prod = (E.map φ).prod := by
  induction E with
  | nil => simp
  | cons e E ih =>
    have hone := single_prod cs (fun c => p c e) (φ e) (hd e (by simp)) (hc e (by simp))
    rw [List.map_cons, List.prod_cons, ← ih (fun e he => hd e (by simp [he])) (fun e he => hc e (by simp [he])), ← hone,
      ← List.prod_map_mul]
    congr 1
    apply List.map_congr_left
    intro c _
    by_cases h : p c e
    · rw [List.filter_cons_of_pos (by simpa using h), List.map_cons, List.prod_cons, if_pos h]
    · rw [List.filter_cons_of_neg (by simpa using h), if_neg h, one_mul]

theorem layerValues_map (a : ℕ → ℝ) (cs : List Layer) : layerValues a cs = cs.map (layerValue a) := by
  induction cs with
  | nil => rfl
  | cons c cs ih => rw [layerValues, ih, List.map_cons]

theorem mem_allVariables {i : ℕ} (cs : List Layer) : i ∈ allVariables cs ↔ ∃ c ∈ cs, i ∈ c.variables := by
  induction cs with
  | nil => simp [allVariables]
  | cons c cs ih => simp [allVariables, ih]

theorem getD_idxOf_map {l : List Node} {f : Node → ℝ} {n : Node} (h : n ∈ l) : (l.map f).getD (l.idxOf n) 0 = f n := by
  have hlt := List.idxOf_lt_length_of_mem h
  rw [List.getD_eq_getElem _ _ (by simpa using hlt), List.getElem_map, List.getElem_idxOf]

/-! ### Indices of variables -/

/-- The indices of the variables `s` among all variables `V`. -/
noncomputable def indicesOf (V s : Finset Var) : List ℕ := (s.sort (· ≤ ·)).map fun v => (V.sort (· ≤ ·)).idxOf v

theorem indicesOf_back {V s : Finset Var} (h : s ⊆ V) :
    (indicesOf V s).map (fun i => (V.sort (· ≤ ·)).getD i 0) = s.sort (· ≤ ·) := by
  rw [indicesOf, List.map_map]
  conv_rhs => rw [← List.map_id (s.sort (· ≤ ·))]
  apply List.map_congr_left
  intro v hv
  have hv' : v ∈ V.sort (· ≤ ·) := (Finset.mem_sort _).2 (h ((Finset.mem_sort _).1 hv))
  have hlt := List.idxOf_lt_length_of_mem hv'
  simp only [Function.comp, id]
  rw [List.getD_eq_getElem _ _ hlt, List.getElem_idxOf]

theorem indicesOf_toFinset {V s : Finset Var} (h : s ⊆ V) :
    ((indicesOf V s).map fun i => (V.sort (· ≤ ·)).getD i 0).toFinset = s := by
  rw [indicesOf_back h]
  exact Finset.sort_toFinset _ _

theorem indicesOf_inj {V s t : Finset Var} (hs : s ⊆ V) (ht : t ⊆ V) : indicesOf V s = indicesOf V t ↔ s = t := by
  refine ⟨fun h => ?_, fun h => by rw [h]⟩
  rw [← indicesOf_toFinset hs, h, indicesOf_toFinset ht]

theorem indicesOf_length (V s : Finset Var) : (indicesOf V s).length = s.card := by simp [indicesOf]

theorem idxOf_lt_of_lt {V : Finset Var} {v w : Var} (hv : v ∈ V) (hw : w ∈ V) (h : v < w) :
    (V.sort (· ≤ ·)).idxOf v < (V.sort (· ≤ ·)).idxOf w := by
  have hs : (V.sort (· ≤ ·)).Pairwise (· < ·) := (Finset.sortedLT_sort V).pairwise
  have hv' : v ∈ V.sort (· ≤ ·) := (Finset.mem_sort _).2 hv
  have hw' : w ∈ V.sort (· ≤ ·) := (Finset.mem_sort _).2 hw
  have h1 := List.idxOf_lt_length_of_mem hv'
  have h2 := List.idxOf_lt_length_of_mem hw'
  by_contra hn
  rcases Nat.eq_or_lt_of_le (not_lt.1 hn) with heq | hlt
  · have := List.getElem_idxOf h1
    have h3 := List.getElem_idxOf h2
    simp only [heq] at h3
    rw [this] at h3
    exact absurd h3 (ne_of_lt h)
  · have := List.pairwise_iff_getElem.1 hs _ _ h2 h1 hlt
    rw [List.getElem_idxOf, List.getElem_idxOf] at this
    exact absurd this (not_lt.2 (le_of_lt h))

theorem indicesOf_sorted {V s : Finset Var} (h : s ⊆ V) : (indicesOf V s).Pairwise (· < ·) := by
  have hs : (s.sort (· ≤ ·)).Pairwise (· < ·) := (Finset.sortedLT_sort s).pairwise
  rw [indicesOf, List.pairwise_map]
  refine hs.imp_of_mem ?_
  intro v w hv hw hvw
  exact idxOf_lt_of_lt (h ((Finset.mem_sort _).1 hv)) (h ((Finset.mem_sort _).1 hw)) hvw

theorem mem_indicesOf {V s : Finset Var} {i : ℕ} : i ∈ indicesOf V s ↔ ∃ v ∈ s, (V.sort (· ≤ ·)).idxOf v = i := by
  simp [indicesOf]

theorem indicesOf_initial {V s : Finset Var} (h : s ⊆ V) (hi : ∀ v ∈ s, ∀ w ∈ V, w < v → w ∈ s) :
    indicesOf V s = List.range s.card := by
  have hsplit : V.sort (· ≤ ·) = s.sort (· ≤ ·) ++ (V \ s).sort (· ≤ ·) := by
    apply List.Perm.eq_of_pairwise' (r := (· ≤ ·))
    · exact Finset.pairwise_sort _ _
    · rw [List.pairwise_append]
      refine ⟨Finset.pairwise_sort _ _, Finset.pairwise_sort _ _, ?_⟩
      intro a ha b hb
      have ha' := (Finset.mem_sort _).1 ha
      obtain ⟨hb1, hb2⟩ := Finset.mem_sdiff.1 ((Finset.mem_sort _).1 hb)
      by_contra hab
      exact hb2 (hi a ha' b hb1 (not_le.1 hab))
    · rw [List.perm_ext_iff_of_nodup (Finset.sort_nodup _ _)]
      · intro v
        simp only [List.mem_append, Finset.mem_sort, Finset.mem_sdiff]
        constructor
        · intro hv
          by_cases hvs : v ∈ s
          · exact Or.inl hvs
          · exact Or.inr ⟨hv, hvs⟩
        · rintro (hv | hv)
          · exact h hv
          · exact hv.1
      · rw [List.nodup_append]
        refine ⟨Finset.sort_nodup _ _, Finset.sort_nodup _ _, ?_⟩
        rintro a ha b hb rfl
        exact (Finset.mem_sdiff.1 ((Finset.mem_sort _).1 hb)).2 ((Finset.mem_sort _).1 ha)
  rw [indicesOf, hsplit]
  apply List.ext_getElem (by simp)
  intro i h1 h2
  have hi' : i < (s.sort (· ≤ ·)).length := by simpa using h1
  rw [List.getElem_map, List.getElem_range, List.idxOf_append_of_mem (List.getElem_mem _)]
  exact (Finset.sort_nodup s (· ≤ ·)).idxOf_getElem i hi'

theorem sameVariables_indices {V s t : Finset Var} (hs : s ⊆ V) (ht : t ⊆ V) (ns : s.Nonempty) (nt : t.Nonempty)
    (hc : t.card = s.card ∨ t.card = 1 ∨ s.card = 1) : sameVariables (indicesOf V t) (indicesOf V s) = .ok (decide (t = s)) := by
  have all_ne : ∀ (l : List ℕ) (x : ℕ), l.Nodup → 1 < l.length → (l.all fun y => y == x) = false := by
    intro l x hn hl
    match l, hn, hl with
    | y :: z :: l, hn, _ =>
      simp only [List.nodup_cons, List.mem_cons, not_or] at hn
      by_contra hall
      simp only [Bool.not_eq_false, List.all_eq_true, beq_iff_eq] at hall
      exact hn.1.1 ((hall y (by simp)).trans (hall z (by simp)).symm)
  have ls := indicesOf_length V s
  have lt := indicesOf_length V t
  have ds : (indicesOf V s).Nodup := (indicesOf_sorted hs).imp (fun h => ne_of_lt h)
  have dt : (indicesOf V t).Nodup := (indicesOf_sorted ht).imp (fun h => ne_of_lt h)
  have ps := ns.card_pos
  have pt := nt.card_pos
  unfold sameVariables
  by_cases he : t.card = s.card
  · rw [if_pos (by rw [ls, lt, he])]
    congr 1
    rw [Bool.eq_iff_iff]
    simp [indicesOf_inj ht hs]
  · rw [if_neg (by rw [ls, lt]; exact he)]
    have hne : t ≠ s := fun h => he (by rw [h])
    rcases hc with h | h | h
    · exact absurd h he
    · obtain ⟨x, hx⟩ := List.length_eq_one_iff.1 (lt.trans h)
      rw [hx]
      simp only
      rw [all_ne _ _ ds (by omega)]
      simp [hne]
    · obtain ⟨x, hx⟩ := List.length_eq_one_iff.1 (ls.trans h)
      rw [hx]
      split
      · rename_i y heq
        have := congrArg List.length heq
        rw [lt] at this
        simp at this
        omega
      · rename_i y z heq hz
        rw [all_ne _ _ dt (by omega)]
        simp [hne]
      · rename_i h1 h2
        exact absurd rfl (h2 x)

/-! ### Leaves -/

theorem stateRow_fold {k : ℕ} : ∀ (probs : List (ℤ × ℝ)) (row : List ℝ), row.length = k → (probs.map Prod.fst).Nodup →
    (∀ kp ∈ probs, 0 ≤ kp.1 ∧ kp.1 < k) → ∃ row', probs.foldlM (fun row kp =>
      let i : ℤ := if kp.1 < 0 then kp.1 + k else kp.1
      if 0 ≤ i ∧ i < k then (.ok (row.set i.toNat kp.2) : Except PyErr (List ℝ)) else .error .indexError) row = .ok row' ∧
      row'.length = k ∧ ∀ j < k, row'.getD j 0 =
        if (j : ℤ) ∈ probs.map Prod.fst then ((probs.filter fun kp => kp.1 = (j : ℤ)).map Prod.snd).sum else row.getD j 0
  | [], row, hl, _, _ => ⟨row, rfl, hl, by simp⟩
  | kp :: probs, row, hl, hn, hk => by
    obtain ⟨h0, h1⟩ := hk kp (by simp)
    simp only [List.map_cons, List.nodup_cons] at hn
    obtain ⟨row', hr, hl', hv⟩ := stateRow_fold probs (row.set kp.1.toNat kp.2) (by simpa using hl) hn.2
      (fun q hq => hk q (by simp [hq]))
    refine ⟨row', ?_, hl', ?_⟩
    · rw [List.foldlM_cons]
      simp only [not_lt.2 h0, if_false, h0, h1, and_self, if_true, bind, Except.bind]
      exact hr
    · intro j hj
      rw [hv j hj]
      by_cases hjk : kp.1 = (j : ℤ)
      · have hnot : (j : ℤ) ∉ probs.map Prod.fst := by rw [← hjk]; exact hn.1
        have hnil : (probs.filter fun q => q.1 = (j : ℤ)) = [] := by
          rw [List.filter_eq_nil_iff]
          intro q hq
          simp only [decide_eq_true_eq]
          exact fun h => hnot (List.mem_map.2 ⟨q, hq, h⟩)
        rw [if_neg hnot, if_pos (by simp [hjk]), List.filter_cons_of_pos (by simpa using hjk), hnil, hjk, Int.toNat_natCast,
          List.getD_eq_getElem _ _ (by simpa [hl] using hj)]
        simp
      · have hne : kp.1.toNat ≠ j := by omega
        have hne' : ¬ (j : ℤ) = kp.1 := fun h => hjk h.symm
        have hset : (row.set kp.1.toNat kp.2).getD j 0 = row.getD j 0 := by
          rw [List.getD_eq_getElem _ _ (by simpa [hl] using hj), List.getD_eq_getElem _ _ (by simpa [hl] using hj),
            List.getElem_set_ne hne]
        rw [List.filter_cons_of_neg (by simpa using hjk), hset]
        simp only [List.map_cons, List.mem_cons, hne', false_or]

theorem stateRow_spec {k : ℕ} {probs : List (ℤ × ℝ)} (hn : (probs.map Prod.fst).Nodup) (hk : ∀ kp ∈ probs, 0 ≤ kp.1 ∧ kp.1 < k) :
    stateRow k probs = .ok ((List.range k).map fun j : ℕ => ((probs.filter fun kp => kp.1 = (j : ℤ)).map Prod.snd).sum) := by
  obtain ⟨row', hr, hl, hv⟩ := stateRow_fold probs (List.replicate k 0) (by simp) hn hk
  rw [stateRow, hr]
  congr 1
  apply List.ext_getElem (by simpa using hl)
  intro j h1 h2
  have hj : j < k := by rw [← hl]; exact h1
  have := hv j hj
  rw [List.getD_eq_getElem _ _ h1] at this
  rw [this, List.getElem_map, List.getElem_range]
  by_cases h : (j : ℤ) ∈ probs.map Prod.fst
  · rw [if_pos h]
  · rw [if_neg h]
    have hnil : (probs.filter fun q => q.1 = (j : ℤ)) = [] := by
      rw [List.filter_eq_nil_iff]
      intro q hq
      simp only [decide_eq_true_eq]
      exact fun h' => h (List.mem_map.2 ⟨q, hq, h'⟩)
    rw [hnil, List.getD_eq_getElem _ _ (by simpa using hj)]
    simp

theorem stateIndex_nat {k j : ℕ} (h : j < k) : stateIndex k (j : ℝ) = j := by
  have h0 : (0 : ℝ) ≤ j := Nat.cast_nonneg j
  simp only [stateIndex, h0, if_true, Int.floor_natCast]
  rw [if_neg (by omega), Int.toNat_natCast]
  omega

theorem gaussian_layer {μ σ : ℝ} (h : 0 < σ) (y : ℝ) : (InputNode.logDensity (.gaussian μ (Real.log σ) (1 / 100)) y).exp
    = ProbabilityTheory.gaussianPDFReal μ (Real.toNNReal ((σ + 1 / 100) ^ 2)) y := by
  simp only [InputNode.logDensity, scale, Real.exp_log h]
  rw [LogP.exp_log (ProbabilityTheory.gaussianPDFReal_nonneg _ _ _)]
  congr 1
  exact NNReal.coe_injective (by rw [Real.coe_toNNReal _ (sq_nonneg _)]; rfl)

theorem layerDensity_uniform (env : Env) (v : Var) (lo hi : ℝ) (l r : Bound) (y : ℝ) :
    layerDensity env (.uniform v lo hi l r) y =
      if (if l = .closed then env.below lo else lo) < y ∧ y < (if r = .closed then env.above hi else hi) then
        1 / ((if r = .closed then env.above hi else hi) - (if l = .closed then env.below lo else lo)) else 0 := by
  cases l <;> cases r <;> simp [layerDensity]

theorem inputNode_spec {env : Env} {d : Leaf} (hv : d.Valid) (hc : LayerLeaf env d) :
    ∃ F, inputNode env d = .ok F ∧ ∀ y : ℝ, (∀ v probs, d = .symbolic v probs → ∃ j < env.states v, y = (j : ℝ)) →
      (F y).exp = layerDensity env d y := by
  cases d with
  | uniform v lo hi l r =>
    obtain ⟨hl, hr⟩ := hc
    have hlt : lo < hi := hv
    have hlt' : (if l = .closed then env.below lo else lo) < (if r = .closed then env.above hi else hi) := by
      refine lt_of_le_of_lt ?_ (hlt.trans_le ?_)
      · split
        · exact hl (by assumption)
        · exact le_rfl
      · split
        · exact hr (by assumption)
        · exact le_rfl
    refine ⟨_, rfl, fun y _ => ?_⟩
    rw [layerDensity_uniform]
    simp only [InputNode.logDensity]
    generalize (if l = .closed then env.below lo else lo) = a at hlt' ⊢
    generalize (if r = .closed then env.above hi else hi) = b at hlt' ⊢
    split
    · rw [LogP.exp_fin, Real.exp_neg, Real.exp_log (by linarith), one_div]
    · rw [LogP.exp_negInf]
  | dirac v loc cap =>
    refine ⟨_, rfl, fun y _ => ?_⟩
    have hcap : 0 < cap := hv
    simp only [layerDensity, leafDensity, InputNode.logDensity]
    by_cases h : y = loc
    · rw [if_pos h, if_pos h, LogP.exp_log hcap.le]
    · rw [if_neg h, if_neg h, LogP.exp_negInf]
  | symbolic v probs =>
    obtain ⟨hp, hnd⟩ := hv
    obtain ⟨hsum, hk⟩ := hc
    set row := (List.range (env.states v)).map fun j : ℕ => ((probs.filter fun kp => kp.1 = (j : ℤ)).map Prod.snd).sum with hrow
    have hr := stateRow_spec hnd hk
    refine ⟨.discrete (row.map LogP.log), ?_, ?_⟩
    · simp only [inputNode, bind, Except.bind, hr]
      rfl
    · intro y hy
      obtain ⟨j, hj, rfl⟩ := hy v probs rfl
      have hnn : ∀ z ∈ row, 0 ≤ z := by
        intro z hz
        obtain ⟨i, -, rfl⟩ := List.mem_map.1 hz
        apply List.sum_nonneg
        intro w hw
        obtain ⟨q, hq, rfl⟩ := List.mem_map.1 hw
        exact hp q (List.mem_of_mem_filter hq)
      have hlog : (row.map LogP.log).map LogP.exp = row := by
        rw [List.map_map]
        conv_rhs => rw [← List.map_id row]
        exact List.map_congr_left fun z hz => LogP.exp_log (hnn z hz)
      have hrs : row.sum = 1 := by
        rw [hrow, ← hsum]
        refine partition_sum (List.range (env.states v)) probs (fun (j : ℕ) kp => kp.1 = (j : ℤ)) Prod.snd ?_ ?_
        · intro kp _
          refine List.nodup_range.imp ?_
          intro a b hab h1 h2
          exact hab (by exact_mod_cast h1.symm.trans h2)
        · intro kp hkp
          obtain ⟨h0, h1⟩ := hk kp hkp
          exact ⟨kp.1.toNat, List.mem_range.2 (by omega), by omega⟩
      have hlse : (LogP.logsumexp (row.map LogP.log)).exp = 1 := by rw [LogP.exp_logsumexp, hlog, hrs]
      have hne : LogP.logsumexp (row.map LogP.log) ≠ .negInf := by
        intro h; rw [h] at hlse; simp at hlse
      have hlen : (row.map LogP.log).length = env.states v := by simp [hrow]
      simp only [InputNode.logDensity, hlen]
      rw [LogP.exp_sub hne, hlse, div_one, exp_getD, hlog, stateIndex_nat hj, hrow,
        List.getD_eq_getElem _ _ (by simpa using hj), List.getElem_map, List.getElem_range]
      simp only [layerDensity, leafDensity]
      congr 2
      apply List.filter_congr
      intro kp _
      simp only [decide_eq_decide]
      exact ⟨fun h => by rw [h]; simp, fun h => by exact_mod_cast h⟩
  | integer v probs => exact absurd hc (by simp [LayerLeaf])
  | gaussian v μ σ => exact ⟨_, rfl, fun y _ => gaussian_layer (show 0 < σ from hv) y⟩
  | truncGaussian v I μ σ => exact ⟨_, rfl, fun y _ => gaussian_layer hv.1 y⟩

end PM.Jax
