import Verif.Spec.JptMarginal
import Verif.Props.Jpt
import Verif.Circuit.Neat
import Verif.Circuit.ProbLemmas

/-! Helper lemmas about the distribution of one variable of a learned tree. -/

namespace PM.Learn.Jpt
open Spec Graph Classical MeasureTheory

theorem Denotes_congr_leaves {g : Circuit} {r : Node} {V : Finset Var} {F : (Leaf → ℝ) → ℝ} (h : Denotes g r V F) {ℓ ℓ' : Leaf → ℝ}
    (hl : ∀ n d, g.kind? n = some (.leaf d) → ℓ d = ℓ' d) : F ℓ = F ℓ' := by
  obtain ⟨f, hf⟩ := exists_circuitValue h.layered.graded.acyclic ℓ
  rw [← h.value _ f hf]
  refine h.value _ f ⟨fun n d hk => ?_, hf.sum, hf.prod⟩
  rw [hf.leaf n d hk, hl n d hk]

/-- The leaves of the distribution of a column. -/
def ColumnLeaf (c : Column) (d : Leaf) : Prop :=
  match c with
  | .continuous P => (∃ lo hi a b, d = .uniform P.var lo hi a b) ∨ ∃ x cap, d = .dirac P.var x cap
  | .symbolic v domain => ∃ probs : List (ℤ × ℝ), d = .symbolic v probs ∧ ∀ kp ∈ probs, kp.1 ∈ domain.map Prod.snd
  | .integer v => ∃ probs, d = .integer v probs
  | .other _ => False

theorem ColumnLeaf.var {c : Column} {d : Leaf} (h : ColumnLeaf c d) : d.var = columnVar c := by
  cases c with
  | continuous P => rcases h with ⟨_, _, _, _, rfl⟩ | ⟨_, _, rfl⟩ <;> rfl
  | symbolic v domain => obtain ⟨_, rfl, _⟩ := h; rfl
  | integer v => obtain ⟨_, rfl⟩ := h; rfl
  | other v => exact h.elim

theorem kind_newUnit_leaf {n m : Node} {d d' : Leaf} (h : (newUnit n (.leaf d) : Circuit).kind? m = some (.leaf d')) : d' = d :=
  leaves_newUnit (P := fun x => x = d) rfl m d' h

theorem column_leaves {cap : ℝ} {rows : List Row} (hne : rows ≠ []) {ci : Column × ℕ} (hci : ColumnFits rows ci) {g : Circuit} {r : Node}
    (h : columnCircuit cap rows ci.1 ci.2 = .ok (g, r)) :
    ∀ n d, g.kind? n = some (.leaf d) → ColumnLeaf ci.1 d ∧ ((∀ x ∈ rows, HashesToItself x ci) → d.Normalized) := by
  obtain ⟨c, i⟩ := ci
  intro n d hk
  cases c with
  | other v => exact hci.elim
  | integer v =>
    simp only [columnCircuit, Except.ok.injEq, Prod.mk.injEq] at h
    obtain ⟨rfl, rfl⟩ := h
    have hd := kind_newUnit_leaf hk
    subst hd
    refine ⟨⟨_, rfl⟩, fun hh => ?_⟩
    refine (Props.C32_fit_partial (by simpa using hne) ?_ ?_).2.2.1
    · intro hm
      obtain ⟨x, hx, hx1⟩ := List.mem_map.1 hm
      exact (hh x hx).1 hx1
    · intro v hv
      obtain ⟨x, hx, rfl⟩ := List.mem_map.1 hv
      exact (hh x hx).2
  | symbolic v domain =>
    obtain ⟨h1, h2, h3⟩ := hci
    obtain ⟨probs, e1, e2, e3, e4, e5, e6⟩ := Props.C32_fit_symbolic (data := rows.map fun x => x.int i) (by simpa using hne) h1 h2 (by
      intro w hw
      obtain ⟨x, hx, rfl⟩ := List.mem_map.1 hw
      exact h3 x hx)
    simp only [columnCircuit, e1, bind, Except.bind, Except.ok.injEq, Prod.mk.injEq] at h
    obtain ⟨rfl, rfl⟩ := h
    have hd := kind_newUnit_leaf hk
    subst hd
    exact ⟨⟨_, rfl, e6⟩, fun _ => e4⟩
  | continuous P =>
    set col := rows.map fun x => x.real i with hcol
    have hne' : col ≠ [] := by simpa [hcol] using hne
    by_cases h2 : ∃ x ∈ col, ∃ y ∈ col, x ≠ y
    · have hI : Props.FitInput P col none := ⟨hci.1, hci.2, h2, by simp⟩
      obtain ⟨E, hfit, hE, _, ch, hch, hperm, _⟩ := hI.result cap
      simp only [columnCircuit, bind, Except.bind] at h
      rw [← hcol, hfit] at h
      simp only [hE.layered.root, Except.ok.injEq, Prod.mk.injEq] at h
      obtain ⟨rfl, rfl⟩ := h
      obtain ⟨x, hx, _, rfl⟩ := hE.of_leaf hk
      obtain ⟨y, hy, rfl⟩ := List.mem_map.1 hx
      exact ⟨.inl ⟨_, _, _, _, rfl⟩, fun _ => trivial⟩
    · push Not at h2
      obtain ⟨a, ha⟩ := List.exists_mem_of_ne_nil _ hne'
      have hall : ∀ y ∈ col, y = a := fun y hy => h2 y hy a ha
      have hfit : Nyga.fit P cap col none = .ok (newUnit 0 (.leaf (.dirac P.var a cap))) := Props.fit_single hne' hall cap none
      simp only [columnCircuit, bind, Except.bind] at h
      rw [← hcol, hfit] at h
      simp only [(layered_newUnit 0 (Kind.leaf (Leaf.dirac P.var a cap))).root, Except.ok.injEq, Prod.mk.injEq] at h
      obtain ⟨rfl, rfl⟩ := h
      have hd := kind_newUnit_leaf hk
      subst hd
      exact ⟨.inr ⟨_, _, rfl⟩, fun _ => trivial⟩

/-! ### Frequencies -/

theorem keys_map_lookup {β : Type} (φ : ℤ → ℝ → β) : ∀ {probs : List (ℤ × ℝ)}, (probs.map Prod.fst).Nodup →
    (probs.map fun kp => φ kp.1 kp.2) = (probs.map Prod.fst).map fun k => φ k (Leaf.lookup probs k)
  | [], _ => rfl
  | q :: probs, h => by
    rw [List.map_cons, List.nodup_cons] at h
    have ih := keys_map_lookup φ h.2
    simp only [List.map_cons, PM.lookup_cons, if_true]
    rw [ih]
    congr 1
    refine List.map_congr_left fun k hk => ?_
    rw [if_neg]
    rintro rfl
    exact h.1 hk

/-- A fitted dictionary gives every set of keys its share of the data. -/
theorem sum_fitted {probs : List (ℤ × ℝ)} {data : List ℤ} {H : ℤ → ℤ} (hinj : ∀ v ∈ data, ∀ w ∈ data, H v = H w → v = w)
    (hnd : (probs.map Prod.fst).Nodup) (hkeys : ∀ k, k ∈ probs.map Prod.fst ↔ ∃ v ∈ data, H v = k)
    (hval : ∀ v ∈ data, Leaf.lookup probs (H v) = (data.count v : ℝ) / data.length) (p : ℤ → Prop) :
    (probs.map fun kp => if p kp.1 then kp.2 else 0).sum = (data.countP fun v => p (H v) : ℝ) / data.length := by
  rw [keys_map_lookup (fun k x => if p k then x else 0) hnd]
  have hperm : (probs.map Prod.fst).Perm (data.dedup.map H) := by
    rw [List.perm_ext_iff_of_nodup hnd]
    · intro k
      rw [hkeys, List.mem_map]
      simp
    · refine List.Nodup.map_on ?_ (List.nodup_dedup _)
      intro x hx y hy
      exact hinj x (List.mem_dedup.1 hx) y (List.mem_dedup.1 hy)
  rw [(hperm.map _).sum_eq, List.map_map]
  have h1 : data.dedup.map ((fun k => if p k then Leaf.lookup probs k else 0) ∘ H)
      = data.dedup.map fun v => (if p (H v) then (data.count v : ℝ) else 0) * (data.length : ℝ)⁻¹ := by
    refine List.map_congr_left fun v hv => ?_
    simp only [Function.comp]
    rw [hval v (List.mem_dedup.1 hv)]
    split
    · rw [div_eq_mul_inv]
    · rw [zero_mul]
  rw [h1, List.sum_map_mul_right, div_eq_mul_inv]
  congr 1
  rw [← List.sum_map_count_dedup_filter_eq_countP, Nat.cast_list_sum, List.map_map]
  generalize data.dedup = l
  induction l with
  | nil => simp
  | cons a l ih =>
    rw [List.map_cons, List.sum_cons, ih, List.filter_cons]
    by_cases ha : p (H a)
    · simp [ha]
    · simp [ha]

theorem keys_set {d : Dict ℤ ℝ} {k : ℤ} {v : ℝ} {j : ℤ} (h : j ∈ (Dict.set d k v).map Prod.fst) : j = k ∨ j ∈ d.map Prod.fst := by
  unfold Dict.set at h
  split at h
  · rw [List.map_map] at h
    obtain ⟨p, hp, rfl⟩ := List.mem_map.1 h
    simp only [Function.comp]
    split
    · exact .inl rfl
    · exact .inr (List.mem_map.2 ⟨p, hp, rfl⟩)
  · rw [List.map_append, List.mem_append] at h
    rcases h with h | h
    · exact .inr h
    · exact .inl (by simpa using h)

theorem keys_fitDiscrete {data : List ℤ} {k : ℤ} (h : k ∈ (Leaf.fitDiscrete data).map Prod.fst) : ∃ v ∈ data, pyHash v = k := by
  have key : ∀ (l : List (ℤ × ℕ)) (d : Dict ℤ ℝ),
      k ∈ (l.foldl (fun d vc => Dict.set d (pyHash vc.1) ((vc.2 : ℝ) / data.length)) d).map Prod.fst →
      (∃ vc ∈ l, pyHash vc.1 = k) ∨ k ∈ d.map Prod.fst := by
    intro l
    induction l with
    | nil => intro d h; exact .inr h
    | cons vc l ih =>
      intro d h
      rcases ih _ h with ⟨w, hw, hk⟩ | h
      · exact .inl ⟨w, List.mem_cons_of_mem _ hw, hk⟩
      · rcases keys_set h with rfl | h
        · exact .inl ⟨vc, List.mem_cons_self .., rfl⟩
        · exact .inr h
  rcases key _ _ h with ⟨vc, hvc, hk⟩ | h
  · exact ⟨vc.1, (mem_npUnique.1 hvc).1, hk⟩
  · simp at h

theorem discrete_real {probs : List (ℤ × ℝ)} (hp : ∀ kp ∈ probs, 0 ≤ kp.2) {A : Set ℝ} (hA : MeasurableSet A) :
    ((probs.map fun kp => ENNReal.ofReal kp.2 • Measure.dirac (kp.1 : ℝ)).sum).real A
      = (probs.map fun kp => if (kp.1 : ℝ) ∈ A then kp.2 else 0).sum := by
  rw [measureReal_def, discrete_law_apply probs hp hA, ENNReal.toReal_ofReal]
  · rfl
  · refine List.sum_nonneg ?_
    intro x hx
    obtain ⟨kp, hkp, rfl⟩ := List.mem_map.1 hx
    exact Set.indicator_nonneg (fun _ _ => hp kp hkp) _

/-- The distribution of a discrete column is the empirical one. -/
theorem column_frequency_set {cap : ℝ} {rows : List Row} (hne : rows ≠ []) {ci : Column × ℕ} (hci : ColumnFits rows ci)
    (hdis : IsDiscrete ci.1) (hh : ∀ x ∈ rows, HashesToItself x ci) {g : Circuit} {r : Node} {F : (Leaf → ℝ) → ℝ}
    (h : ColumnResult cap rows ci g r F) {U : Set ℝ} (hA : MeasurableSet U) :
    F (fun d => (leafLaw d).real U) = (rows.countP fun x => ∃ p : Var → ℝ, Agrees p x ci ∧ p (columnVar ci.1) ∈ U : ℝ) / rows.length := by
  obtain ⟨c, i⟩ := ci
  have hlen : (rows.map fun x => x.int i).length = rows.length := by simp
  cases c with
  | other v => exact hci.elim
  | continuous P => exact hdis.elim
  | integer v =>
    have heq := h.eq
    simp only [columnCircuit, Except.ok.injEq, Prod.mk.injEq] at heq
    obtain ⟨rfl, rfl⟩ := heq
    obtain ⟨f1, f2, f3, f4, f5⟩ := Props.C32_fit_partial (data := rows.map fun x => x.int i) (by simpa using hne) (by
      intro hm
      obtain ⟨x, hx, hx1⟩ := List.mem_map.1 hm
      exact (hh x hx).1 hx1) (by
      intro v hv
      obtain ⟨x, hx, rfl⟩ := List.mem_map.1 hv
      exact (hh x hx).2)
    obtain ⟨f, hf⟩ := exists_circuitValue h.denotes.layered.graded.acyclic (fun d => (leafLaw d).real U)
    rw [← h.denotes.value _ f hf, hf.leaf 0 _ (kind?_newUnit ..)]
    simp only [leafLaw]
    rw [discrete_real (fun kp hkp => (f2 kp hkp).le) hA]
    rw [sum_fitted (H := id) (fun _ _ _ _ h => h) f4 (by simpa using f5) (fun v _ => f1 v) (fun k => (k : ℝ) ∈ U), hlen,
      List.countP_map]
    congr 2
    refine List.countP_congr fun x _ => ?_
    refine Iff.trans (@decide_eq_true_iff _ (_)) (Iff.trans ?_ (@decide_eq_true_iff _ (_)).symm)
    simp only [Agrees, columnVar, id]
    constructor
    · intro h
      exact ⟨fun _ => (x.int i : ℝ), rfl, h⟩
    · rintro ⟨p, hp, hm⟩
      rw [hp] at hm
      exact hm
  | symbolic v domain =>
    obtain ⟨h1, h2, h3⟩ := hci
    have hin : ∀ w ∈ (rows.map fun x => x.int i), w ∈ domain.map Prod.fst := by
      intro w hw
      obtain ⟨x, hx, rfl⟩ := List.mem_map.1 hw
      exact h3 x hx
    obtain ⟨probs, e1, e2, e3, e4, e5, e6⟩ := Props.C32_fit_symbolic (data := rows.map fun x => x.int i) (by simpa using hne) h1 h2 hin
    have heq := h.eq
    simp only [columnCircuit, e1, bind, Except.bind, Except.ok.injEq, Prod.mk.injEq] at heq
    obtain ⟨rfl, rfl⟩ := heq
    obtain ⟨f, hf⟩ := exists_circuitValue h.denotes.layered.graded.acyclic (fun d => (leafLaw d).real U)
    rw [← h.denotes.value _ f hf, hf.leaf 0 _ (kind?_newUnit ..)]
    simp only [leafLaw]
    rw [discrete_real (fun kp hkp => (e3 kp hkp).le) hA]
    have hex : ∀ w, ∃ k, w ∈ domain.map Prod.fst → (w, k) ∈ domain := by
      intro w
      by_cases hw : w ∈ domain.map Prod.fst
      · obtain ⟨e, he, rfl⟩ := List.mem_map.1 hw
        exact ⟨e.2, fun _ => he⟩
      · exact ⟨0, fun h => absurd h hw⟩
    choose H hH using hex
    have hpos : ∀ w ∈ (rows.map fun x => x.int i), 0 < Leaf.lookup probs (H w) := by
      intro w hw
      rw [e2 _ (hH w (hin w hw))]
      have hc : 0 < ((rows.map fun x => x.int i).count w : ℝ) := by exact_mod_cast List.count_pos_iff.2 hw
      have hl : (0 : ℝ) < (rows.map fun x => x.int i).length := by exact_mod_cast List.length_pos_of_mem hw
      exact div_pos hc hl
    have huniq : ∀ e ∈ domain, e.2 = H e.1 := by
      intro e he
      have := List.inj_on_of_nodup_map h1 he (hH e.1 (List.mem_map.2 ⟨e, he, rfl⟩)) rfl
      exact congrArg Prod.snd this
    rw [sum_fitted (H := H) (data := rows.map fun x => x.int i) ?_ e5 ?_ (fun v hv => e2 _ (hH v (hin v hv))) (fun k => (k : ℝ) ∈ U), hlen,
      List.countP_map]
    · congr 2
      refine List.countP_congr fun x hx => ?_
      refine Iff.trans (@decide_eq_true_iff _ (_)) (Iff.trans ?_ (@decide_eq_true_iff _ (_)).symm)
      simp only [Agrees, columnVar]
      have hx' := hH _ (hin _ (List.mem_map.2 ⟨x, hx, rfl⟩))
      constructor
      · intro h
        exact ⟨fun _ => (H (x.int i) : ℝ), ⟨_, hx', rfl, rfl⟩, h⟩
      · rintro ⟨p, ⟨e, he, hex, hp⟩, hm⟩
        rw [hp, huniq e he, hex] at hm
        exact hm
    · intro a ha b hb hab
      have h4 := hH a (hin a ha)
      have h5 := hH b (hin b hb)
      have := List.inj_on_of_nodup_map h2 h4 h5 hab
      exact congrArg Prod.fst this
    · intro k
      constructor
      · intro hk
        obtain ⟨kp, hkp, rfl⟩ := List.mem_map.1 hk
        obtain ⟨e, he, hek⟩ := List.mem_map.1 (e6 kp hkp)
        have hl := PM.lookup_of_mem e5 hkp
        have hp := e3 kp hkp
        rw [← hl, ← hek, e2 e he] at hp
        have hc : (rows.map fun x => x.int i).count e.1 ≠ 0 := by
          intro h0
          rw [h0] at hp
          simp at hp
        refine ⟨e.1, List.count_pos_iff.1 (Nat.pos_of_ne_zero hc), ?_⟩
        rw [← huniq e he, hek]
      · rintro ⟨w, hw, rfl⟩
        by_contra hk
        exact (hpos w hw).ne' (PM.lookup_eq_zero hk)

theorem column_frequency {cap : ℝ} {rows : List Row} (hne : rows ≠ []) {ci : Column × ℕ} (hci : ColumnFits rows ci)
    (hdis : IsDiscrete ci.1) (hh : ∀ x ∈ rows, HashesToItself x ci) {g : Circuit} {r : Node} {F : (Leaf → ℝ) → ℝ}
    (h : ColumnResult cap rows ci g r F) (A : VSet) :
    F (fun d => (leafLaw d).real A.toSet) = relativeFrequency rows ci A :=
  column_frequency_set hne hci hdis hh h (VSet.measurableSet_toSet A)

/-! ### The range of a continuous column -/

theorem column_range {cap : ℝ} {rows : List Row} (hne : rows ≠ []) {P : Nyga.Params} {i : ℕ} (hci : ColumnFits rows (.continuous P, i))
    {g : Circuit} {r : Node} (h : columnCircuit cap rows (.continuous P) i = .ok (g, r)) {A : Set ℝ} (hA : MeasurableSet A)
    (hr : ∀ x ∈ rows, ∀ y ∈ rows, ∀ t, x.real i ≤ t → t ≤ y.real i → t ∈ A) :
    ∀ n d, g.kind? n = some (.leaf d) → leafLaw d Aᶜ = 0 := by
  intro n d hk
  set col := rows.map fun x => x.real i with hcol
  have hne' : col ≠ [] := by simpa [hcol] using hne
  have hr' : ∀ a ∈ col, ∀ b ∈ col, ∀ t, a ≤ t → t ≤ b → t ∈ A := by
    intro a ha b hb t h1 h2
    obtain ⟨x, hx, rfl⟩ := List.mem_map.1 ha
    obtain ⟨y, hy, rfl⟩ := List.mem_map.1 hb
    exact hr x hx y hy t h1 h2
  by_cases h2 : ∃ x ∈ col, ∃ y ∈ col, x ≠ y
  · have hI : Props.FitInput P col none := ⟨hci.1, hci.2, h2, by simp⟩
    obtain ⟨E, hfit, hE, _, ch, hch, hperm, _⟩ := hI.result cap
    obtain ⟨g', r', hfit', hL', _, _, _, hrange, _, _⟩ := Props.C39_fit hI cap
    simp only [columnCircuit, bind, Except.bind] at h
    rw [← hcol, hfit] at h
    simp only [hE.layered.root, Except.ok.injEq, Prod.mk.injEq] at h
    obtain ⟨rfl, rfl⟩ := h
    rw [hfit] at hfit'
    injection hfit' with hg
    subst hg
    have hr0 := hL'.root
    rw [hE.layered.root] at hr0
    injection hr0 with hr0
    subst hr0
    obtain ⟨x, hx, hxn, hxd⟩ := hE.of_leaf hk
    have hsucc : n ∈ (leafMix 0 (E.map fun x => Nyga.entry P.var ((npUnique col).map Prod.fst) (Nyga.weightsOf col none) x.1 x.2)).succ 0 := by
      rw [hE.succ]
      exact List.mem_map.2 ⟨x, hx, hxn⟩
    obtain ⟨y, hy, rfl⟩ := List.mem_map.1 hx
    obtain ⟨lo, hi, a, b, rfl⟩ : ∃ lo hi a b, d = .uniform P.var lo hi a b := ⟨_, _, _, _, hxd.symm⟩
    have hsub : ∀ t, t ∉ A → leafDensity (.uniform P.var lo hi a b) t = 0 := by
      intro t ht
      by_contra h0
      refine ht ?_
      have hmem : t ∈ intervalOf (leafMix 0 (E.map fun x => Nyga.entry P.var ((npUnique col).map Prod.fst) (Nyga.weightsOf col none) x.1 x.2)) n := by
        simp only [leafDensity] at h0
        by_contra hm
        exact h0 (if_neg fun hx => hm ⟨_, _, _, _, _, hk, hx⟩)
      obtain ⟨⟨a, ha, hat⟩, b, hb, htb⟩ := (hrange t).1 ⟨n, hsucc, hmem⟩
      exact hr' a ha b hb t hat htb
    simp only [leafLaw]
    rw [withDensity_apply _ hA.compl, setLIntegral_congr_fun (g := fun _ => 0) hA.compl]
    · simp
    · intro t ht
      simp only [hsub t ht, ENNReal.ofReal_zero]
  · push Not at h2
    obtain ⟨a, ha⟩ := List.exists_mem_of_ne_nil _ hne'
    have hall : ∀ y ∈ col, y = a := fun y hy => h2 y hy a ha
    have hfit : Nyga.fit P cap col none = .ok (newUnit 0 (.leaf (.dirac P.var a cap))) := Props.fit_single hne' hall cap none
    simp only [columnCircuit, bind, Except.bind] at h
    rw [← hcol, hfit] at h
    simp only [(layered_newUnit 0 (Kind.leaf (Leaf.dirac P.var a cap))).root, Except.ok.injEq, Prod.mk.injEq] at h
    obtain ⟨rfl, rfl⟩ := h
    have hd := kind_newUnit_leaf hk
    subst hd
    simp only [leafLaw]
    rw [Measure.dirac_apply' _ hA.compl]
    simp [hr' a ha a ha a le_rfl le_rfl]

theorem column_no_prod {cap : ℝ} {rows : List Row} (hne : rows ≠ []) {P : Nyga.Params} {i : ℕ} (hci : ColumnFits rows (.continuous P, i))
    {g : Circuit} {r : Node} (h : columnCircuit cap rows (.continuous P) i = .ok (g, r)) (n : Node) : g.kind? n ≠ some .prod := by
  set col := rows.map fun x => x.real i with hcol
  have hne' : col ≠ [] := by simpa [hcol] using hne
  by_cases h2 : ∃ x ∈ col, ∃ y ∈ col, x ≠ y
  · have hI : Props.FitInput P col none := ⟨hci.1, hci.2, h2, by simp⟩
    obtain ⟨E, hfit, hE, _⟩ := hI.result cap
    simp only [columnCircuit, bind, Except.bind] at h
    rw [← hcol, hfit] at h
    simp only [hE.layered.root, Except.ok.injEq, Prod.mk.injEq] at h
    obtain ⟨rfl, rfl⟩ := h
    exact hE.not_prod
  · push Not at h2
    obtain ⟨a, ha⟩ := List.exists_mem_of_ne_nil _ hne'
    have hall : ∀ y ∈ col, y = a := fun y hy => h2 y hy a ha
    have hfit : Nyga.fit P cap col none = .ok (newUnit 0 (.leaf (.dirac P.var a cap))) := Props.fit_single hne' hall cap none
    simp only [columnCircuit, bind, Except.bind] at h
    rw [← hcol, hfit] at h
    simp only [(layered_newUnit 0 (Kind.leaf (Leaf.dirac P.var a cap))).root, Except.ok.injEq, Prod.mk.injEq] at h
    obtain ⟨rfl, rfl⟩ := h
    intro hk
    have hn := mem_ids_of_kind? hk
    simp only [ids_newUnit, List.mem_singleton] at hn
    subst hn
    rw [kind?_newUnit] at hk
    cases hk

/-! ### The tree -/

variable {S : Settings} {I : Impurity} {data : List Row} {st : State} {E : List Emitted}

theorem emitted_rows (h : TreeInput S data) (hE : Inv S I data st [] E) {e : Emitted} (he : e ∈ E) :
    rowsOf data e.idx ≠ [] ∧ (∀ x ∈ rowsOf data e.idx, x ∈ data) ∧ ∀ ci ∈ S.columns.zipIdx, ColumnFits (rowsOf data e.idx) ci := by
  obtain ⟨h1, h2, h3⟩ := Props.emitted_bounds hE he
  have hsub : ∀ x ∈ rowsOf data e.idx, x ∈ data := by
    intro x hx
    obtain ⟨i, hi, rfl⟩ := List.mem_map.1 hx
    have hi' : i ∈ st.indices := by
      rw [(hE.leaf e he).1] at hi
      exact List.mem_of_mem_drop (List.mem_of_mem_take hi)
    have hil : i < data.length := by simpa using hE.perm.mem_iff.1 hi'
    rw [List.getD_eq_getElem _ _ hil]
    exact List.getElem_mem hil
  refine ⟨?_, hsub, ?_⟩
  · intro h0
    rw [rowsOf, List.map_eq_nil_iff] at h0
    rw [h0, List.length_nil] at h3
    omega
  · intro ci hci
    have h4 := h.columns ci hci
    obtain ⟨c, i⟩ := ci
    cases c with
    | continuous P => exact h4
    | symbolic v domain => exact ⟨h4.1, h4.2.1, fun x hx => h4.2.2 x (hsub x hx)⟩
    | integer v => trivial
    | other v => exact h4

theorem emitted_leaves (h : TreeInput S data) (hE : Inv S I data st [] E) {e : Emitted} (he : e ∈ E) :
    ∀ n d, e.circuit.kind? n = some (.leaf d) → ∃ ci ∈ S.columns.zipIdx, ColumnLeaf ci.1 d := by
  obtain ⟨hne, _, hfits⟩ := emitted_rows h hE he
  have hR := (hE.leaf e he).2
  have hp : ∀ ci, ∃ g r, ci ∈ S.columns.zipIdx → ColumnResult S.cap (rowsOf data e.idx) ci g r (e.Fs ci) := by
    intro ci
    by_cases hci : ci ∈ S.columns.zipIdx
    · obtain ⟨g, r, hr⟩ := hR.parts ci hci
      exact ⟨g, r, fun _ => hr⟩
    · exact ⟨newUnit 0 .sum, 0, fun h => absurd h hci⟩
  choose G o hG using hp
  have heq := hR.eq
  have hm : S.columns.zipIdx.mapM (fun ci => columnCircuit S.cap (rowsOf data e.idx) ci.1 ci.2)
      = .ok (S.columns.zipIdx.map fun ci => (G ci, o ci)) := mapM_ok_map fun ci hci => (hG ci hci).eq
  simp only [createLeafNode, bind, Except.bind] at heq
  rw [hm] at heq
  simp only [List.map_map, Except.ok.injEq] at heq
  rw [← heq]
  exact leaves_attach (G := G) (o := o) (w := fun _ => none) (is := S.columns.zipIdx) (by simp) (fun h => by cases h)
    (fun ci hci => (hG ci hci).denotes.layered) (P := fun d => ∃ ci ∈ S.columns.zipIdx, ColumnLeaf ci.1 d)
    fun ci hci n d hk => ⟨ci, hci, (column_leaves hne (hfits ci hci) (hG ci hci).eq n d hk).1⟩

theorem tree_leaves (h : TreeInput S data) (hE : Inv S I data st [] E) :
    ∀ n d, st.circuit.kind? n = some (.leaf d) → ∃ ci ∈ S.columns.zipIdx, ColumnLeaf ci.1 d := by
  rw [hE.circuit]
  exact leaves_attach (by simp) (fun _ _ _ => rfl) (fun e he => (hE.leaf e he).2.denotes.layered) fun e he => emitted_leaves h hE he

theorem column_inj (h : TreeInput S data) {ci : Column × ℕ} (hci : ci ∈ S.columns.zipIdx) :
    ∀ cj ∈ S.columns.zipIdx, columnVar cj.1 = columnVar ci.1 → cj = ci := by
  intro cj hcj hv
  have hnd : (S.columns.zipIdx.map fun c => columnVar c.1).Nodup := by
    have : S.columns.zipIdx.map (fun c => columnVar c.1) = S.columns.map columnVar := by
      conv_rhs => rw [← List.zipIdx_map_fst 0 S.columns, List.map_map]
      rfl
    rw [this]
    exact h.distinct
  exact List.inj_on_of_nodup_map hnd hcj hci hv

/-- The domains of the variables fit to the tree. -/
theorem tree_domain (h : TreeInput S data) (hE : Inv S I data st [] E) {dom : Var → VSet} (hdom : ColumnDomains S.columns dom) :
    DomainFor st.circuit dom := by
  have hmem : ∀ ci ∈ S.columns.zipIdx, ci.1 ∈ S.columns := fun ci hci => List.fst_mem_of_mem_zipIdx hci
  obtain ⟨hD, _, _⟩ := denotes_tree (Props.emitted_ne_nil hE) (fun e he => ⟨_, (hE.leaf e he).2⟩) data.length
  rw [← hE.circuit] at hD
  refine ⟨hdom.disjoint, fun n d hk => ?_, fun n d hk => ?_⟩
  · obtain ⟨cj, hcj, hl⟩ := tree_leaves h hE n d hk
    have hv := hl.var
    have hd := hdom.domain cj.1 (hmem cj hcj)
    obtain ⟨c, j⟩ := cj
    cases c with
    | other v => exact hl.elim
    | continuous P =>
      obtain ⟨J, hJ, _⟩ := hd
      rw [hv, hJ]
      rcases hl with ⟨_, _, _, _, rfl⟩ | ⟨_, _, rfl⟩ <;> trivial
    | integer v =>
      obtain ⟨J, hJ, _⟩ := hd
      rw [hv, hJ]
      obtain ⟨_, rfl⟩ := hl
      trivial
    | symbolic v domain =>
      obtain ⟨J, hJ, _⟩ := hd
      rw [hv, show columnVar (Column.symbolic v domain) = v from rfl, hJ]
      obtain ⟨_, rfl, _⟩ := hl
      trivial
  · obtain ⟨cj, hcj, hl⟩ := tree_leaves h hE n d hk
    have hv := hl.var
    have hd := hdom.domain cj.1 (hmem cj hcj)
    obtain ⟨c, j⟩ := cj
    cases c with
    | other v => exact hl.elim
    | continuous P =>
      obtain ⟨J, hJ, hall⟩ := hd
      rw [hv, hJ, show (VSet.interval J).toSet = Set.univ from Set.eq_univ_of_forall hall]
      simp
    | integer v =>
      obtain ⟨J, hJ, hall⟩ := hd
      rw [hv, hJ, show (VSet.interval J).toSet = Set.univ from Set.eq_univ_of_forall hall]
      simp
    | symbolic v domain =>
      obtain ⟨J, hJ, hall⟩ := hd
      rw [hv, show columnVar (Column.symbolic v domain) = v from rfl, hJ]
      obtain ⟨probs, rfl, hk2⟩ := hl
      have hval := hD.valid n _ hk
      simp only [leafLaw]
      rw [discrete_law_apply probs hval.1 (VSet.measurableSet_toSet _).compl, List.sum_eq_zero]
      · simp
      · intro x hx
        obtain ⟨kp, hkp, rfl⟩ := List.mem_map.1 hx
        refine Set.indicator_of_notMem ?_ _
        obtain ⟨e, he, hek⟩ := List.mem_map.1 (hk2 kp hkp)
        have : ((kp.1 : ℝ)) ∈ (VSet.symbols J).toSet := ⟨kp.1, hek ▸ hall e he, rfl⟩
        simpa using this

/-- A set of values of a column is an event of the tree. -/
theorem tree_event (h : TreeInput S data) (hE : Inv S I data st [] E) {ci : Column × ℕ} (hci : ci ∈ S.columns.zipIdx) {A : VSet}
    (hA : SetOf ci.1 A) {V : Finset Var} (hV : columnVar ci.1 ∈ V) : EventFor st.circuit V [(columnVar ci.1, A)] := by
  refine ⟨by simp [SimpleEvent.keys], ?_, by simpa using hA.1, ?_⟩
  · intro v hv
    simp only [SimpleEvent.keys, List.map_cons, List.map_nil, List.mem_singleton] at hv
    rwa [hv]
  · intro p hp n d hk hv
    simp only [List.mem_singleton] at hp
    subst hp
    obtain ⟨cj, hcj, hl⟩ := tree_leaves h hE n d hk
    have hv' := hl.var
    rw [hv] at hv'
    have := column_inj h hci cj hcj hv'.symm
    subst this
    obtain ⟨c, j⟩ := cj
    have h2 := hA.2
    cases c with
    | other v => exact hl.elim
    | continuous P =>
      cases A with
      | symbols l => exact h2.elim
      | interval l => rcases hl with ⟨_, _, _, _, rfl⟩ | ⟨_, _, rfl⟩ <;> trivial
    | integer v =>
      cases A with
      | symbols l => exact h2.elim
      | interval l => obtain ⟨_, rfl⟩ := hl; trivial
    | symbolic v domain =>
      cases A with
      | interval l => exact h2.elim
      | symbols l => obtain ⟨_, rfl, _⟩ := hl; trivial

/-- The probability of a set of values of one column of a learned tree. -/
theorem tree_probability (h : TreeInput S data) (hE : Inv S I data st [] E) {ci : Column × ℕ} (hci : ci ∈ S.columns.zipIdx)
    (hh : ∀ x ∈ data, ∀ cj ∈ S.columns.zipIdx, cj ≠ ci → HashesToItself x cj)
    {dom : Var → VSet} (hdom : ColumnDomains S.columns dom) {A : VSet}
    (hA : SetOf ci.1 A) (m : Mem ℝ) :
    (st.circuit.probability m dom [[(columnVar ci.1, A)]]).2
      = .ok ((E.map fun e => (e.idx.length : ℝ) / data.length * e.Fs ci fun d => (leafLaw d).real A.toSet).sum) := by
  obtain ⟨hD, _, _⟩ := denotes_tree (Props.emitted_ne_nil hE) (fun e he => ⟨_, (hE.leaf e he).2⟩) data.length
  rw [← hE.circuit] at hD
  obtain ⟨sc, hs, hdec, hsc⟩ := hD.scope
  have hmem : ∀ ci ∈ S.columns.zipIdx, ci.1 ∈ S.columns := fun ci hci => List.fst_mem_of_mem_zipIdx hci
  have hinj := column_inj h hci
  have hdomF := tree_domain h hE hdom
  have hEv : EventFor st.circuit (sc 0) [(columnVar ci.1, A)] := tree_event h hE hci hA (by
    rw [hsc, List.mem_toFinset]
    exact List.mem_map.2 ⟨ci.1, hmem ci hci, rfl⟩)
  obtain ⟨f, hf⟩ := exists_probValue hD.layered [(columnVar ci.1, A)]
  rw [probability_eq hD.layered hs hD.valid hdomF (Es := [[(columnVar ci.1, A)]]) (by simpa using hEv) (p := fun _ => f) (by simpa using hf) m]
  simp only [List.map_cons, List.map_nil, List.sum_cons, List.sum_nil, add_zero]
  rw [hD.value _ f hf]
  congr 2
  refine List.map_congr_left fun e he => ?_
  rw [Props.weight_eq hE he]
  congr 1
  obtain ⟨hne, hsub, hfits⟩ := emitted_rows h hE he
  have hsplit : ∀ l : List (Column × ℕ), l.Nodup → (∀ cj ∈ l, cj ∈ S.columns.zipIdx) →
      (l.map fun cj => e.Fs cj fun d => (leafLaw d).real (allowed [(columnVar ci.1, A)] d.var)).prod
        = if ci ∈ l then e.Fs ci fun d => (leafLaw d).real A.toSet else 1 := by
    intro l
    induction l with
    | nil => intro _ _; simp
    | cons cj l ih =>
      intro hnd hl
      rw [List.nodup_cons] at hnd
      rw [List.map_cons, List.prod_cons, ih hnd.2 fun c hc => hl c (List.mem_cons_of_mem _ hc)]
      have hcj := hl cj (List.mem_cons_self ..)
      obtain ⟨g, r, hr⟩ := (hE.leaf e he).2.parts cj hcj
      have hleaf := column_leaves hne (hfits cj hcj) hr.eq
      by_cases hc : cj = ci
      · subst hc
        rw [if_neg hnd.1, if_pos (List.mem_cons_self ..), mul_one]
        refine Denotes_congr_leaves hr.denotes fun n d hk => ?_
        rw [(hleaf n d hk).1.var]
        congr 1
        exact allowed_of_mem (E := [(columnVar cj.1, A)]) (by simp [SimpleEvent.keys]) (p := (columnVar cj.1, A)) (by simp)
      · have h1 : (e.Fs cj fun d => (leafLaw d).real (allowed [(columnVar ci.1, A)] d.var)) = 1 := by
          rw [← hr.unit]
          refine Denotes_congr_leaves hr.denotes fun n d hk => ?_
          rw [(hleaf n d hk).1.var, allowed_of_not_mem, measureReal_def,
            leafLaw_univ (hr.denotes.valid n d hk) ((hleaf n d hk).2 fun x hx => hh x (hsub x hx) cj hcj hc)]
          · rfl
          · simp only [SimpleEvent.keys, List.map_cons, List.map_nil, List.mem_singleton]
            exact fun hv => hc (hinj cj hcj hv)
        rw [h1, one_mul]
        congr 1
        simp only [List.mem_cons, eq_iff_iff]
        exact ⟨fun h => .inr h, fun h => h.resolve_left fun h => hc h.symm⟩
  rw [hsplit _ ?_ fun _ h => h, if_pos hci]
  exact List.Nodup.of_map (fun c : Column × ℕ => columnVar c.1) (by
    have : S.columns.zipIdx.map (fun c => columnVar c.1) = S.columns.map columnVar := by
      conv_rhs => rw [← List.zipIdx_map_fst 0 S.columns, List.map_map]
      rfl
    rw [this]
    exact h.distinct)

end PM.Learn.Jpt
