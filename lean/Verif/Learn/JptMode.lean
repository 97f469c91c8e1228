import Verif.Circuit.DetAttach
import Verif.Learn.JptSeparate
import Verif.Learn.JptUniLemmas
import Verif.Props.Mode

/-! # Where the distributions of the columns are positive, and that their leaves have maxima -/

namespace PM.Learn.Jpt

open Classical Graph Spec

theorem kind_newUnit_only {n m : Node} {k k' : Kind Leaf} (h : (newUnit n k : Circuit).kind? m = some k') : k' = k := by
  have hm := mem_ids_of_kind? h
  simp only [ids_newUnit, List.mem_singleton] at hm
  subst hm
  rw [kind?_newUnit] at h
  exact (Option.some.inj h).symm

theorem exclusive_leaf (n : Node) (d : Leaf) : Exclusive (newUnit n (.leaf d)) := by
  intro S _ m hk
  cases kind_newUnit_only hk

theorem productsNonempty_leaf (n : Node) (d : Leaf) : ProductsNonempty (newUnit n (.leaf d) : Circuit) := by
  intro m hk
  cases kind_newUnit_only hk

/-- What the column says about a possible point: it lies between two entries, or is the hash of an entry. -/
def Inside (rows : List Row) (ci : Column × ℕ) (t : ℝ) : Prop :=
  match ci.1 with
  | .continuous _ => (∃ x ∈ rows, x.real ci.2 ≤ t) ∧ ∃ y ∈ rows, t ≤ y.real ci.2
  | .symbolic _ domain => ∃ x ∈ rows, ∃ e ∈ domain, e.1 = x.int ci.2 ∧ t = e.2
  | .integer _ => ∃ x ∈ rows, t = pyHash (x.int ci.2)
  | .other _ => False

theorem discrete_key {probs : List (ℤ × ℝ)} {t : ℝ} (h : 0 < ((probs.filter fun kp => (kp.1 : ℝ) = t).map Prod.snd).sum) :
    ∃ kp ∈ probs, (kp.1 : ℝ) = t := by
  by_contra hc
  push Not at hc
  have : probs.filter (fun kp => (kp.1 : ℝ) = t) = [] := by
    rw [List.filter_eq_nil_iff]
    intro kp hkp
    simpa using hc kp hkp
  rw [this] at h
  simp at h

/-- A discrete distribution with positive probabilities has a most likely value. -/
theorem discrete_attains {probs : List (ℤ × ℝ)} (h1 : ∀ kp ∈ probs, 0 < kp.2) (hne : probs ≠ []) :
    ∃ x, 0 < ((probs.filter fun kp => (kp.1 : ℝ) = x).map Prod.snd).sum ∧
      ∀ y, ((probs.filter fun kp => (kp.1 : ℝ) = y).map Prod.snd).sum ≤ ((probs.filter fun kp => (kp.1 : ℝ) = x).map Prod.snd).sum := by
  set D : ℝ → ℝ := fun y => ((probs.filter fun kp => (kp.1 : ℝ) = y).map Prod.snd).sum with hD
  have hpos : ∀ kp ∈ probs, 0 < D kp.1 := fun kp hkp => density_pos h1 (List.mem_map_of_mem hkp)
  obtain ⟨k, hk, hmax⟩ : ∃ k ∈ probs, ∀ k' ∈ probs, D k'.1 ≤ D k.1 := by
    have := Finset.exists_max_image probs.toFinset (fun k => D k.1) (by
      obtain ⟨k, hk⟩ := List.exists_mem_of_ne_nil _ hne
      exact ⟨k, by simpa using hk⟩)
    simpa using this
  refine ⟨k.1, hpos k hk, fun y => ?_⟩
  by_cases hy : 0 < D y
  · obtain ⟨kp, hkp, rfl⟩ := discrete_key hy
    exact hmax kp hkp
  · exact (not_lt.1 hy).trans (hpos k hk).le

theorem dirac_attains (v : Var) (x : ℝ) {cap : ℝ} (h : 0 < cap) : AttainsMax (.dirac v x cap) := by
  refine ⟨x, by simpa [leafDensity] using h, fun y => ?_⟩
  simp only [leafDensity]
  by_cases hy : y = x
  · simp [hy]
  · simp [hy, h.le]

theorem uniform_attains (v : Var) {lo hi : ℝ} (h : lo < hi) (l r : Bound) : AttainsMax (.uniform v lo hi l r) := by
  obtain ⟨A, L, -, -, hm⟩ := leaf_mode (d := .uniform v lo hi l r) h trivial (fun x _ => x) (s := false) (by simp)
  obtain ⟨x, hx⟩ := hm.ne
  have hx := (hm.mem x).1 hx
  exact ⟨x, by rw [hx]; exact hm.pos, fun y => by rw [hx]; exact hm.le y⟩

/-- What this file shows about the circuit of a column. -/
structure ColumnFacts (rows : List Row) (ci : Column × ℕ) (g : Circuit) : Prop where
  exclusive : Exclusive g
  noProd : ∀ n, g.kind? n ≠ some .prod
  attains : ∀ n d, g.kind? n = some (.leaf d) → AttainsMax d
  inside : ∀ n d, g.kind? n = some (.leaf d) → ∀ t, 0 < leafDensity d t → Inside rows ci t

theorem facts_leaf {rows : List Row} {ci : Column × ℕ} {d : Leaf} (h1 : AttainsMax d)
    (h2 : ∀ t, 0 < leafDensity d t → Inside rows ci t) : ColumnFacts rows ci (newUnit 0 (.leaf d)) := by
  refine ⟨exclusive_leaf 0 d, fun n hk => (by cases kind_newUnit_only hk), fun n d' hk => ?_, fun n d' hk => ?_⟩
  all_goals
    have := kind_newUnit_leaf hk
    subst this
    assumption

theorem column_facts {cap : ℝ} (hcap : 0 < cap) {rows : List Row} (hne : rows ≠ []) {ci : Column × ℕ} (hci : ColumnFits rows ci)
    {g : Circuit} {r : Node} (h : columnCircuit cap rows ci.1 ci.2 = .ok (g, r)) : ColumnFacts rows ci g := by
  obtain ⟨c, i⟩ := ci
  cases c with
  | other v => exact hci.elim
  | integer v =>
    simp only [columnCircuit, Except.ok.injEq, Prod.mk.injEq] at h
    obtain ⟨rfl, rfl⟩ := h
    obtain ⟨h1, h2, h3⟩ := fitDiscrete_facts (data := rows.map fun x => x.int i) (by simpa using hne)
    refine facts_leaf ?_ ?_
    · refine discrete_attains h1 fun h0 => ?_
      obtain ⟨x, hx⟩ := List.exists_mem_of_ne_nil _ hne
      have := h3 (x.int i) (List.mem_map.2 ⟨x, hx, rfl⟩)
      rw [h0] at this
      simp at this
    · intro t ht
      obtain ⟨kp, hkp, rfl⟩ := discrete_key ht
      obtain ⟨w, hw, hwk⟩ := keys_fitDiscrete (List.mem_map_of_mem (f := Prod.fst) hkp)
      obtain ⟨x, hx, rfl⟩ := List.mem_map.1 hw
      exact ⟨x, hx, by rw [← hwk]⟩
  | symbolic v domain =>
    obtain ⟨h1, h2, h3⟩ := hci
    have hne' : (rows.map fun x => x.int i) ≠ [] := by simpa using hne
    obtain ⟨probs, e1, e2, e3, e4, e5, e6⟩ := Props.C32_fit_symbolic (data := rows.map fun x => x.int i) hne' h1 h2 (by
      intro w hw
      obtain ⟨x, hx, rfl⟩ := List.mem_map.1 hw
      exact h3 x hx)
    simp only [columnCircuit, e1, bind, Except.bind, Except.ok.injEq, Prod.mk.injEq] at h
    obtain ⟨rfl, rfl⟩ := h
    have hlen : (0 : ℝ) < (rows.map fun x => x.int i).length := by exact_mod_cast List.length_pos_iff.2 hne'
    refine facts_leaf ?_ ?_
    · refine discrete_attains e3 fun h0 => ?_
      rw [h0] at e4
      simp at e4
    · intro t ht
      obtain ⟨kp, hkp, rfl⟩ := discrete_key ht
      obtain ⟨e, he, hek⟩ := List.mem_map.1 (e6 kp hkp)
      have hl := e2 e he
      have hlp : Leaf.lookup probs e.2 = kp.2 := by
        rw [hek]
        exact lookup_of_mem e5 hkp
      rw [hlp] at hl
      have hc : 0 < (rows.map fun x => x.int i).count e.1 := by
        by_contra hc
        have : (rows.map fun x => x.int i).count e.1 = 0 := by omega
        rw [this] at hl
        simp at hl
        exact (e3 kp hkp).ne' hl
      obtain ⟨x, hx, hxe⟩ := List.mem_map.1 (List.count_pos_iff.1 hc)
      exact ⟨x, hx, e, he, hxe.symm, by rw [hek]⟩
  | continuous P =>
    have hnp := column_no_prod hne hci h
    set col := rows.map fun x => x.real i with hcol
    have hne' : col ≠ [] := by simpa [hcol] using hne
    by_cases h2 : ∃ x ∈ col, ∃ y ∈ col, x ≠ y
    · have hI : Props.FitInput P col none := ⟨hci.1, hci.2, h2, by simp⟩
      obtain ⟨E, hfit, hE, _, ch, hch, hperm, _⟩ := hI.result cap
      obtain ⟨g', r', hfit', hL', _, _, hdis, hrange, _, _⟩ := Props.C39_fit hI cap
      have hF := Nyga.fine_of (data := col) (weights := none) h2 (by simp)
      simp only [columnCircuit, bind, Except.bind] at h
      rw [← hcol, hfit] at h
      simp only [hE.layered.root, Except.ok.injEq, Prod.mk.injEq] at h
      obtain ⟨rfl, rfl⟩ := h
      rw [hfit] at hfit'
      injection hfit' with hg
      subst hg
      have hr0 := hL'.root
      rw [hE.layered.root] at hr0
      injection hr0 with hr0
      subst hr0
      have hleaf : ∀ n d, (leafMix 0 (E.map fun x => Nyga.entry P.var ((npUnique col).map Prod.fst) (Nyga.weightsOf col none) x.1 x.2)).kind? n
          = some (.leaf d) → ∃ lo hi a b, lo < hi ∧ d = .uniform P.var lo hi a b ∧ n ∈ (leafMix 0 (E.map fun x =>
            Nyga.entry P.var ((npUnique col).map Prod.fst) (Nyga.weightsOf col none) x.1 x.2)).succ 0 := by
        intro n d hk
        obtain ⟨x, hx, hxn, hxd⟩ := hE.of_leaf hk
        obtain ⟨y, hy, rfl⟩ := List.mem_map.1 hx
        have hb := hch.bounds y.2 (hperm.mem_iff.1 (List.mem_map.2 ⟨y, hy, rfl⟩))
        have hv := Props.quantile_valid (v := P.var) hF hb.2.1 hb.2.2
        refine ⟨_, _, _, _, hv, hxd.symm, ?_⟩
        rw [hE.succ]
        exact List.mem_map.2 ⟨_, hx, hxn⟩
      have hmem : ∀ n d, (leafMix 0 (E.map fun x => Nyga.entry P.var ((npUnique col).map Prod.fst) (Nyga.weightsOf col none) x.1 x.2)).kind? n
          = some (.leaf d) → ∀ t, 0 < leafDensity d t → t ∈ intervalOf (leafMix 0 (E.map fun x =>
            Nyga.entry P.var ((npUnique col).map Prod.fst) (Nyga.weightsOf col none) x.1 x.2)) n := by
        intro n d hk t ht
        obtain ⟨lo, hi, a, b, _, rfl, _⟩ := hleaf n d hk
        simp only [leafDensity] at ht
        by_contra hm
        exact ht.ne' (if_neg fun hx => hm ⟨_, _, _, _, _, hk, hx⟩)
      refine ⟨?_, hnp, ?_, ?_⟩
      · intro S hS n hk
        have hn := hE.sum_iff.1 hk
        subst hn
        refine hdis.imp_of_mem ?_
        intro a c ha hc hac x hx
        rw [hE.succ] at ha hc
        obtain ⟨xa, hxa, rfl⟩ := List.mem_map.1 ha
        obtain ⟨xc, hxc, rfl⟩ := List.mem_map.1 hc
        have hka := hE.kindLeaf hxa
        have hkc := hE.kindLeaf hxc
        have hva : xa.2.1.var = P.var := by
          obtain ⟨y, _, rfl⟩ := List.mem_map.1 hxa
          rfl
        have hvc : xc.2.1.var = P.var := by
          obtain ⟨y, _, rfl⟩ := List.mem_map.1 hxc
          rfl
        have h3 := hmem _ _ hka _ ((hS.leaf _ _ hka x).1 hx.1)
        have h4 := hmem _ _ hkc _ ((hS.leaf _ _ hkc x).1 hx.2)
        rw [hva] at h3
        rw [hvc] at h4
        exact Set.disjoint_left.1 hac h3 h4
      · intro n d hk
        obtain ⟨lo, hi, a, b, hlt, rfl, _⟩ := hleaf n d hk
        exact uniform_attains P.var hlt a b
      · intro n d hk t ht
        obtain ⟨lo, hi, a, b, _, _, hs⟩ := hleaf n d hk
        obtain ⟨⟨a, ha, hat⟩, b, hb, htb⟩ := (hrange t).1 ⟨n, hs, hmem n d hk t ht⟩
        obtain ⟨x, hx, rfl⟩ := List.mem_map.1 ha
        obtain ⟨y, hy, rfl⟩ := List.mem_map.1 hb
        exact ⟨⟨x, hx, hat⟩, y, hy, htb⟩
    · push Not at h2
      obtain ⟨a, ha⟩ := List.exists_mem_of_ne_nil _ hne'
      have hall : ∀ y ∈ col, y = a := fun y hy => h2 y hy a ha
      have hfit : Nyga.fit P cap col none = .ok (newUnit 0 (.leaf (.dirac P.var a cap))) := Props.fit_single hne' hall cap none
      simp only [columnCircuit, bind, Except.bind] at h
      rw [← hcol, hfit] at h
      simp only [(layered_newUnit 0 (Kind.leaf (Leaf.dirac P.var a cap))).root, Except.ok.injEq, Prod.mk.injEq] at h
      obtain ⟨rfl, rfl⟩ := h
      refine facts_leaf (dirac_attains _ _ hcap) ?_
      intro t ht
      have hta : t = a := by
        by_contra hc
        simp [leafDensity, hc] at ht
      subst hta
      obtain ⟨x, hx, rfl⟩ := List.mem_map.1 ha
      exact ⟨⟨x, hx, le_rfl⟩, x, hx, le_rfl⟩

/-- A circuit without product units is positive only where a leaf is. -/
theorem exists_leaf_pos {g : Circuit} (ha : g.Acyclic) (hw : g.WF) (hno : ∀ n, g.kind? n ≠ some .prod) {ℓ : Leaf → ℝ} {f : Node → ℝ}
    (hf : CircuitValue g ℓ f) (hnn : ∀ n ∈ g.ids, 0 ≤ f n) : ∀ n ∈ g.ids, 0 < f n → ∃ m d, g.kind? m = some (.leaf d) ∧ 0 < ℓ d := by
  refine ha.induct (P := fun n => n ∈ g.ids → 0 < f n → ∃ m d, g.kind? m = some (.leaf d) ∧ 0 < ℓ d) ?_
  intro n ih hn hpos
  obtain ⟨k, hk⟩ := exists_kind? hn
  cases k with
  | leaf d => exact ⟨n, d, hk, by rwa [← hf.leaf n d hk]⟩
  | prod => exact absurd hk (hno n)
  | sum =>
    by_contra hc
    have hall : ∀ e ∈ g.outEdges n, f e.dst = 0 := by
      intro e he
      have hm := Graph.dst_mem_succ he
      by_contra h0
      exact hc (ih e.dst hm (Graph.succ_mem_ids hw hm) (lt_of_le_of_ne (hnn _ (Graph.succ_mem_ids hw hm)) (Ne.symm h0)))
    rw [hf.sum n hk] at hpos
    refine hpos.ne' (List.sum_eq_zero ?_)
    intro y hy
    obtain ⟨e, he, rfl⟩ := List.mem_map.1 hy
    rw [hall e he, mul_zero]

theorem column_inside {cap : ℝ} (hcap : 0 < cap) {rows : List Row} (hne : rows ≠ []) {ci : Column × ℕ} (hci : ColumnFits rows ci)
    {g : Circuit} {r : Node} {F : (Leaf → ℝ) → ℝ} (h : ColumnResult cap rows ci g r F) {p : Var → ℝ}
    (hp : 0 < F fun d => leafDensity d (p d.var)) : Inside rows ci (p (columnVar ci.1)) := by
  have hc := column_facts hcap hne hci h.eq
  have hw := h.denotes.layered.wf
  have ha := h.denotes.layered.graded.acyclic
  obtain ⟨f, hf⟩ := exists_circuitValue ha fun d => leafDensity d (p d.var)
  rw [← h.denotes.value _ f hf] at hp
  obtain ⟨m, d, hk, hd⟩ := exists_leaf_pos ha hw hc.noProd hf
    (circuitValue_nonneg hw ha hf fun n d hk => leafDensity_nonneg (h.denotes.valid n d hk) _) r (root_mem h.denotes.layered.root).1 hp
  have hv := (column_leaves hne hci h.eq m d hk).1.var
  rw [← hv]
  exact hc.inside m d hk _ hd

end PM.Learn.Jpt
