import Verif.Spec.BN
import Verif.Dist.DiscreteLemmas
import Verif.Dist.DictLemmas

/-! Lemmas for the forward pass. -/

namespace PM.BN
open PM PM.BN.Spec
open PM.Leaf (lookup normalizeProbs)
open Classical

theorem conditionOn_leaf (v : Var) (probs : List (ℤ × ℝ)) (e : List ℤ) :
    ∃ r, Leaf.logConditional (.symbolic v probs) (.symbols e) = .ok r ∧
      r.1 = (conditionOn probs e).1.map (Leaf.symbolic v) ∧ (0 ≤ (conditionOn probs e).2 → r.2.exp = (conditionOn probs e).2) := by
  refine ⟨_, rfl, ?_, ?_⟩
  · simp only [Leaf.discreteCond, conditionOn]
    split_ifs <;> rfl
  · simp only [Leaf.discreteCond, conditionOn]
    split_ifs with h
    · intro _; rfl
    · intro h0; exact LogP.exp_log h0

theorem lookup_set (d : List (ℤ × ℝ)) (k : ℤ) (v : ℝ) (j : ℤ) :
    lookup (Dict.set d k v) j = if j = k then v else lookup d j := by
  unfold Dict.set
  split_ifs with h h2 h2
  · subst h2
    induction d with
    | nil => simp at h
    | cons a d ih =>
      simp only [List.map_cons, List.mem_cons] at h ⊢
      rw [lookup_cons]
      by_cases ha : a.1 = j
      · simp [ha]
      · simp only [ha, if_false]
        exact ih (h.resolve_left fun h => ha h.symm)
  · clear h
    induction d with
    | nil => rfl
    | cons a d ih =>
      simp only [List.map_cons]
      rw [lookup_cons, lookup_cons, ih]
      by_cases ha : a.1 = k
      · have : ¬ k = j := fun h => h2 h.symm
        simp [ha, this]
      · simp [ha]
  · subst h2
    induction d with
    | nil => simp [lookup_cons]
    | cons a d ih =>
      simp only [List.map_cons, List.mem_cons, not_or] at h
      rw [List.cons_append, lookup_cons, if_neg (fun h' => h.1 h'.symm)]
      exact ih h.2
  · clear h
    induction d with
    | nil => simp [lookup_cons, lookup_nil, Ne.symm h2]
    | cons a d ih => rw [List.cons_append, lookup_cons, lookup_cons, ih]

theorem keys_set (d : List (ℤ × ℝ)) (k : ℤ) (v : ℝ) :
    (Dict.set d k v).map Prod.fst = if k ∈ d.map Prod.fst then d.map Prod.fst else d.map Prod.fst ++ [k] := by
  unfold Dict.set
  split_ifs with h
  · rw [List.map_map]
    refine List.map_congr_left fun p _ => ?_
    simp only [Function.comp]
    split_ifs with h2
    · exact h2.symm
    · rfl
  · simp

/-- The invariant of the accumulated dictionary. -/
def Keyed (e : List ℤ) (d : List (ℤ × ℝ)) : Prop := (d.map Prod.fst).Nodup ∧ ∀ k ∈ d.map Prod.fst, k ∈ e

theorem keyed_set {e : List ℤ} {d : List (ℤ × ℝ)} (h : Keyed e d) {k : ℤ} (hk : k ∈ e) (v : ℝ) : Keyed e (Dict.set d k v) := by
  unfold Keyed
  rw [keys_set]
  split_ifs with hm
  · exact h
  · refine ⟨List.nodup_append.2 ⟨h.1, by simp, ?_⟩, ?_⟩
    · intro a ha b hb
      simp only [List.mem_singleton] at hb
      rintro rfl
      exact hm (hb ▸ ha)
    · intro j hj
      rcases List.mem_append.1 hj with hj | hj
      · exact h.2 j hj
      · simp only [List.mem_singleton] at hj; exact hj ▸ hk

theorem accumulate_spec {e : List ℤ} (c : List (ℤ × ℝ)) (p : ℝ) : ∀ d : List (ℤ × ℝ), Keyed e d → Keyed e c →
    Keyed e (accumulate d c p) ∧ ∀ t, lookup (accumulate d c p) t = lookup d t + p * lookup c t := by
  induction c with
  | nil => intro d hd _; exact ⟨hd, fun t => by simp [accumulate, lookup_nil]⟩
  | cons a c ih =>
    intro d hd hc
    have hc' : Keyed e c := ⟨by have := hc.1; rw [List.map_cons, List.nodup_cons] at this; exact this.2,
      fun k hk => hc.2 k (by rw [List.map_cons]; exact List.mem_cons_of_mem _ hk)⟩
    obtain ⟨h1, h2⟩ := ih (Dict.set d a.1 (lookup d a.1 + p * a.2)) (keyed_set hd (hc.2 _ (by simp)) _) hc'
    refine ⟨h1, fun t => ?_⟩
    refine (h2 t).trans ?_
    rw [lookup_set, lookup_cons]
    by_cases hta : t = a.1
    · subst hta
      have : a.1 ∉ c.map Prod.fst := by
        have := hc.1; rw [List.map_cons, List.nodup_cons] at this; exact this.1
      rw [lookup_eq_zero this]; simp
    · simp [hta, Ne.symm hta]

theorem sum_lookup (d : List (ℤ × ℝ)) (hn : (d.map Prod.fst).Nodup) :
    ((d.map Prod.fst).map (lookup d)).sum = (d.map Prod.snd).sum := by
  rw [List.map_map]
  congr 1
  exact List.map_congr_left fun q hq => lookup_of_mem hn hq

theorem sum_over_superset {e l : List ℤ} (he : e.Nodup) (hl : l.Nodup) (hsub : ∀ k ∈ l, k ∈ e) (f : ℤ → ℝ)
    (h0 : ∀ k ∈ e, k ∉ l → f k = 0) : (e.map f).sum = (l.map f).sum := by
  rw [← List.sum_toFinset f he, ← List.sum_toFinset f hl]
  symm
  refine Finset.sum_subset (fun k hk => by simpa using hsub k (by simpa using hk)) ?_
  intro k hk hnk
  exact h0 k (by simpa using hk) (by simpa using hnk)

theorem sum_keyed {e : List ℤ} (he : e.Nodup) {d : List (ℤ × ℝ)} (h : Keyed e d) :
    (d.map Prod.snd).sum = (e.map (lookup d)).sum := by
  rw [← sum_lookup d h.1]
  exact (sum_over_superset he h.1 h.2 _ fun k _ hk => lookup_eq_zero hk).symm

theorem conditionOn_spec {probs : List (ℤ × ℝ)} (hp : IsMass probs) {e : List ℤ} (he : e.Nodup) :
    ((e.map (lookup probs)).sum = 0 → conditionOn probs e = (none, 0)) ∧
    ((e.map (lookup probs)).sum ≠ 0 → ∃ d, conditionOn probs e = (some d, (e.map (lookup probs)).sum) ∧ Keyed e d ∧
      ∀ t, lookup d t = if t ∈ e then lookup probs t / (e.map (lookup probs)).sum else 0) := by
  have hs : (((e.filter fun k => 0 < lookup probs k).map fun k => (k, lookup probs k)).map Prod.snd).sum
      = (e.map (lookup probs)).sum := by
    rw [List.map_map, ← sum_filter_pos e _ (lookup_nonneg hp.2)]
    rfl
  constructor
  · intro h
    simp only [conditionOn]
    rw [if_pos (hs.trans h)]
  · intro h
    refine ⟨normalizeProbs ((e.filter fun k => 0 < lookup probs k).map fun k => (k, lookup probs k)), ?_, ?_, ?_⟩
    · simp only [conditionOn]
      rw [if_neg (fun h' => h (hs.symm.trans h')), hs]
    · unfold Keyed
      rw [normalizeProbs_keys, List.map_map]
      have : (Prod.fst ∘ fun k : ℤ => (k, lookup probs k)) = id := rfl
      rw [this, List.map_id]
      exact ⟨he.filter _, fun k hk => (List.mem_filter.1 hk).1⟩
    · intro t
      rw [normalizeProbs_lookup, hs, lookup_map_key]
      simp only [List.mem_filter, decide_eq_true_eq]
      by_cases ht : t ∈ e
      · by_cases hpos : 0 < lookup probs t
        · simp [ht, hpos]
        · have : lookup probs t = 0 := le_antisymm (not_lt.1 hpos) (lookup_nonneg hp.2 t)
          simp [this]
      · simp [ht]

theorem row_spec {T : Table} (hT : ∀ r ∈ T, IsMass r.2) {s : ℤ} (hs : s ∈ T.map Prod.fst) :
    ∃ r, row T s = .ok r ∧ IsMass r ∧ given T s = lookup r := by
  unfold row given
  cases h : T.find? fun p => decide (p.1 = s) with
  | none =>
    rw [List.find?_eq_none] at h
    obtain ⟨p, hp, rfl⟩ := List.mem_map.1 hs
    exact absurd (by simp : decide (p.1 = p.1) = true) (h p hp)
  | some p =>
    exact ⟨p.2, rfl, hT p (List.mem_of_find?_eq_some h), rfl⟩

theorem given_nonneg {T : Table} (hT : ∀ r ∈ T, IsMass r.2) (s t : ℤ) : 0 ≤ given T s t := by
  unfold given
  cases h : T.find? fun p => decide (p.1 = s) with
  | none => exact le_rfl
  | some p => exact lookup_nonneg (hT p (List.mem_of_find?_eq_some h)).2 t

/-- The probability of the evidence `e` given the parent state `s`. -/
noncomputable def rowMass (T : Table) (e : List ℤ) (s : ℤ) : ℝ := (e.map (given T s)).sum

theorem forwardLoop_spec {T : Table} (hT : ∀ r ∈ T, IsMass r.2) (m : List (ℤ × ℝ)) {e : List ℤ} (he : e.Nodup) :
    ∀ (ss : List ℤ), (∀ s ∈ ss, s ∈ T.map Prod.fst) → ∀ acc : List (ℤ × ℝ) × ℝ, Keyed e acc.1 →
    ∃ out, forwardLoop T m e ss acc = .ok out ∧ Keyed e out.1 ∧
      (∀ t, lookup out.1 t = lookup acc.1 t +
        (ss.map fun s => if t ∈ e then lookup m s * (given T s t / rowMass T e s) else 0).sum) ∧
      out.2 = acc.2 + (ss.map fun s => lookup m s * rowMass T e s).sum := by
  intro ss
  induction ss with
  | nil => intro _ acc hk; exact ⟨acc, rfl, hk, by simp, by simp⟩
  | cons s ss ih =>
    intro hss acc hk
    have hss' := fun s hs => hss s (List.mem_cons_of_mem _ hs)
    by_cases hm : lookup m s = 0
    · obtain ⟨out, h1, h2, h3, h4⟩ := ih hss' acc hk
      refine ⟨out, by simp only [forwardLoop]; rw [if_pos hm]; exact h1, h2, fun t => ?_, ?_⟩
      · rw [h3 t]; simp [hm]
      · rw [h4]; simp [hm]
    · obtain ⟨r, hr1, hr2, hr3⟩ := row_spec hT (hss s List.mem_cons_self)
      have hrm : rowMass T e s = (e.map (lookup r)).sum := by rw [rowMass, hr3]
      obtain ⟨c1, c2⟩ := conditionOn_spec hr2 he
      by_cases hz : (e.map (lookup r)).sum = 0
      · obtain ⟨out, h1, h2, h3, h4⟩ := ih hss' acc hk
        refine ⟨out, ?_, h2, fun t => ?_, ?_⟩
        · simp only [forwardLoop]
          rw [if_neg hm, hr1]
          simp only [bind, Except.bind]
          rw [c1 hz]
          exact h1
        · rw [h3 t]; simp [hrm, hz]
        · rw [h4]; simp [hrm, hz]
      · obtain ⟨d, hd1, hd2, hd3⟩ := c2 hz
        obtain ⟨ha1, ha2⟩ := accumulate_spec d (lookup m s) acc.1 hk hd2
        obtain ⟨out, h1, h2, h3, h4⟩ := ih hss'
          (accumulate acc.1 d (lookup m s), acc.2 + lookup m s * (e.map (lookup r)).sum) ha1
        refine ⟨out, ?_, h2, fun t => ?_, ?_⟩
        · simp only [forwardLoop]
          rw [if_neg hm, hr1]
          simp only [bind, Except.bind]
          rw [hd1]
          exact h1
        · rw [h3 t]
          simp only [ha2, hd3, List.map_cons, List.sum_cons, hrm, hr3]
          split_ifs <;> ring
        · rw [h4]
          simp only [List.map_cons, List.sum_cons, hrm]
          ring

theorem tableForward_spec {T : Table} (hT : ∀ r ∈ T, IsMass r.2) (m : List (ℤ × ℝ)) {ep e : List ℤ} (he : e.Nodup)
    (hep : ∀ s ∈ ep, s ∈ T.map Prod.fst) :
    ∃ out, tableForward T (some m) ep e = .ok out ∧
      out.2 = (ep.map fun s => lookup m s * rowMass T e s).sum ∧
      ∃ w : ℤ → ℝ, (∀ t, w t = if t ∈ e then (ep.map fun s => lookup m s * (given T s t / rowMass T e s)).sum else 0) ∧
        ((e.map w).sum = 0 → out.1 = none) ∧
        ((e.map w).sum ≠ 0 → ∃ d, out.1 = some d ∧ ∀ t, lookup d t = w t / (e.map w).sum) := by
  obtain ⟨acc, h1, h2, h3, h4⟩ := forwardLoop_spec hT m he ep hep ([], 0) ⟨by simp, by simp⟩
  have hsum := sum_keyed he h2
  have hw : ∀ t, lookup acc.1 t =
      if t ∈ e then (ep.map fun s => lookup m s * (given T s t / rowMass T e s)).sum else 0 := by
    intro t
    rw [h3 t, lookup_nil, zero_add]
    split_ifs
    · rfl
    · simp
  have h4' : acc.2 = (ep.map fun s => lookup m s * rowMass T e s).sum := by rw [h4]; simp
  simp only [tableForward, h1, bind, Except.bind]
  by_cases hz : (acc.1.map Prod.snd).sum = 0
  · refine ⟨(none, acc.2), by rw [if_pos hz], h4', lookup acc.1, hw, fun _ => rfl, fun h => absurd (hsum.symm.trans hz) h⟩
  · refine ⟨(some (normalizeProbs acc.1), acc.2), by rw [if_neg hz], h4', lookup acc.1, hw,
      fun h => absurd (hsum.trans h) hz, fun _ => ⟨_, rfl, fun t => ?_⟩⟩
    rw [normalizeProbs_lookup, hsum]

/-! ### The pass over the list of nodes -/

theorem passFrom_spec {event : ℕ → List ℤ} (nds : List TableNode) : ∀ (pre : List Result),
    (∀ (i : ℕ) (nd : TableNode), nds[i]? = some nd → nd.parent < pre.length + i) →
    (∀ nd ∈ nds, (∀ r ∈ nd.table, IsMass r.2) ∧ ∀ s ∈ event nd.parent, s ∈ nd.table.map Prod.fst) →
    (∀ n, (event n).Nodup) →
    ∃ results, passFrom event nds pre = .ok results ∧ results.length = pre.length + nds.length ∧
      (∀ j < pre.length, results[j]? = pre[j]?) ∧
      ∀ (i : ℕ) (nd : TableNode), nds[i]? = some nd → ∃ r out, results[nd.parent]? = some r ∧
        tableForward nd.table r.1 (event nd.parent) (event (pre.length + i)) = .ok out ∧
        results[pre.length + i]? = some out := by
  induction nds with
  | nil => intro pre _ _ _; exact ⟨pre, rfl, by simp, fun _ _ => rfl, by simp⟩
  | cons nd nds ih =>
    intro pre hord hv he
    have h0 : nd.parent < pre.length := by simpa using hord 0 nd rfl
    have hr : pre[nd.parent]? = some pre[nd.parent] := List.getElem?_eq_getElem h0
    have hout : ∃ out, tableForward nd.table pre[nd.parent].1 (event nd.parent) (event pre.length) = .ok out := by
      cases hm : pre[nd.parent].1 with
      | none => exact ⟨_, rfl⟩
      | some m =>
        obtain ⟨out, h, _⟩ := tableForward_spec (hv nd List.mem_cons_self).1 m (he pre.length) (hv nd List.mem_cons_self).2
        exact ⟨out, h⟩
    obtain ⟨out, hout⟩ := hout
    obtain ⟨results, h1, h2, h3, h4⟩ := ih (pre ++ [out])
      (fun i nd' h => by
        have := hord (i + 1) nd' (by simpa using h)
        rw [List.length_append, List.length_singleton]
        omega)
      (fun nd' h => hv nd' (List.mem_cons_of_mem _ h)) he
    have hl : (pre ++ [out]).length = pre.length + 1 := by simp
    have hpre : ∀ j < pre.length, results[j]? = pre[j]? := fun j hj => by
      rw [h3 j (by omega), List.getElem?_append_left hj]
    refine ⟨results, ?_, ?_, hpre, ?_⟩
    · simp only [passFrom, hr, hout, bind, Except.bind]
      exact h1
    · rw [h2, hl, List.length_cons]; omega
    · intro i nd' hi
      cases i with
      | zero =>
        simp only [List.getElem?_cons_zero, Option.some.injEq] at hi
        subst hi
        refine ⟨_, out, (hpre _ h0).trans hr, by simpa using hout, ?_⟩
        rw [Nat.add_zero, h3 _ (by omega)]
        simp
      | succ i =>
        obtain ⟨r, out', ha, hb, hc⟩ := h4 i nd' (by simpa using hi)
        have e1 : (pre ++ [out]).length + i = pre.length + (i + 1) := by rw [hl]; omega
        rw [e1] at hb hc
        exact ⟨r, out', ha, hb, hc⟩

/-! ### Sums over the states of the ancestors -/

theorem evidenceProb_cons (root : List (ℤ × ℝ)) (Ts : List Table) (e : List ℤ) (es : List (List ℤ)) :
    evidenceProb root Ts (e :: es) = (e.map fun t => stateProb root Ts t es).sum := by
  unfold evidenceProb stateProb
  simp only [List.sections]
  induction List.sections es with
  | nil => simp
  | cons a l ih =>
    rw [List.flatMap_cons, List.map_append, List.sum_append, ih]
    simp only [List.map_cons, List.sum_cons, List.map_map]
    rw [List.sum_map_add]
    rfl

theorem stateProb_child (root : List (ℤ × ℝ)) (T : Table) (Ts : List Table) (t : ℤ) (ep : List ℤ) (es : List (List ℤ)) :
    stateProb root (T :: Ts) t (ep :: es) = (ep.map fun s => given T s t * stateProb root Ts s es).sum := by
  unfold stateProb
  simp only [List.sections]
  induction List.sections es with
  | nil => simp
  | cons a l ih =>
    rw [List.flatMap_cons, List.map_append, List.sum_append, ih]
    simp only [List.map_cons, List.sum_cons, List.map_map, mul_add]
    rw [List.sum_map_add]
    rfl

theorem lineage_cons {net : Network} {n : ℕ} {Ts : List Table} {ns : List ℕ} (h : Lineage net n Ts ns) :
    ∃ ns', ns = n :: ns' := by
  cases h with
  | root => exact ⟨_, rfl⟩
  | child => exact ⟨_, rfl⟩

theorem stateProb_nonneg {net : Network} (hv : Valid net) {n : ℕ} {Ts : List Table} {ns : List ℕ}
    (h : Lineage net n Ts ns) (event : ℕ → List ℤ) (t : ℤ) : 0 ≤ stateProb net.root Ts t (ns.tail.map event) := by
  induction h generalizing t with
  | root =>
    simp only [stateProb, List.tail_cons, List.map_nil, List.sections, List.map_cons, List.sum_cons, List.sum_nil, add_zero, pathProb]
    exact lookup_nonneg hv.root.2 t
  | @child i nd Ts ns hi hl ih =>
    obtain ⟨ns', rfl⟩ := lineage_cons hl
    rw [List.tail_cons, List.map_cons, stateProb_child]
    exact List.sum_nonneg (by
      intro x hx
      obtain ⟨s, _, rfl⟩ := List.mem_map.1 hx
      exact mul_nonneg (given_nonneg (hv.rows nd (List.mem_of_getElem? hi)) s t) (ih s))

/-- The sum over the own states of the joint probability, the parent's states first. -/
theorem evidenceProb_child (root : List (ℤ × ℝ)) (T : Table) (Ts : List Table) (e ep : List ℤ) (es : List (List ℤ)) :
    evidenceProb root (T :: Ts) (e :: ep :: es) = (ep.map fun s => stateProb root Ts s es * rowMass T e s).sum := by
  rw [evidenceProb_cons]
  simp only [stateProb_child]
  induction ep with
  | nil => simp
  | cons a ep ih =>
    simp only [List.map_cons, List.sum_cons, List.sum_map_add, ih, rowMass, List.sum_map_mul_right]
    ring

theorem sum_eq_zero_of_nonneg {l : List ℤ} {f : ℤ → ℝ} (h0 : ∀ k, 0 ≤ f k) (h : (l.map f).sum = 0) : ∀ k ∈ l, f k = 0 := by
  intro k hk
  have := List.single_le_sum (l := l.map f) (by
    intro x hx
    obtain ⟨s, _, rfl⟩ := List.mem_map.1 hx
    exact h0 s) (f k) (List.mem_map_of_mem hk)
  exact le_antisymm (h ▸ this) (h0 k)

/-- One step of the pass: from a right message of the parent to the results of the child. -/
theorem step_right {net : Network} (hv : Valid net) {event : ℕ → List ℤ} (hc : Covers net event) {i : ℕ} {nd : TableNode}
    {Ts : List Table} {ns : List ℕ} (hi : net.nodes[i]? = some nd) (hl : Lineage net nd.parent Ts (nd.parent :: ns)) {r out : Result}
    (hr : RightMessage net.root event Ts (nd.parent :: ns) r)
    (ho : tableForward nd.table r.1 (event nd.parent) (event (i + 1)) = .ok out) :
    RightProbability net.root event (nd.table :: Ts) ((i + 1) :: nd.parent :: ns) out ∧
    (Unselective nd.table (event nd.parent) (event (i + 1)) →
      RightMessage net.root event (nd.table :: Ts) ((i + 1) :: nd.parent :: ns) out) := by
  have hT := hv.rows nd (List.mem_of_getElem? hi)
  have hev := evidenceProb_child net.root nd.table Ts (event (i + 1)) (event nd.parent) (ns.map event)
  have hmp := evidenceProb_cons net.root Ts (event nd.parent) (ns.map event)
  have hnn : ∀ s, 0 ≤ stateProb net.root Ts s (ns.map event) := fun s => stateProb_nonneg hv hl event s
  obtain ⟨hr1, hr2⟩ := hr
  by_cases hM : evidenceProb net.root Ts ((nd.parent :: ns).map event) = 0
  · rw [hr1 hM] at ho
    simp only [tableForward, Except.ok.injEq] at ho
    subst ho
    refine ⟨fun h => absurd hM h, fun _ => ⟨fun _ => rfl, fun h => absurd ?_ h⟩⟩
    simp only [List.map_cons] at hM ⊢
    rw [hev]
    rw [hmp] at hM
    have hz := sum_eq_zero_of_nonneg hnn hM
    refine List.sum_eq_zero ?_
    intro x hx
    obtain ⟨s, hs, rfl⟩ := List.mem_map.1 hx
    rw [hz s hs, zero_mul]
  · obtain ⟨m, hm, hlook⟩ := hr2 hM
    simp only [List.map_cons] at hM hlook
    rw [hm] at ho
    obtain ⟨out', h1, h2, w, hw, h3, h4⟩ := tableForward_spec hT m (hc.nodup (i + 1)) (hc.rows nd (List.mem_of_getElem? hi))
    rw [ho] at h1
    injection h1 with h1
    subst h1
    set M := evidenceProb net.root Ts (event nd.parent :: ns.map event) with hMdef
    constructor
    · intro _
      simp only [List.map_cons, List.tail_cons]
      rw [h2, hev, ← hMdef, div_eq_mul_inv, ← List.sum_map_mul_right]
      congr 1
      refine List.map_congr_left fun s hs => ?_
      rw [hlook s, if_pos hs]
      ring
    · rintro ⟨c, hc0, hcs⟩
      have hwt : ∀ t ∈ event (i + 1), w t =
          stateProb net.root (nd.table :: Ts) t ((nd.parent :: ns).map event) / (M * c) := by
        intro t ht
        rw [hw t, if_pos ht, List.map_cons, stateProb_child, div_eq_mul_inv, ← List.sum_map_mul_right]
        congr 1
        refine List.map_congr_left fun s hs => ?_
        rw [hlook s, if_pos hs, rowMass, hcs s hs]
        field_simp
      have hE : evidenceProb net.root (nd.table :: Ts) (event (i + 1) :: (nd.parent :: ns).map event) = M * c := by
        rw [List.map_cons, hev, hmp, ← List.sum_map_mul_right]
        congr 1
        refine List.map_congr_left fun s hs => ?_
        rw [rowMass, hcs s hs]
      have hMc : M * c ≠ 0 := mul_ne_zero hM hc0.ne'
      have hsw : ((event (i + 1)).map w).sum = 1 := by
        rw [List.map_congr_left hwt]
        simp only [div_eq_mul_inv]
        rw [List.sum_map_mul_right, ← evidenceProb_cons, hE, mul_inv_cancel₀ hMc]
      have hout : evidenceProb net.root (nd.table :: Ts) (((i + 1) :: nd.parent :: ns).map event) = M * c := by
        rw [← hE, List.map_cons]
      refine ⟨fun h => absurd h (by rw [hout]; exact hMc), fun _ => ?_⟩
      obtain ⟨d, hd1, hd2⟩ := h4 (by rw [hsw]; exact one_ne_zero)
      refine ⟨d, hd1, fun t => ?_⟩
      rw [hd2 t, hsw, div_one, hout]
      by_cases ht : t ∈ event (i + 1)
      · rw [if_pos ht, hwt t ht]
      · rw [if_neg ht, hw t, if_neg ht]

end PM.BN
