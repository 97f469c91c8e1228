import Verif.BN.CircuitLemmas

/-! The messages of a forward pass without evidence, in a network where every state is possible. -/

namespace PM.BN
open PM PM.BN.Spec
open PM.Leaf (lookup normalizeProbs)

theorem conditionOn_keys {probs c : List (ℤ × ℝ)} {e : List ℤ} {p : ℝ} (h : conditionOn probs e = (some c, p)) :
    c.map Prod.fst = e.filter fun k => 0 < lookup probs k := by
  simp only [conditionOn] at h
  split_ifs at h
  · exact absurd (Prod.mk.inj h).1 (by simp)
  have h := Option.some.inj (Prod.mk.inj h).1
  rw [← h, normalizeProbs_keys, List.map_map]
  exact List.map_id _

theorem accumulate_keys (c : List (ℤ × ℝ)) (p : ℝ) : ∀ d : List (ℤ × ℝ), (∀ k ∈ c.map Prod.fst, k ∈ d.map Prod.fst) →
    (accumulate d c p).map Prod.fst = d.map Prod.fst := by
  induction c with
  | nil => intro d _; rfl
  | cons a c ih =>
    intro d h
    have ha : a.1 ∈ d.map Prod.fst := h _ (by simp)
    have hk : (Dict.set d a.1 (lookup d a.1 + p * a.2)).map Prod.fst = d.map Prod.fst := by rw [keys_set, if_pos ha]
    rw [← hk]
    refine ih _ fun k hk' => ?_
    rw [hk]
    exact h k (by simp only [List.map_cons, List.mem_cons]; exact .inr hk')

theorem accumulate_new (c : List (ℤ × ℝ)) (p : ℝ) : ∀ d : List (ℤ × ℝ), (d.map Prod.fst ++ c.map Prod.fst).Nodup →
    (accumulate d c p).map Prod.fst = d.map Prod.fst ++ c.map Prod.fst := by
  induction c with
  | nil => intro d _; simp [accumulate]
  | cons a c ih =>
    intro d h
    have ha : a.1 ∉ d.map Prod.fst := by
      intro h'
      exact (List.nodup_append.1 h).2.2 _ h' a.1 (by simp) rfl
    have hk : (Dict.set d a.1 (lookup d a.1 + p * a.2)).map Prod.fst = d.map Prod.fst ++ [a.1] := by
      rw [keys_set, if_neg ha]
    have := ih (Dict.set d a.1 (lookup d a.1 + p * a.2)) (by rw [hk]; simpa using h)
    rw [hk] at this
    simpa [accumulate] using this

theorem forwardLoop_keys {T : Table} {m : List (ℤ × ℝ)} {e : List ℤ} : ∀ (ss : List ℤ) (acc out : List (ℤ × ℝ) × ℝ),
    forwardLoop T m e ss acc = .ok out → acc.1.map Prod.fst = e → out.1.map Prod.fst = e
  | [], acc, out, h, hk => by
    simp only [forwardLoop, Except.ok.injEq] at h
    rw [← h, hk]
  | s :: ss, acc, out, h, hk => by
    simp only [forwardLoop] at h
    split_ifs at h with h0
    · exact forwardLoop_keys ss acc out h hk
    · cases hr : row T s with
      | error x => rw [hr] at h; cases h
      | ok r =>
        rw [hr] at h
        simp only [bind, Except.bind] at h
        rcases hc : conditionOn r e with ⟨_ | c, p⟩
        · rw [hc] at h
          exact forwardLoop_keys ss acc out h hk
        · rw [hc] at h
          refine forwardLoop_keys ss _ out h ?_
          show (accumulate acc.1 c (lookup m s)).map Prod.fst = e
          rw [accumulate_keys c _ acc.1, hk]
          intro k hk'
          rw [conditionOn_keys hc] at hk'
          rw [hk]
          exact (List.mem_filter.1 hk').1

theorem forwardLoop_first {T : Table} {m : List (ℤ × ℝ)} {e : List ℤ} (he : e.Nodup) {s : ℤ} {ss : List ℤ}
    {out : List (ℤ × ℝ) × ℝ} (hm : lookup m s ≠ 0) (hT : ∀ r ∈ T, IsMass r.2) (hs : s ∈ T.map Prod.fst)
    (hfull : ∀ t ∈ e, 0 < given T s t) (hne : e ≠ []) (h : forwardLoop T m e (s :: ss) ([], 0) = .ok out) :
    out.1.map Prod.fst = e := by
  obtain ⟨r, hr1, hr2, hr3⟩ := row_spec hT hs
  rw [hr3] at hfull
  have hsum : (e.map (lookup r)).sum ≠ 0 := by
    refine (List.sum_pos _ ?_ (by simpa using hne)).ne'
    intro x hx
    obtain ⟨t, ht, rfl⟩ := List.mem_map.1 hx
    exact hfull t ht
  obtain ⟨c, hc, _⟩ := (conditionOn_spec hr2 he).2 hsum
  simp only [forwardLoop] at h
  rw [if_neg hm, hr1] at h
  simp only [bind, Except.bind] at h
  rw [hc] at h
  refine forwardLoop_keys ss _ out h ?_
  have hck : c.map Prod.fst = e := by
    rw [conditionOn_keys hc, List.filter_eq_self]
    intro t ht
    exact decide_eq_true (hfull t ht)
  show (accumulate [] c (lookup m s)).map Prod.fst = e
  rw [accumulate_new c _ [] (by rw [hck]; simpa using he), hck]
  simp

/-- What a message without evidence looks like. -/
structure Message (k : ℕ) (m : List (ℤ × ℝ)) : Prop where
  perm : (m.map Prod.fst).Perm (states k)
  pos : ∀ t : ℕ, t < k → 0 < lookup m t

theorem Message.of {k : ℕ} {m : List (ℤ × ℝ)} (h1 : Keyed (states k) m) (h2 : ∀ t : ℕ, t < k → 0 < lookup m t) : Message k m := by
  refine ⟨(List.perm_ext_iff_of_nodup h1.1 (nodup_states k)).2 fun t => ⟨h1.2 t, fun ht => ?_⟩, h2⟩
  obtain ⟨i, hi, rfl⟩ := mem_states.1 ht
  by_contra hn
  exact (h2 i hi).ne' (lookup_eq_zero hn)

theorem states_ne {k : ℕ} (hk : 0 < k) : states k ≠ [] := by
  intro h
  have := length_states k
  rw [h] at this
  simp at this
  omega

theorem root_message {root : List (ℤ × ℝ)} (hm : IsMass root) {k : ℕ} (hk : 0 < k) (hpos : ∀ t : ℕ, t < k → 0 < lookup root t) :
    ∃ m p, rootForward root (states k) = (some m, p) ∧ Message k m ∧ m.map Prod.fst = states k ∧
      ((∀ t ∈ root.map Prod.fst, 0 ≤ t ∧ t < (k : ℤ)) → (root.map Prod.snd).sum = 1 → ∀ t, lookup m t = lookup root t) := by
  have hpos' : ∀ t ∈ states k, 0 < lookup root t := by
    intro t ht
    obtain ⟨i, hi, rfl⟩ := mem_states.1 ht
    exact hpos i hi
  have hsum : 0 < ((states k).map (lookup root)).sum := by
    refine List.sum_pos _ ?_ (by simpa using states_ne hk)
    intro x hx
    obtain ⟨t, ht, rfl⟩ := List.mem_map.1 hx
    exact hpos' t ht
  obtain ⟨d, hd, hkd, hld⟩ := (conditionOn_spec hm (nodup_states k)).2 hsum.ne'
  refine ⟨d, _, hd, Message.of hkd fun t ht => ?_, ?_, ?_⟩
  · rw [hld, if_pos (mem_states.2 ⟨t, ht, rfl⟩)]
    exact div_pos (hpos t ht) hsum
  · rw [conditionOn_keys hd, List.filter_eq_self]
    intro t ht
    exact decide_eq_true (hpos' t ht)
  · intro hdom h1 t
    rw [← sum_keyed (nodup_states k) ⟨hm.1, fun t ht => mem_states'.2 (hdom t ht)⟩, h1] at hld
    rw [hld, div_one]
    split_ifs with ht
    · rfl
    · exact (lookup_eq_zero fun h => ht (mem_states'.2 (hdom t h))).symm

theorem table_message {T : Table} (hT : ∀ r ∈ T, IsMass r.2) {np nc : ℕ} (hnp : 0 < np) (hnc : 0 < nc)
    (hcov : ∀ s ∈ states np, s ∈ T.map Prod.fst) {m : List (ℤ × ℝ)} (hm : Message np m)
    (hposs : ∀ t : ℕ, t < nc → ∃ s : ℕ, s < np ∧ 0 < given T s t) {out : Result}
    (h : tableForward T (some m) (states np) (states nc) = .ok out) :
    ∃ d p, out = (some d, p) ∧ Message nc d ∧
      ((∀ t : ℕ, t < nc → 0 < given T 0 t) → d.map Prod.fst = states nc) := by
  obtain ⟨acc, h1, h2, h3, _⟩ := forwardLoop_spec hT m (nodup_states nc) (states np) hcov ([], 0) ⟨by simp, by simp⟩
  have hpos : ∀ t : ℕ, t < nc → 0 < lookup acc.1 t := by
    intro t ht
    rw [h3, lookup_nil, zero_add]
    have htm : (t : ℤ) ∈ states nc := mem_states.2 ⟨t, ht, rfl⟩
    simp only [if_pos htm]
    have hnn : ∀ s, 0 ≤ rowMass T (states nc) s := fun s => List.sum_nonneg (by
      intro x hx
      obtain ⟨t', _, rfl⟩ := List.mem_map.1 hx
      exact given_nonneg hT s t')
    obtain ⟨s, hs, hst⟩ := hposs t ht
    have hrm : 0 < rowMass T (states nc) s := by
      refine lt_of_lt_of_le hst (List.single_le_sum ?_ _ (List.mem_map.2 ⟨_, htm, rfl⟩))
      intro x hx
      obtain ⟨t', _, rfl⟩ := List.mem_map.1 hx
      exact given_nonneg hT s t'
    have hsm : (s : ℤ) ∈ states np := mem_states.2 ⟨s, hs, rfl⟩
    refine lt_of_lt_of_le (mul_pos (hm.pos s hs) (div_pos hst hrm)) (List.single_le_sum ?_ _ (List.mem_map.2 ⟨_, hsm, rfl⟩))
    intro x hx
    obtain ⟨s', hs', rfl⟩ := List.mem_map.1 hx
    obtain ⟨i, hi, rfl⟩ := mem_states.1 hs'
    exact mul_nonneg (hm.pos i hi).le (div_nonneg (given_nonneg hT _ _) (hnn _))
  have hsum : 0 < (acc.1.map Prod.snd).sum := by
    rw [sum_keyed (nodup_states nc) h2]
    refine List.sum_pos _ ?_ (by simpa using states_ne hnc)
    intro x hx
    obtain ⟨t, ht, rfl⟩ := List.mem_map.1 hx
    obtain ⟨i, hi, rfl⟩ := mem_states.1 ht
    exact hpos i hi
  simp only [tableForward, h1, bind, Except.bind] at h
  rw [if_neg hsum.ne'] at h
  injection h with h
  refine ⟨normalizeProbs acc.1, acc.2, h.symm, Message.of ?_ ?_, ?_⟩
  · unfold Keyed
    rw [normalizeProbs_keys]
    exact h2
  · intro t ht
    rw [normalizeProbs_lookup]
    exact div_pos (hpos t ht) hsum
  · intro hfull
    rw [normalizeProbs_keys]
    obtain ⟨np', rfl⟩ : ∃ np', np = np' + 1 := ⟨np - 1, by omega⟩
    have hst : ∃ ss, states (np' + 1) = 0 :: ss := by
      unfold states
      rw [List.range_succ_eq_map]
      exact ⟨_, rfl⟩
    obtain ⟨ss, hss⟩ := hst
    rw [hss] at h1
    refine forwardLoop_first (nodup_states nc) ?_ hT (hcov 0 (by rw [hss]; simp)) ?_ (states_ne hnc) h1
    · exact (hm.pos 0 (by omega)).ne'
    · intro t ht
      obtain ⟨i, hi, rfl⟩ := mem_states.1 ht
      exact hfull i hi

/-- The forward pass of `as_probabilistic_circuit`. -/
theorem pass_messages {net : Network} {sizes : ℕ → ℕ} (hv : Valid net) (hd : Domains net sizes) (ha : AllPossible net sizes) :
    ∃ results, forwardPass net (fun n => states (sizes n)) = .ok results ∧ results.length = net.nodes.length + 1 ∧
      (∀ n, n < net.nodes.length + 1 → ∃ m p, results[n]? = some (some m, p) ∧ Message (sizes n) m) ∧
      (∃ m p, results[0]? = some (some m, p) ∧ m.map Prod.fst = states (sizes 0) ∧
        ((net.root.map Prod.snd).sum = 1 → ∀ t, lookup m t = lookup net.root t)) ∧
      ∀ i nd, net.nodes[i]? = some nd → (∀ t : ℕ, t < sizes (i + 1) → 0 < given nd.table 0 t) →
        ∃ m p, results[i + 1]? = some (some m, p) ∧ m.map Prod.fst = states (sizes (i + 1)) := by
  have hcov : ∀ nd ∈ net.nodes, ∀ s ∈ states (sizes nd.parent), s ∈ nd.table.map Prod.fst := fun nd h s hs =>
    (hd.parents nd h s).2 (mem_states'.1 hs)
  obtain ⟨results, h1, h2, h3, h4⟩ := passFrom_spec (event := fun n => states (sizes n)) net.nodes
    [rootForward net.root (states (sizes 0))]
    (fun i nd h => by have := hv.order i nd h; rw [List.length_singleton]; omega)
    (fun nd h => ⟨hv.rows nd h, hcov nd h⟩) (fun n => nodup_states _)
  obtain ⟨m0, p0, hr0, hM0, hk0, hl0⟩ := root_message hv.root (hd.pos 0) ha.root
  have h0 : results[0]? = some (some m0, p0) := by
    rw [h3 0 (by simp)]
    simp [hr0]
  have hlen : results.length = net.nodes.length + 1 := by rw [h2, List.length_singleton]; omega
  have hall : ∀ n, n < net.nodes.length + 1 → ∃ m p, results[n]? = some (some m, p) ∧ Message (sizes n) m := by
    intro n
    induction n using Nat.strong_induction_on with
    | _ n ih =>
      intro hn
      cases n with
      | zero => exact ⟨m0, p0, h0, hM0⟩
      | succ i =>
        have hi : net.nodes[i]? = some net.nodes[i] := List.getElem?_eq_getElem (by omega)
        have hmem : net.nodes[i] ∈ net.nodes := List.getElem_mem _
        obtain ⟨r, out, ra, rb, rc⟩ := h4 i _ hi
        have hp := hv.order i _ hi
        obtain ⟨m, p, hmp, hM⟩ := ih net.nodes[i].parent (by omega) (by omega)
        rw [hmp] at ra
        injection ra with ra
        subst ra
        have e1 : [rootForward net.root (states (sizes 0))].length + i = i + 1 := by rw [List.length_singleton]; omega
        rw [e1] at rb rc
        obtain ⟨d, q, rfl, hM', _⟩ := table_message (hv.rows _ hmem) (hd.pos _) (hd.pos _) (hcov _ hmem) hM (ha.rows i _ hi) rb
        exact ⟨d, q, rc, hM'⟩
  refine ⟨results, h1, hlen, hall, ⟨m0, p0, h0, hk0, hl0 hd.root⟩, ?_⟩
  intro i nd hi hfull
  have hmem := List.mem_of_getElem? hi
  obtain ⟨r, out, ra, rb, rc⟩ := h4 i _ hi
  have hil : i < net.nodes.length := (List.getElem?_eq_some_iff.1 hi).1
  have hp := hv.order i _ hi
  obtain ⟨m, p, hmp, hM⟩ := hall nd.parent (by omega)
  rw [hmp] at ra
  injection ra with ra
  subst ra
  have e1 : [rootForward net.root (states (sizes 0))].length + i = i + 1 := by rw [List.length_singleton]; omega
  rw [e1] at rb rc
  obtain ⟨d, q, rfl, hM', hk⟩ := table_message (hv.rows _ hmem) (hd.pos _) (hd.pos _) (hcov _ hmem) hM (ha.rows i _ hi) rb
  exact ⟨d, q, rc, hk hfull⟩

end PM.BN
