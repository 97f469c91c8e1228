import Verif.BN.Messages
import Verif.Spec.Density

/-! The loop over the edges of a Bayesian network. -/

namespace PM.BN
open PM PM.BN.Spec Graph PM.Spec
open PM.Leaf (lookup normalizeProbs)

/-- The densities of the leaves at an assignment. -/
noncomputable def densAt (x : ℕ → ℤ) (d : Leaf) : ℝ := leafDensity d ((x d.var : ℤ) : ℝ)

/-- The position of the state of a node in the list `K n`, as an integer. -/
noncomputable def posIn (K : ℕ → List ℤ) (x : ℕ → ℤ) (n : ℕ) : ℤ := ((K n).idxOf (x n) : ℕ)

/-- The conditional probability that node `q.2 + 1` contributes, read at positions. -/
noncomputable def factorAt (K : ℕ → List ℤ) (x : ℕ → ℤ) (q : TableNode × ℕ) : ℝ :=
  given q.1.table (posIn K x q.1.parent) (posIn K x (q.2 + 1))

/-- The circuits before the edge into node `j` is mounted: those of the nodes up to `j` are complete. -/
def Assembly (net : Network) (sizes : ℕ → ℕ) (K : ℕ → List ℤ) (j : ℕ) (parts : List Part) : Prop :=
  ∃ (V : ℕ → Finset Var) (F : ℕ → ℕ → (Leaf → ℝ) → ℝ) (R : ℕ → (ℕ → ℤ) → ℝ),
    (∀ n ≤ j, ∃ g u, parts[n]? = some (g, u) ∧ Mixture g u (V n) (sizes n) (F n)) ∧
    (∀ n ≤ j, ∀ x, ∀ k < sizes n, F n k (densAt x) = if k = (K n).idxOf (x n) then R n x else 0) ∧
    (∀ a ≤ j, ∀ b ≤ j, a ≠ b → Disjoint (V a) (V b)) ∧
    (∀ v, v ≤ net.nodes.length ↔ ∃ n ≤ j, v ∈ V n) ∧
    ∀ x, ∏ n ∈ Finset.range (j + 1), R n x = ((net.nodes.zipIdx.drop j).map (factorAt K x)).prod

variable {net : Network} {sizes : ℕ → ℕ} {K : ℕ → List ℤ} {results : List Result}

theorem interactionTerm_ok {T : Table} {m : List (ℤ × ℝ)} {np nc : ℕ} (hnp : 0 < np) (hm : Message np m)
    (hp : ∀ s, s ∈ T.map Prod.fst ↔ 0 ≤ s ∧ s < (np : ℤ)) (hr : ∀ r ∈ T, ∀ t ∈ r.2.map Prod.fst, 0 ≤ t ∧ t < (nc : ℤ))
    (h1 : ∀ r ∈ T, (r.2.map Prod.snd).sum = 1) : interactionTerm T m np nc = .ok (jointTerms T m) := by
  unfold interactionTerm
  rw [if_neg, if_neg, if_neg]
  · obtain ⟨r, hrT, _⟩ := List.mem_map.1 ((hp 0).2 ⟨le_rfl, by omega⟩)
    have hr1 := h1 r hrT
    cases hq : r.2 with
    | nil => rw [hq] at hr1; simp at hr1
    | cons q l =>
      refine List.ne_nil_of_mem (List.mem_flatMap.2 ⟨r, hrT, List.mem_map.2 ⟨q, by rw [hq]; simp, rfl⟩⟩)
  · rintro ⟨r, hrT, _, h⟩
    have := (hp r.1).1 (List.mem_map.2 ⟨r, hrT, rfl⟩)
    have h2 := hm.pos r.1.toNat (by omega)
    rw [show ((r.1.toNat : ℕ) : ℤ) = r.1 by omega] at h2
    exact h h2
  · rintro ⟨r, hrT, h | ⟨q, hq, h⟩⟩
    · exact h (mem_states'.2 ((hp r.1).1 (List.mem_map.2 ⟨r, hrT, rfl⟩)))
    · exact h (mem_states'.2 (hr r hrT q.1 (List.mem_map.2 ⟨q, hq, rfl⟩)))

theorem sum_given_pos {T : Table} {M : ℕ} (hr : ∀ r ∈ T, ∀ t ∈ r.2.map Prod.fst, 0 ≤ t ∧ t < (M : ℤ)) (k idx : ℕ) (c : ℝ) :
    ∑ j ∈ Finset.range M, given T k j * (if j = idx then c else 0) = given T k idx * c := by
  by_cases h : idx < M
  · rw [Finset.sum_eq_single idx]
    · rw [if_pos rfl]
    · intro j _ hne; rw [if_neg hne, mul_zero]
    · intro h'; exact absurd (Finset.mem_range.2 h) h'
  · rw [given_outside hr _ (by omega), zero_mul]
    refine Finset.sum_eq_zero fun j hj => ?_
    rw [if_neg, mul_zero]
    have := Finset.mem_range.1 hj
    omega

/-- One round of the loop. -/
theorem mount_step (hv : Valid net) (hs : Stochastic net) (hd : Domains net sizes)
    (hmsg : ∀ n, n < net.nodes.length + 1 → ∃ m p, results[n]? = some (some m, p) ∧ Message (sizes n) m)
    {i : ℕ} (hi : i < net.nodes.length) {parts : List Part} (hA : Assembly net sizes K (i + 1) parts) :
    ∃ parts', mountChild net sizes results parts i = .ok parts' ∧ Assembly net sizes K i parts' ∧
      (i = 0 → ∀ m p, results[0]? = some (some m, p) → ∃ (g : Circuit) (u : Node) (V : Finset Var) (F : ℕ → (Leaf → ℝ) → ℝ),
        parts'[0]? = some (g, u) ∧ Mixture g u V (sizes 0) F ∧ (∀ v, v ≤ net.nodes.length ↔ v ∈ V) ∧
        ∀ x f, CircuitValue g (densAt x) f → f u = lookup m (posIn K x 0) * (net.nodes.zipIdx.map (factorAt K x)).prod) := by
  obtain ⟨V, F, R, hM, hF, hV, hcov, hR⟩ := hA
  have hnd : net.nodes[i]? = some net.nodes[i] := List.getElem?_eq_getElem hi
  set nd := net.nodes[i] with hnddef
  have hmem : nd ∈ net.nodes := List.getElem_mem _
  have hp := hv.order i nd hnd
  obtain ⟨g, u, hg, hMg⟩ := hM nd.parent (by omega)
  obtain ⟨h, o, hh, hMh⟩ := hM (i + 1) le_rfl
  obtain ⟨m, p, hm, hmm⟩ := hmsg nd.parent (by omega)
  have hrows := hd.rows i nd hnd
  have hpar := hd.parents nd hmem
  have hmass := hv.rows nd hmem
  have hone := hs.rows nd hmem
  have hit : interactionTerm nd.table m (sizes nd.parent) (sizes (i + 1)) = .ok (jointTerms nd.table m) :=
    interactionTerm_ok (hd.pos _) hmm hpar hrows hone
  have hboth := bothProbability_eq (hd.keys nd hmem) hmass m
  have hsumg : ∀ k : ℕ, k < sizes nd.parent → ∑ j ∈ Finset.range (sizes (i + 1)), given nd.table k j = 1 := fun k hk =>
    sum_given hmass hrows hone ((hpar k).2 ⟨by omega, by omega⟩)
  have hown : ∀ k : ℕ, k < sizes nd.parent → ownProbability (jointTerms nd.table m) (h.succ o).length k = lookup m k := by
    intro k hk
    rw [ownProbability_eq, hMh.count]
    simp only [hboth, ← Finset.mul_sum, hsumg k hk, mul_one]
  have hmnn : ∀ (k : ℕ) (j : ℕ), 0 ≤ bothProbability (jointTerms nd.table m) k j := by
    intro k j
    rw [hboth]
    by_cases hk : k < sizes nd.parent
    · exact mul_nonneg (hmm.pos k hk).le (given_nonneg hmass _ _)
    · have : lookup m k = 0 := lookup_eq_zero fun h' => by
        have := mem_states'.1 (hmm.perm.mem_iff.1 h')
        omega
      rw [this, zero_mul]
  have hne : nd.parent ≠ i + 1 := by omega
  obtain ⟨G, hG1, hG2, hG3, _⟩ := hMg.interaction (hMh.copyAt g.fresh) (hV _ (by omega) _ le_rfl hne) (disjointIds_copyAt g h)
    (pc := ownProbability (jointTerms nd.table m) (h.succ o).length) (pq := bothProbability (jointTerms nd.table m))
    (fun k hk => by rw [hown k hk]; exact hmm.pos k hk) hmnn
    (fun k hk => by rw [hown k hk]; simp only [hboth, ← Finset.mul_sum, hsumg k hk, mul_one])
  have hquot : ∀ k < sizes nd.parent, ∀ j : ℕ, bothProbability (jointTerms nd.table m) k j /
      ownProbability (jointTerms nd.table m) (h.succ o).length k = given nd.table k j := by
    intro k hk j
    rw [hown k hk, hboth, mul_div_cancel_left₀ _ (hmm.pos k hk).ne']
  have hpl : nd.parent < parts.length := (List.getElem?_eq_some_iff.1 hg).1
  have hFnew : ∀ x, ∀ k < sizes nd.parent, F nd.parent k (densAt x) * ∑ j ∈ Finset.range (sizes (i + 1)),
      bothProbability (jointTerms nd.table m) k j / ownProbability (jointTerms nd.table m) (h.succ o).length k *
        F (i + 1) j (densAt x) =
      if k = (K nd.parent).idxOf (x nd.parent) then R nd.parent x * (factorAt K x (nd, i) * R (i + 1) x) else 0 := by
    intro x k hk
    have : ∑ j ∈ Finset.range (sizes (i + 1)),
        bothProbability (jointTerms nd.table m) k j / ownProbability (jointTerms nd.table m) (h.succ o).length k *
        F (i + 1) j (densAt x) = given nd.table k (posIn K x (i + 1)) * R (i + 1) x := by
      rw [posIn, ← sum_given_pos hrows]
      refine Finset.sum_congr rfl fun j hj => ?_
      rw [hquot k hk, hF (i + 1) le_rfl x j (Finset.mem_range.1 hj)]
    rw [this, hF nd.parent (by omega) x k hk]
    split_ifs with hk'
    · subst hk'; rfl
    · rw [zero_mul]
  have hAll : ∀ x, ∏ n ∈ Finset.range (i + 1), (Function.update R nd.parent
      (fun x => R nd.parent x * (factorAt K x (nd, i) * R (i + 1) x)) n) x =
      ((net.nodes.zipIdx.drop i).map (factorAt K x)).prod := by
    intro x
    have hd' : net.nodes.zipIdx.drop i = (nd, i) :: net.nodes.zipIdx.drop (i + 1) := by
      rw [List.drop_eq_getElem_cons (by simpa using hi)]
      simp [hnddef]
    have hpm : nd.parent ∈ Finset.range (i + 1) := Finset.mem_range.2 (by omega)
    rw [hd', List.map_cons, List.prod_cons, ← hR x, Finset.prod_range_succ _ (i + 1),
      ← Finset.mul_prod_erase _ _ hpm, ← Finset.mul_prod_erase _ (fun n => R n x) hpm, Function.update_self]
    have : ∏ n ∈ (Finset.range (i + 1)).erase nd.parent, (Function.update R nd.parent
        (fun x => R nd.parent x * (factorAt K x (nd, i) * R (i + 1) x)) n) x =
        ∏ n ∈ (Finset.range (i + 1)).erase nd.parent, R n x := by
      refine Finset.prod_congr rfl fun n hn => ?_
      rw [Function.update_of_ne (Finset.ne_of_mem_erase hn)]
    rw [this]
    ring
  have hcov' : ∀ v, v ≤ net.nodes.length ↔
      ∃ n ≤ i, v ∈ Function.update V nd.parent (V nd.parent ∪ V (i + 1)) n := by
    intro v
    rw [hcov v]
    constructor
    · rintro ⟨n, hn, hvn⟩
      by_cases h1 : n = i + 1
      · exact ⟨nd.parent, hp, by rw [Function.update_self, Finset.mem_union]; exact .inr (h1 ▸ hvn)⟩
      · refine ⟨n, by omega, ?_⟩
        by_cases h2 : n = nd.parent
        · rw [h2, Function.update_self, Finset.mem_union]; exact .inl (h2 ▸ hvn)
        · rw [Function.update_of_ne h2]; exact hvn
    · rintro ⟨n, hn, hvn⟩
      by_cases h2 : n = nd.parent
      · rw [h2, Function.update_self, Finset.mem_union] at hvn
        rcases hvn with hvn | hvn
        · exact ⟨_, by omega, hvn⟩
        · exact ⟨_, le_rfl, hvn⟩
      · rw [Function.update_of_ne h2] at hvn
        exact ⟨n, by omega, hvn⟩
  refine ⟨parts.set nd.parent (G, u), ?_, ⟨Function.update V nd.parent (V nd.parent ∪ V (i + 1)),
    Function.update F nd.parent (fun k ℓ => F nd.parent k ℓ * ∑ j ∈ Finset.range (sizes (i + 1)),
      bothProbability (jointTerms nd.table m) k j / ownProbability (jointTerms nd.table m) (h.succ o).length k * F (i + 1) j ℓ),
    Function.update R nd.parent (fun x => R nd.parent x * (factorAt K x (nd, i) * R (i + 1) x)), ?_, ?_, ?_, hcov', hAll⟩, ?_⟩
  · simp only [mountChild, hnd, hm, hg, hh, hit, bind, Except.bind, hG1]
  · intro n hn
    by_cases h2 : n = nd.parent
    · subst h2
      refine ⟨G, u, by rw [List.getElem?_set_self hpl], ?_⟩
      rw [Function.update_self, Function.update_self]
      exact hG2
    · obtain ⟨g', u', hg', hM'⟩ := hM n (by omega)
      refine ⟨g', u', by rw [List.getElem?_set_ne (Ne.symm h2), hg'], ?_⟩
      rw [Function.update_of_ne h2, Function.update_of_ne h2]
      exact hM'
  · intro n hn x k hk
    by_cases h2 : n = nd.parent
    · subst h2
      rw [Function.update_self, Function.update_self]
      exact hFnew x k hk
    · rw [Function.update_of_ne h2, Function.update_of_ne h2]
      exact hF n (by omega) x k hk
  · intro a ha b hb hab
    by_cases h2 : a = nd.parent
    · subst h2
      rw [Function.update_self, Function.update_of_ne (Ne.symm hab), Finset.disjoint_union_left]
      exact ⟨hV _ (by omega) _ (by omega) hab, hV _ le_rfl _ (by omega) (by omega)⟩
    · by_cases h3 : b = nd.parent
      · subst h3
        rw [Function.update_self, Function.update_of_ne hab, Finset.disjoint_union_right]
        exact ⟨hV _ (by omega) _ (by omega) hab, hV _ (by omega) _ le_rfl (by omega)⟩
      · rw [Function.update_of_ne h2, Function.update_of_ne h3]
        exact hV _ (by omega) _ (by omega) hab
  · intro hi0 m' p' hm'
    have hp0 : nd.parent = 0 := by omega
    rw [hp0] at hm
    have hmm' : m' = m := by
      rw [hm] at hm'
      injection hm' with h'
      exact (Option.some.inj (Prod.mk.inj h').1).symm
    subst hmm'
    refine ⟨G, u, _, _, by rw [hp0] at hpl ⊢; rw [List.getElem?_set_self hpl], by rw [← hp0]; exact hG2, ?_, ?_⟩
    · intro v
      rw [hcov' v]
      constructor
      · rintro ⟨n, hn, hvn⟩
        rw [show n = nd.parent by omega, Function.update_self] at hvn
        exact hvn
      · intro hvn
        exact ⟨nd.parent, hp, by rw [Function.update_self]; exact hvn⟩
    · intro x f hf
      rw [hG3 _ f hf]
      have h1 : ∀ k ∈ Finset.range (sizes nd.parent), ownProbability (jointTerms nd.table m') (h.succ o).length k *
          (F nd.parent k (densAt x) * ∑ j ∈ Finset.range (sizes (i + 1)),
          bothProbability (jointTerms nd.table m') k j / ownProbability (jointTerms nd.table m') (h.succ o).length k *
          F (i + 1) j (densAt x)) =
          if k = (K nd.parent).idxOf (x nd.parent) then lookup m' (posIn K x 0) *
            (R nd.parent x * (factorAt K x (nd, i) * R (i + 1) x)) else 0 := by
        intro k hk
        have hk := Finset.mem_range.1 hk
        rw [hFnew x k hk, hown k hk]
        split_ifs with hk'
        · rw [posIn, hk', hp0]
        · rw [mul_zero]
      rw [Finset.sum_congr rfl h1, Finset.sum_ite_eq']
      have h2 := hAll x
      subst hi0
      have h3 : Finset.range (0 + 1) = {nd.parent} := by rw [hp0]; rfl
      rw [h3, Finset.prod_singleton, Function.update_self, List.drop_zero] at h2
      rw [h2]
      split_ifs with hk
      · rfl
      · have : lookup m' (posIn K x 0) = 0 := lookup_eq_zero fun h' => by
          rw [← hp0] at h'
          have := mem_states'.1 (hmm.perm.mem_iff.1 h')
          rw [Finset.mem_range] at hk
          unfold posIn at this
          omega
        rw [this, zero_mul]

/-- The whole loop but the last round. -/
theorem mount_loop (hv : Valid net) (hs : Stochastic net) (hd : Domains net sizes)
    (hmsg : ∀ n, n < net.nodes.length + 1 → ∃ m p, results[n]? = some (some m, p) ∧ Message (sizes n) m) {parts : List Part}
    (hA : Assembly net sizes K net.nodes.length parts) : ∀ (d j : ℕ), j + d = net.nodes.length →
    ∃ parts', (List.range' j d).reverse.foldlM (mountChild net sizes results) parts = .ok parts' ∧ Assembly net sizes K j parts' := by
  intro d
  induction d with
  | zero => intro j hj; exact ⟨parts, rfl, by rw [show j = net.nodes.length by omega]; exact hA⟩
  | succ d ih =>
    intro j hj
    obtain ⟨parts1, h1, h2⟩ := ih (j + 1) (by omega)
    obtain ⟨parts2, h3, h4, _⟩ := mount_step hv hs hd hmsg (i := j) (by omega) h2
    refine ⟨parts2, ?_, h4⟩
    rw [List.range'_succ, List.reverse_cons, List.foldlM_append, h1]
    simp only [bind, Except.bind, List.foldlM_cons, h3, List.foldlM_nil]
    rfl

/-- The sum units of the messages. -/
theorem initial_assembly (hd : Domains net sizes) (hlen : results.length = net.nodes.length + 1)
    (hmsg : ∀ n, n < net.nodes.length + 1 → ∃ m p, results[n]? = some (some m, p) ∧ Message (sizes n) m)
    (hK : ∀ n, n < net.nodes.length + 1 → ∃ m p, results[n]? = some (some m, p) ∧ m.map Prod.fst = K n) :
    ∃ parts, (results.zipIdx.mapM fun q => messagePart q.1 q.2) = .ok parts ∧ Assembly net sizes K net.nodes.length parts := by
  have hpart : ∀ n, n < net.nodes.length + 1 → ∃ r g u, results[n]? = some r ∧ messagePart r n = .ok (g, u) ∧
      Mixture g u {n} (sizes n) (fun i ℓ => ℓ (.symbolic n [((K n).getD i 0, 1)])) := by
    intro n hn
    obtain ⟨m, p, h1, h2⟩ := hmsg n hn
    obtain ⟨m', p', h1', h2'⟩ := hK n hn
    rw [h1] at h1'
    injection h1' with h1'
    have : m = m' := Option.some.inj (Prod.mk.inj h1').1
    subst this
    have hl : m.length = sizes n := by
      have := h2.perm.length_eq
      rwa [List.length_map, length_states] at this
    obtain ⟨g, u, h3, h4⟩ := messagePart_mixture (n := n) hl (hd.pos n) p
    exact ⟨_, g, u, h1, h3, by rw [← h2']; exact h4⟩
  have : Nonempty Circuit := ⟨newUnit 0 .sum⟩
  choose! r g u hr hmp hmix using hpart
  refine ⟨results.zipIdx.map fun q => (g q.2, u q.2), mapM_eq_map ?_, ?_⟩
  · rintro ⟨q, n⟩ hq
    have h1 := List.mk_mem_zipIdx_iff_getElem?.1 hq
    have hn : n < net.nodes.length + 1 := by
      rw [← hlen]; exact (List.getElem?_eq_some_iff.1 h1).1
    have := hr n hn
    rw [h1] at this
    injection this with this
    subst this
    exact hmp n hn
  · refine ⟨fun n => {n}, fun n i ℓ => ℓ (.symbolic n [((K n).getD i 0, 1)]), fun _ _ => 1, ?_, ?_, ?_, ?_, ?_⟩
    · intro n hn
      refine ⟨g n, u n, ?_, hmix n (by omega)⟩
      rw [List.getElem?_map, List.getElem?_zipIdx, hr n (by omega)]
      simp
    · intro n hn x k hk
      obtain ⟨m, p, h1, h2⟩ := hmsg n (by omega)
      obtain ⟨m', p', h1', h2'⟩ := hK n (by omega)
      rw [h1] at h1'
      injection h1' with h1'
      have : m = m' := Option.some.inj (Prod.mk.inj h1').1
      subst this
      have hperm := h2.perm
      rw [h2'] at hperm
      have hnod : (K n).Nodup := hperm.nodup_iff.2 (nodup_states _)
      have hkl : k < (K n).length := by rw [hperm.length_eq, length_states]; exact hk
      have hgd : (K n).getD k 0 = (K n)[k] := by simp [List.getD_eq_getElem?_getD, hkl]
      have e1 : densAt x (.symbolic n [((K n).getD k 0, 1)]) = if (K n)[k] = x n then 1 else 0 := by
        rw [hgd]
        show ((List.filter (fun kp : ℤ × ℝ => decide ((kp.1 : ℝ) = ((x n : ℤ) : ℝ))) [((K n)[k], 1)]).map Prod.snd).sum = _
        by_cases h : (K n)[k] = x n <;> simp [h]
      show densAt x _ = _
      rw [e1]
      congr 1
      rw [eq_iff_iff]
      constructor
      · intro h
        rw [← h, hnod.idxOf_getElem]
      · intro h
        subst h
        exact List.getElem_idxOf hkl
    · intro a _ b _ hab
      exact Finset.disjoint_singleton.2 hab
    · intro v
      constructor
      · intro hv; exact ⟨v, hv, Finset.mem_singleton_self v⟩
      · rintro ⟨n, hn, h⟩
        rw [Finset.mem_singleton.1 h]; exact hn
    · intro x
      rw [List.drop_eq_nil_of_le (by simp)]
      simp

/-- The circuit of a network in which all states are possible: the probabilities are read at the positions of the states in
the messages. -/
theorem asProbabilisticCircuit_spec (hv : Valid net) (hs : Stochastic net) (hd : Domains net sizes) (ha : AllPossible net sizes)
    (hne : net.nodes ≠ []) :
    ∃ (K : ℕ → List ℤ) (G : Circuit) (u : Node) (V : Finset Var) (F : ℕ → (Leaf → ℝ) → ℝ),
      asProbabilisticCircuit net sizes = .ok G ∧ Mixture G u V (sizes 0) F ∧ (∀ v, v ≤ net.nodes.length ↔ v ∈ V) ∧
      (∀ x f, CircuitValue G (densAt x) f →
        f u = lookup net.root (posIn K x 0) * (net.nodes.zipIdx.map (factorAt K x)).prod) ∧
      (∀ n, n < net.nodes.length + 1 → ∃ results r, forwardPass net (fun n => states (sizes n)) = .ok results ∧
        results[n]? = some r ∧ ∃ m, r.1 = some m ∧ m.map Prod.fst = K n ∧ (K n).Perm (states (sizes n))) ∧
      K 0 = states (sizes 0) ∧
      ∀ i nd, net.nodes[i]? = some nd → (∀ t : ℕ, t < sizes (i + 1) → 0 < given nd.table 0 t) → K (i + 1) = states (sizes (i + 1)) := by
  obtain ⟨results, h1, h2, h3, h4, h5⟩ := pass_messages hv hd ha
  have hex : ∀ n, ∃ k : List ℤ, n < net.nodes.length + 1 → ∃ m p, results[n]? = some (some m, p) ∧ m.map Prod.fst = k := by
    intro n
    by_cases hn : n < net.nodes.length + 1
    · obtain ⟨m, p, h, _⟩ := h3 n hn
      exact ⟨_, fun _ => ⟨m, p, h, rfl⟩⟩
    · exact ⟨[], fun h => absurd h hn⟩
  choose K hK using hex
  have hKu : ∀ n m p k, n < net.nodes.length + 1 → results[n]? = some (some m, p) → m.map Prod.fst = k → K n = k := by
    intro n m p k hn hr hk
    obtain ⟨m', p', hr', hk'⟩ := hK n hn
    rw [hr] at hr'
    injection hr' with hr'
    have : m = m' := Option.some.inj (Prod.mk.inj hr').1
    rw [← hk', ← hk, this]
  obtain ⟨parts, p1, p2⟩ := initial_assembly hd h2 h3 hK
  obtain ⟨L, hL⟩ : ∃ L, net.nodes.length = L + 1 := by
    cases hn : net.nodes with
    | nil => exact absurd hn hne
    | cons a l => exact ⟨l.length, rfl⟩
  obtain ⟨parts1, q1, q2⟩ := mount_loop hv hs hd h3 p2 L 1 (by omega)
  obtain ⟨parts2, q3, _, q4⟩ := mount_step hv hs hd h3 (i := 0) (by omega) q2
  obtain ⟨m0, p0, r1, r2, r3⟩ := h4
  obtain ⟨G, u, V, F, g1, g2, g3, g4⟩ := q4 rfl m0 p0 r1
  refine ⟨K, G, u, V, F, ?_, g2, g3, ?_, ?_, ?_, ?_⟩
  · unfold asProbabilisticCircuit
    rw [h1]
    simp only [bind, Except.bind]
    rw [if_neg hne, p1]
    simp only
    have hrange : (List.range net.nodes.length).reverse = (List.range' 1 L).reverse ++ [0] := by
      rw [hL, List.range_eq_range', List.range'_succ, List.reverse_cons]
    rw [hrange, List.foldlM_append, q1]
    simp only [bind, Except.bind, List.foldlM_cons, q3, List.foldlM_nil]
    cases parts2 with
    | nil => simp at g1
    | cons q qs =>
      simp only [List.getElem?_cons_zero, Option.some.injEq] at g1
      subst g1
      rfl
  · intro x f hf
    rw [g4 x f hf, r3 hs.root]
  · intro n hn
    obtain ⟨m, p, hr, hk⟩ := hK n hn
    obtain ⟨m', p', hr', hM⟩ := h3 n hn
    rw [hr] at hr'
    injection hr' with hr'
    have : m = m' := Option.some.inj (Prod.mk.inj hr').1
    subst this
    exact ⟨results, _, h1, hr, m, rfl, hk, by rw [← hk]; exact hM.perm⟩
  · exact hKu 0 m0 p0 _ (by omega) r1 r2
  · intro i nd hi hfull
    obtain ⟨m, p, hr, hk⟩ := h5 i nd hi hfull
    have : i < net.nodes.length := (List.getElem?_eq_some_iff.1 hi).1
    exact hKu (i + 1) m p _ (by omega) hr hk

end PM.BN
