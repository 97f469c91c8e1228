import Verif.BN.FromTable
import Verif.BN.ForwardLemmas
import Verif.Props.Multinomial

/-!
# C75: conditional probability tables read off a joint table
-/

namespace PM.Props

open Spec NdArray Multinomial

/-- The mass of the outcomes where `p` has the symbol `a` and `c` the symbol `b`. -/
noncomputable def pairMass (T : Multinomial) (p : SymVar) (a : ℤ) (c : SymVar) (b : ℤ) : ℝ :=
  cellMass T.probs {i | CellIn T [(p.var, .symbols [a]), (c.var, .symbols [b])] i}

/-- The mass of the outcomes where `p` has the symbol `a`. -/
noncomputable def stateMass (T : Multinomial) (p : SymVar) (a : ℤ) : ℝ :=
  cellMass T.probs {i | CellIn T [(p.var, .symbols [a])] i}

/-- C75 as claimed: the table gets a row for every state of the parent, and row and state together give the joint table back. -/
def C75_full : Prop := ∀ (T : Multinomial) (p c : SymVar) (d : BN.Table), Table T → T.vars.Perm [p, c] →
  ∃ d', BN.fromMultinomial c d T = .ok d' ∧ ∀ a ∈ p.domain, ∃ r, BN.row d' a = .ok r ∧
    ∀ b ∈ c.domain, Leaf.lookup r b * stateMass T p a = pairMass T p a c b

theorem cellMass_restrict {T C : Multinomial} (hs : C.probs.shape = T.probs.shape) {E A : Set (List ℕ)} {m : ℝ}
    (h : ∀ i, IsCell T.probs.shape i → (i ∈ E → C.probs.get i = T.probs.get i / m) ∧ (i ∉ E → C.probs.get i = 0)) :
    cellMass C.probs A = cellMass T.probs (A ∩ E) / m := by
  classical
  rw [cellMass_eq, cellMass_eq, hs]
  have key : ∀ l : List (List ℕ), (∀ i ∈ l, IsCell T.probs.shape i) →
      ((l.filter fun i => decide (i ∈ A)).map C.probs.get).sum =
        ((l.filter fun i => decide (i ∈ A ∩ E)).map T.probs.get).sum / m := by
    intro l
    induction l with
    | nil => simp
    | cons i l ih =>
      intro hl
      have hi := h i (hl i (by simp))
      have ih := ih fun j hj => hl j (by simp [hj])
      by_cases hA : i ∈ A
      · by_cases hE : i ∈ E
        · rw [List.filter_cons, if_pos (by simpa using hA), List.filter_cons, if_pos (by simp [hA, hE])]
          simp only [List.map_cons, List.sum_cons]
          rw [hi.1 hE, ih, add_div]
        · rw [List.filter_cons, if_pos (by simpa using hA), List.filter_cons, if_neg (by simp [hE])]
          simp only [List.map_cons, List.sum_cons]
          rw [hi.2 hE, ih, zero_add]
      · rw [List.filter_cons, if_neg (by simpa using hA), List.filter_cons, if_neg (by simp [hA])]
        exact ih
  have := key _ fun i hi => mem_cells.1 hi
  rw [this]
  congr 3
  exact List.filter_congr fun i _ => by simp

/-- A cell has index `k` at the axis of `c` exactly if `c` has the `k`-th symbol. -/
theorem mem_zip_iff_cellIn {T : Multinomial} (hT : Table T) {c : SymVar} (hc : c ∈ T.vars) {k : ℕ} (hk : k < c.domain.length)
    {i : List ℕ} (hi : IsCell T.probs.shape i) :
    (c, k) ∈ T.vars.zip i ↔ CellIn T [(c.var, .symbols [c.domain.getD k 0])] i := by
  rw [hT.shape] at hi
  have hlen : i.length = T.vars.length := by rw [hi.length_eq, List.length_map]
  have hbound : ∀ vk ∈ T.vars.zip i, vk.2 < vk.1.domain.length := by
    intro vk hvk
    obtain ⟨n, hn, rfl⟩ := List.mem_iff_getElem.1 hvk
    have h1 : n < T.vars.length := by simp at hn; omega
    have h2 : n < i.length := by omega
    have := (List.forall₂_iff_get.1 hi).2 n h2 (by simpa using h1)
    simpa using this
  have hfst : ∀ vk ∈ T.vars.zip i, vk.1 ∈ T.vars := fun vk h => (List.of_mem_zip (a := vk.1) (b := vk.2) h).1
  have hinj : ∀ v ∈ T.vars, v.var = c.var → v = c := fun v hv h => List.inj_on_of_nodup_map hT.vars hv hc h
  have huniq : ∀ vk ∈ T.vars.zip i, ∀ vk' ∈ T.vars.zip i, vk.1 = vk'.1 → vk = vk' := by
    have hn : ((T.vars.zip i).map Prod.fst).Nodup := by
      rw [List.map_fst_zip (by omega)]
      exact hT.vars_nodup
    exact fun vk h vk' h' e => List.inj_on_of_nodup_map hn h h' e
  constructor
  · intro h vk hvk p hp hpv
    simp only [List.mem_singleton] at hp
    subst hp
    have h1 : vk = (c, k) := huniq vk hvk _ h (hinj _ (hfst _ hvk) hpv.symm)
    subst h1
    simp [VSet.Mem]
  · intro h
    obtain ⟨n, hn, hcn⟩ := List.mem_iff_getElem.1 hc
    have hmem : (c, i[n]'(by omega)) ∈ T.vars.zip i :=
      List.mem_iff_getElem.2 ⟨n, by simp; omega, by simp [hcn]⟩
    have h1 := h _ hmem (c.var, .symbols [c.domain.getD k 0]) (by simp) rfl
    have hb := hbound _ hmem
    simp only at hb
    simp only [VSet.Mem, List.mem_singleton] at h1
    rw [List.getD_eq_getElem _ _ hb, List.getD_eq_getElem _ _ hk] at h1
    obtain ⟨s, hs, hs'⟩ := h1
    have h2 : c.domain[i[n]'(by omega)]'hb = c.domain[k]'hk := by rw [← hs]; exact_mod_cast hs'.symm
    have : i[n]'(by omega) = k := (hT.domains c hc).getElem_inj_iff.1 h2
    rwa [this] at hmem

theorem lookup_range (f : ℕ → ℝ) {n k : ℕ} (hk : k < n) :
    Leaf.lookup ((List.range n).map fun (j : ℕ) => ((j : ℤ), f j)) (k : ℤ) = f k := by
  have : ∀ l : List ℕ, k ∈ l → Leaf.lookup (l.map fun (j : ℕ) => ((j : ℤ), f j)) (k : ℤ) = f k := by
    intro l
    induction l with
    | nil => simp
    | cons j l ih =>
      intro h
      by_cases hj : j = k
      · subst hj; simp [Leaf.lookup]
      · have := ih (by simpa [Ne.symm hj] using h)
        rw [← this]
        simp [Leaf.lookup, hj]
  exact this _ (by simpa using hk)

/-- The row of a possible state. -/
theorem rowOfState_eq {T : Multinomial} (hT : Table T) {p c : SymVar} (hp : p ∈ T.vars) (hc : c ∈ T.vars) {a : ℤ}
    (ha : a ∈ p.domain) :
    (stateMass T p a = 0 → BN.rowOfState T p c a = .error .attributeError) ∧
    (stateMass T p a ≠ 0 → ∃ r, BN.rowOfState T p c a = .ok r ∧ ∀ k, k < c.domain.length →
      Leaf.lookup r (k : ℤ) * stateMass T p a = pairMass T p a c (c.domain.getD k 0)) ∧
    ∀ r, BN.rowOfState T p c a = .ok r → r.map Prod.fst = (List.range c.domain.length).map fun (k : ℕ) => (k : ℤ) := by
  have hE : ∀ e ∈ [[(p.var, VSet.symbols [a])]], TableEvent T e := by
    intro e he
    simp only [List.mem_singleton] at he
    subst he
    refine ⟨by simp, fun v hv A hA => ?_⟩
    simp only [List.mem_singleton, Prod.mk.injEq] at hA
    have : v = p := List.inj_on_of_nodup_map hT.vars hv hp hA.1
    subst this
    exact ⟨[a], hA.2, by simp, by simpa using ha⟩
  have hd : DisjointEvents T [[(p.var, VSet.symbols [a])]] := by simp [DisjointEvents]
  have hset : {i | ∃ e ∈ [[(p.var, VSet.symbols [a])]], CellIn T e i} = {i | CellIn T [(p.var, .symbols [a])] i} := by
    ext i
    exact ⟨fun ⟨e, he, h⟩ => by simp only [List.mem_singleton] at he; subst he; exact h, fun h => ⟨_, by simp, h⟩⟩
  obtain ⟨h0, h1⟩ := C35_conditional hT hE hd
  rw [hset] at h0 h1
  refine ⟨fun h => ?_, fun h => ?_, fun r hr => ?_⟩
  · rw [BN.rowOfState, h0 h]
    rfl
  · obtain ⟨C, hC, hv, hCT, hC1, hget⟩ := h1 h
    obtain ⟨M, hM, -, -, -, hMget⟩ := C34_marginal_partial hCT (vs := [c]) (by rw [hv]; simpa using hc)
    refine ⟨_, by rw [BN.rowOfState, hC]; simp only [bind, Except.bind, hM]; rfl, fun k hk => ?_⟩
    rw [lookup_range _ hk, hMget [k] (by simpa [IsCell] using hk), hC1, div_one]
    have hshape : C.probs.shape = T.probs.shape := by rw [hCT.shape, hT.shape, hv]
    rw [cellMass_restrict hshape (E := {i | CellIn T [(p.var, .symbols [a])] i}) (m := stateMass T p a), div_mul_cancel₀ _ h]
    · refine cellMass_congr rfl (fun i hi => ?_) fun _ _ _ => rfl
      have hz := mem_zip_iff_cellIn hT hc hk hi
      simp only [hv]
      constructor
      · rintro ⟨h2, h3⟩ vk hvk q hq
        have h2' := hz.1 (by simpa using h2)
        rcases List.mem_cons.1 hq with rfl | hq
        · exact h3 vk hvk _ (by simp)
        · exact h2' vk hvk q hq
      · intro h2
        refine ⟨?_, fun vk hvk q hq => h2 vk hvk q (by simp at hq; simp [hq])⟩
        have := hz.2 fun vk hvk q hq => h2 vk hvk q (by simp at hq; simp [hq])
        simpa using this
    · intro i hi
      rw [hget i hi]
      have hiff : (∃ e ∈ [[(p.var, VSet.symbols [a])]], CellIn T e i) ↔ i ∈ {i | CellIn T [(p.var, .symbols [a])] i} := by
        rw [← hset]; rfl
      constructor
      · intro hi; rw [if_pos (hiff.2 hi)]; rfl
      · intro hi; rw [if_neg fun h => hi (hiff.1 h)]
  · by_cases h : cellMass T.probs {i | CellIn T [(p.var, .symbols [a])] i} = 0
    · rw [BN.rowOfState, h0 h] at hr
      simp [bind, Except.bind, throw, throwThe, MonadExceptOf.throw] at hr
    · obtain ⟨C, hC, hv, hCT, -⟩ := h1 h
      obtain ⟨M, hM, -⟩ := C34_marginal_partial hCT (vs := [c]) (by rw [hv]; simpa using hc)
      rw [BN.rowOfState, hC] at hr
      simp only [bind, Except.bind, hM, pure, Except.pure, Except.ok.injEq] at hr
      rw [← hr, List.map_map]
      rfl

theorem row_set_self (d : BN.Table) (s : ℤ) (r : List (ℤ × ℝ)) : BN.row (Dict.set d s r) s = .ok r := by
  classical
  rw [Dict.set]
  split
  · rename_i h
    have : ∀ d : BN.Table, s ∈ d.map Prod.fst → BN.row (d.map fun p => if p.1 = s then (s, r) else p) s = .ok r := by
      intro d
      induction d with
      | nil => simp
      | cons p d ih =>
        intro h
        by_cases hp : p.1 = s
        · simp [BN.row, hp]
        · have := ih (by simpa [Ne.symm hp] using h)
          simpa [BN.row, hp] using this
    convert this d h using 4
    split_ifs <;> rfl
  · rename_i h
    have : d.find? (fun p => decide (p.1 = s)) = none := by
      rw [List.find?_eq_none]
      intro p hp hps
      exact h (List.mem_map.2 ⟨p, hp, by simpa using hps⟩)
    simp [BN.row, List.find?_append, this]

theorem row_set_other (d : BN.Table) {s s' : ℤ} (h : s' ≠ s) (r : List (ℤ × ℝ)) : BN.row (Dict.set d s r) s' = BN.row d s' := by
  classical
  rw [Dict.set]
  split
  · induction d with
    | nil => rfl
    | cons p d ih =>
      rename_i hm
      by_cases hp : p.1 = s
      · have hp' : p.1 ≠ s' := fun e => h (e.symm.trans hp)
        have key : BN.row (d.map fun p => @ite _ (p.1 = s) (Classical.propDecidable _) (s, r) p) s' = BN.row d s' := by
          by_cases hd : s ∈ d.map Prod.fst
          · exact ih hd
          · congr 1
            conv_rhs => rw [← List.map_id d]
            refine List.map_congr_left fun q hq => ?_
            rw [if_neg fun e => hd (List.mem_map.2 ⟨q, hq, e⟩)]
            rfl
        simpa [BN.row, hp, hp', Ne.symm h] using key
      · have := ih (by simpa [Ne.symm hp] using hm)
        by_cases hp' : p.1 = s'
        · simp [BN.row, hp', h]
        · simpa [BN.row, hp, hp'] using this
  · simp only [BN.row, List.find?_append]
    cases d.find? (fun p => decide (p.1 = s')) <;> simp [Ne.symm h]

theorem fillRows_ok {T : Multinomial} {p c : SymVar} {R : ℤ → List (ℤ × ℝ)} : ∀ {ss : List ℤ} (d : BN.Table), ss.Nodup →
    (∀ s ∈ ss, BN.rowOfState T p c s = .ok (R s)) → ∃ d', BN.fillRows T p c ss d = .ok d' ∧
      (∀ s ∈ ss, BN.row d' s = .ok (R s)) ∧ ∀ s, s ∉ ss → BN.row d' s = BN.row d s
  | [], d, _, _ => ⟨d, rfl, by simp, fun _ _ => rfl⟩
  | s :: ss, d, hn, h => by
    obtain ⟨d', h1, h2, h3⟩ := fillRows_ok (Dict.set d s (R s)) (List.nodup_cons.1 hn).2 fun t ht => h t (by simp [ht])
    refine ⟨d', ?_, ?_, ?_⟩
    · simp only [BN.fillRows, h s (by simp), bind, Except.bind]
      exact h1
    · intro t ht
      rcases List.mem_cons.1 ht with rfl | ht
      · rw [h3 t (List.nodup_cons.1 hn).1, row_set_self]
      · exact h2 t ht
    · intro t ht
      simp only [List.mem_cons, not_or] at ht
      rw [h3 t ht.2, row_set_other _ ht.1]

theorem fillRows_error {T : Multinomial} {p c : SymVar} {e : PyErr} : ∀ {ss : List ℤ} (d : BN.Table),
    (∀ s ∈ ss, (∃ r, BN.rowOfState T p c s = .ok r) ∨ BN.rowOfState T p c s = .error e) →
    (∃ s ∈ ss, BN.rowOfState T p c s = .error e) → BN.fillRows T p c ss d = .error e
  | [], _, _, h => by simp at h
  | s :: ss, d, h, he => by
    rcases h s (by simp) with ⟨r, hr⟩ | hr
    · simp only [BN.fillRows, hr, bind, Except.bind]
      refine fillRows_error _ (fun t ht => h t (by simp [ht])) ?_
      obtain ⟨t, ht, hte⟩ := he
      rcases List.mem_cons.1 ht with rfl | ht
      · rw [hr] at hte; simp at hte
      · exact ⟨t, ht, hte⟩
    · simp only [BN.fillRows, hr, bind, Except.bind]

theorem fromMultinomial_eq {T : Multinomial} (hT : Table T) {p c : SymVar} (hpc : T.vars.Perm [p, c]) (d : BN.Table) :
    BN.fromMultinomial c d T = BN.fillRows T p c p.domain d := by
  have hne : p ≠ c := by
    have := hpc.nodup_iff.1 hT.vars_nodup
    simpa using this
  rcases List.perm_pair.1 hpc with h | h
  · simp [BN.fromMultinomial, h, hne]
  · simp [BN.fromMultinomial, h]

/-- **C75**, as far as it holds, in terms of positions: if every state of the parent is possible, every state gets a row, and the entry at
position `k` times the mass of the state is the mass of the state with the `k`-th symbol of the variable.  Rows of other numbers stay. -/
theorem C75_positions_partial {T : Multinomial} (hT : Table T) {p c : SymVar} (hpc : T.vars.Perm [p, c]) (d : BN.Table)
    (hpos : ∀ a ∈ p.domain, stateMass T p a ≠ 0) :
    ∃ d', BN.fromMultinomial c d T = .ok d' ∧ (∀ a ∈ p.domain, ∃ r, BN.row d' a = .ok r ∧
      ∀ k, k < c.domain.length → Leaf.lookup r (k : ℤ) * stateMass T p a = pairMass T p a c (c.domain.getD k 0)) ∧
      ∀ a, a ∉ p.domain → BN.row d' a = BN.row d a := by
  have hp : p ∈ T.vars := hpc.mem_iff.2 (by simp)
  have hc : c ∈ T.vars := hpc.mem_iff.2 (by simp)
  choose! R hR hR' using fun a (ha : a ∈ p.domain) => (rowOfState_eq hT hp hc ha).2.1 (hpos a ha)
  obtain ⟨d', h1, h2, h3⟩ := fillRows_ok d (hT.domains p hp) hR
  exact ⟨d', by rw [fromMultinomial_eq hT hpc, h1], fun a ha => ⟨R a, h2 a ha, hR' a ha⟩, h3⟩

/-- **C75**, as far as it holds: every state of the parent is possible and the symbols of the variable are numbered `0, 1, …`. -/
theorem C75_table_partial {T : Multinomial} (hT : Table T) {p c : SymVar} (hpc : T.vars.Perm [p, c]) (d : BN.Table)
    (hpos : ∀ a ∈ p.domain, stateMass T p a ≠ 0) {n : ℕ} (hdom : c.domain = (List.range n).map fun (k : ℕ) => (k : ℤ)) :
    ∃ d', BN.fromMultinomial c d T = .ok d' ∧ ∀ a ∈ p.domain, ∃ r, BN.row d' a = .ok r ∧
      ∀ b ∈ c.domain, Leaf.lookup r b * stateMass T p a = pairMass T p a c b := by
  obtain ⟨d', h1, h2, -⟩ := C75_positions_partial hT hpc d hpos
  refine ⟨d', h1, fun a ha => ?_⟩
  obtain ⟨r, hr, hr'⟩ := h2 a ha
  refine ⟨r, hr, fun b hb => ?_⟩
  rw [hdom] at hb
  obtain ⟨k, hk, rfl⟩ := List.mem_map.1 hb
  have hk : k < n := by simpa using hk
  have := hr' k (by simp [hdom, hk])
  rw [this]
  congr 1
  rw [List.getD_eq_getElem _ _ (by simp [hdom, hk])]
  simp [hdom]

/-- **C75**, the other case: one impossible state of the parent makes the call fail with an `AttributeError`. -/
theorem C75_impossible_state {T : Multinomial} (hT : Table T) {p c : SymVar} (hpc : T.vars.Perm [p, c]) (d : BN.Table)
    {a : ℤ} (ha : a ∈ p.domain) (h0 : stateMass T p a = 0) : BN.fromMultinomial c d T = .error .attributeError := by
  have hp : p ∈ T.vars := hpc.mem_iff.2 (by simp)
  have hc : c ∈ T.vars := hpc.mem_iff.2 (by simp)
  rw [fromMultinomial_eq hT hpc]
  refine fillRows_error d (fun s hs => ?_) ⟨a, ha, (rowOfState_eq hT hp hc ha).1 h0⟩
  by_cases h : stateMass T p s = 0
  · exact .inr ((rowOfState_eq hT hp hc hs).1 h)
  · obtain ⟨r, hr, -⟩ := (rowOfState_eq hT hp hc hs).2.1 h
    exact .inl ⟨r, hr⟩

/-- C75 does not hold: in the example table `X = 1` is impossible. -/
theorem C75_full_false : ¬ C75_full := by
  intro h
  obtain ⟨d', h1, -⟩ := h exTable exX exY [] exTable_table (List.Perm.refl _)
  have h0 : stateMass exTable exX 1 = 0 := by
    rw [stateMass, exTable_mass, if_neg]
    intro hc
    have := hc (exX, 0) (by simp [exTable]) (exX.var, .symbols [1]) (by simp) rfl
    simp [VSet.Mem, exX] at this
  rw [C75_impossible_state exTable_table (List.Perm.refl _) [] (by simp [exX]) h0] at h1
  simp at h1

theorem lookup_not_key {r : List (ℤ × ℝ)} {b : ℤ} (h : b ∉ r.map Prod.fst) : Leaf.lookup r b = 0 := by
  have : r.find? (fun p => p.1 == b) = none := by
    rw [List.find?_eq_none]
    intro p hp hpb
    exact h (List.mem_map.2 ⟨p, hp, by simpa using hpb⟩)
  rw [Leaf.lookup, this]

/-- The second reason why C75 does not hold: a symbol whose number is not a position of the domain has the probability `0` in every row,
whatever the joint table says. -/
theorem C75_other_symbols {T : Multinomial} (hT : Table T) {p c : SymVar} (hpc : T.vars.Perm [p, c]) (d : BN.Table)
    (hpos : ∀ a ∈ p.domain, stateMass T p a ≠ 0) {b : ℤ} (hb : b < 0 ∨ c.domain.length ≤ b) :
    ∃ d', BN.fromMultinomial c d T = .ok d' ∧ ∀ a ∈ p.domain, ∃ r, BN.row d' a = .ok r ∧ Leaf.lookup r b = 0 := by
  have hp : p ∈ T.vars := hpc.mem_iff.2 (by simp)
  have hc : c ∈ T.vars := hpc.mem_iff.2 (by simp)
  choose! R hR hR' using fun a (ha : a ∈ p.domain) => (rowOfState_eq hT hp hc ha).2.1 (hpos a ha)
  obtain ⟨d', h1, h2, -⟩ := fillRows_ok d (hT.domains p hp) hR
  refine ⟨d', by rw [fromMultinomial_eq hT hpc, h1], fun a ha => ⟨R a, h2 a ha, lookup_not_key ?_⟩⟩
  rw [(rowOfState_eq hT hp hc ha).2.2 _ (hR a ha)]
  intro h
  obtain ⟨k, hk, rfl⟩ := List.mem_map.1 h
  simp only [List.mem_range] at hk
  omega

/-- `P(X, Y)` with all four outcomes possible. -/
noncomputable def fullTable : Multinomial := ⟨[exX, exY], ⟨[2, 2], fun i => if i = [0, 1] then 3 else 1⟩⟩

theorem fullTable_table : Table fullTable where
  vars := by simp [fullTable, exX, exY]
  domains := by simp [fullTable, exX, exY]
  shape := by simp [fullTable, exX, exY]
  nonneg := by
    intro i _
    simp only [fullTable]
    split <;> norm_num
  pos := by
    rw [← total_eq]
    have : cells fullTable.probs.shape = [[0, 0], [0, 1], [1, 0], [1, 1]] := by rfl
    rw [total, this]
    simp [fullTable]
    norm_num

theorem fullTable_possible : ∀ a ∈ exX.domain, stateMass fullTable exX a ≠ 0 := by
  intro a ha
  have hcell : ∀ k, k < 2 → IsCell fullTable.probs.shape [k, 0] := fun k hk => by simp [IsCell, fullTable, hk]
  have key : ∀ k < 2, CellIn fullTable [(exX.var, .symbols [exX.domain.getD k 0])] [k, 0] := by
    intro k hk vk hvk p hp hpv
    simp only [List.mem_singleton] at hp
    subst hp
    simp only [fullTable, List.zip_cons_cons, List.zip_nil_right, List.mem_cons, List.not_mem_nil, or_false] at hvk
    rcases hvk with rfl | rfl
    · simp [VSet.Mem]
    · simp [exX, exY] at hpv
  have hlow : ∀ k < 2, 0 < stateMass fullTable exX (exX.domain.getD k 0) := by
    intro k hk
    have h1 : cellMass fullTable.probs {[k, 0]} = 1 := by
      rw [cellMass_singleton _ (hcell k hk)]
      simp [fullTable]
    have h2 := cellMass_union fullTable.probs (A := {[k, 0]})
      (B := {i | CellIn fullTable [(exX.var, .symbols [exX.domain.getD k 0])] i} \ {[k, 0]}) fun i _ h => h.2.2 h.1
    have h3 : {i | i ∈ ({[k, 0]} : Set (List ℕ)) ∨
        i ∈ {i | CellIn fullTable [(exX.var, .symbols [exX.domain.getD k 0])] i} \ {[k, 0]}} =
        {i | CellIn fullTable [(exX.var, .symbols [exX.domain.getD k 0])] i} := by
      ext i
      constructor
      · rintro (h | h)
        · rw [Set.mem_singleton_iff.1 h]; exact key k hk
        · exact h.1
      · intro h
        by_cases hi : i ∈ ({[k, 0]} : Set (List ℕ))
        · exact .inl hi
        · exact .inr ⟨h, hi⟩
    rw [h3] at h2
    rw [stateMass, h2, h1]
    have := cellMass_nonneg (a := fullTable.probs)
      (A := {i | CellIn fullTable [(exX.var, .symbols [exX.domain.getD k 0])] i} \ {[k, 0]}) fullTable_table.nonneg
    linarith
  have : a = 0 ∨ a = 1 := by simpa [exX] using ha
  rcases this with rfl | rfl
  · exact (hlow 0 (by norm_num)).ne'
  · exact (hlow 1 (by norm_num)).ne'

/-- The hypotheses of `C75_table_partial`: four possible outcomes of two binary variables. -/
example : Table fullTable ∧ fullTable.vars.Perm [exX, exY] ∧ (∀ a ∈ exX.domain, stateMass fullTable exX a ≠ 0) ∧
    exY.domain = (List.range 2).map fun (k : ℕ) => (k : ℤ) :=
  ⟨fullTable_table, List.Perm.refl _, fullTable_possible, by decide⟩

end PM.Props
