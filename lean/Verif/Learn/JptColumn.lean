import Verif.Spec.Jpt
import Verif.Props.Nyga
import Verif.Props.LeafDiscrete
import Verif.Circuit.Attach

/-! # The distributions in the leaves of a joint probability tree -/

namespace PM.Learn.Jpt

open Classical Graph Spec

theorem fold_set (c : ℤ × ℕ → ℝ) : ∀ (l : List (ℤ × ℕ)) (d : Dict ℤ ℝ), (∀ vc ∈ l, 0 < c vc) → (∀ kp ∈ d, 0 < kp.2) →
    (d.map Prod.fst).Nodup →
    (∀ kp ∈ l.foldl (fun d vc => Dict.set d (pyHash vc.1) (c vc)) d, 0 < kp.2) ∧
    ((l.foldl (fun d vc => Dict.set d (pyHash vc.1) (c vc)) d).map Prod.fst).Nodup ∧
    (∀ k ∈ d.map Prod.fst, k ∈ (l.foldl (fun d vc => Dict.set d (pyHash vc.1) (c vc)) d).map Prod.fst) ∧
    ∀ vc ∈ l, pyHash vc.1 ∈ (l.foldl (fun d vc => Dict.set d (pyHash vc.1) (c vc)) d).map Prod.fst
  | [], d, _, h2, h3 => ⟨h2, h3, fun _ h => h, by simp⟩
  | vc :: l, d, h1, h2, h3 => by
    have hc := h1 vc (by simp)
    have hset : (∀ kp ∈ Dict.set d (pyHash vc.1) (c vc), 0 < kp.2) ∧ ((Dict.set d (pyHash vc.1) (c vc)).map Prod.fst).Nodup ∧
        (∀ k ∈ d.map Prod.fst, k ∈ (Dict.set d (pyHash vc.1) (c vc)).map Prod.fst) ∧
        pyHash vc.1 ∈ (Dict.set d (pyHash vc.1) (c vc)).map Prod.fst := by
      by_cases hk : pyHash vc.1 ∈ d.map Prod.fst
      · have hm : (Dict.set d (pyHash vc.1) (c vc)).map Prod.fst = d.map Prod.fst := by
          rw [Dict.set, if_pos hk, List.map_map]
          refine List.map_congr_left fun p _ => ?_
          simp only [Function.comp]
          split
          · rename_i h; exact h.symm
          · rfl
        rw [hm]
        refine ⟨?_, h3, fun _ h => h, hk⟩
        intro kp hkp
        rw [Dict.set, if_pos hk] at hkp
        obtain ⟨p, hp, rfl⟩ := List.mem_map.1 hkp
        split
        · exact hc
        · exact h2 p hp
      · rw [Dict.set, if_neg hk]
        refine ⟨?_, ?_, ?_, by simp⟩
        · intro kp hkp
          rcases List.mem_append.1 hkp with h | h
          · exact h2 kp h
          · rw [List.mem_singleton.1 h]; exact hc
        · rw [List.map_append, List.nodup_append]
          refine ⟨h3, by simp, ?_⟩
          intro a ha b hb hab
          simp only [List.map_cons, List.map_nil, List.mem_singleton] at hb
          exact hk (hb ▸ hab ▸ ha)
        · intro k hk'
          rw [List.map_append, List.mem_append]
          exact .inl hk'
    obtain ⟨i1, i2, i3, i4⟩ := fold_set c l _ (fun x hx => h1 x (by simp [hx])) hset.1 hset.2.1
    rw [List.foldl_cons]
    refine ⟨i1, i2, fun k hk => i3 k (hset.2.2.1 k hk), ?_⟩
    intro x hx
    rcases List.mem_cons.1 hx with rfl | hx
    · exact i3 _ hset.2.2.2
    · exact i4 x hx

/-- Whatever the data, the fitted dictionary has positive probabilities, one per key, and a key for every datum. -/
theorem fitDiscrete_facts {data : List ℤ} (hne : data ≠ []) :
    (∀ kp ∈ Leaf.fitDiscrete data, 0 < kp.2) ∧ ((Leaf.fitDiscrete data).map Prod.fst).Nodup ∧
    ∀ v ∈ data, pyHash v ∈ (Leaf.fitDiscrete data).map Prod.fst := by
  have hlen : (0 : ℝ) < data.length := by exact_mod_cast List.length_pos_iff.2 hne
  obtain ⟨h1, h2, _, h4⟩ := fold_set (fun vc => (vc.2 : ℝ) / data.length) (npUnique data) [] (by
    intro vc hvc
    obtain ⟨hm, hc⟩ := mem_npUnique.1 hvc
    have : 0 < vc.2 := by rw [hc]; exact List.count_pos_iff.2 hm
    exact div_pos (by exact_mod_cast this) hlen) (by simp) (by simp)
  refine ⟨h1, h2, ?_⟩
  intro v hv
  exact h4 (v, data.count v) (mem_npUnique.2 ⟨hv, rfl⟩)

theorem density_pos {probs : List (ℤ × ℝ)} (h1 : ∀ kp ∈ probs, 0 < kp.2) {k : ℤ} (hk : k ∈ probs.map Prod.fst) :
    0 < ((probs.filter fun kp => (kp.1 : ℝ) = (k : ℝ)).map Prod.snd).sum := by
  obtain ⟨kp, hkp, rfl⟩ := List.mem_map.1 hk
  refine List.sum_pos _ ?_ ?_
  · intro x hx
    obtain ⟨q, hq, rfl⟩ := List.mem_map.1 hx
    exact h1 q (List.mem_filter.1 hq).1
  · intro h0
    have : kp ∈ probs.filter fun q => (q.1 : ℝ) = (kp.1 : ℝ) := List.mem_filter.2 ⟨hkp, by simp⟩
    rw [List.map_eq_nil_iff.1 h0] at this
    simp at this

/-- What is known about the distribution of a column. -/
structure ColumnResult (cap : ℝ) (data : List Row) (ci : Column × ℕ) (g : Circuit) (r : Node) (F : (Leaf → ℝ) → ℝ) : Prop where
  eq : columnCircuit cap data ci.1 ci.2 = .ok (g, r)
  denotes : Denotes g r {columnVar ci.1} F
  unit : F (fun _ => 1) = 1
  pos : ∀ x ∈ data, ∀ p : Var → ℝ, Agrees p x ci → HashesToItself x ci → 0 < F (fun d => leafDensity d (p d.var))

theorem result_leaf {cap : ℝ} {data : List Row} {ci : Column × ℕ} {d : Leaf}
    (heq : columnCircuit cap data ci.1 ci.2 = .ok (newUnit 0 (.leaf d), 0)) (hd : d.Valid) (hv : d.var = columnVar ci.1)
    (hpos : ∀ x ∈ data, ∀ p : Var → ℝ, Agrees p x ci → HashesToItself x ci → 0 < leafDensity d (p d.var)) :
    ColumnResult cap data ci (newUnit 0 (.leaf d)) 0 (fun ℓ => ℓ d) :=
  ⟨heq, hv ▸ denotes_leaf 0 hd, rfl, hpos⟩

theorem exists_result {cap : ℝ} (hcap : 0 < cap) {data : List Row} (hne : data ≠ []) {ci : Column × ℕ} (hci : ColumnFits data ci) :
    ∃ g r F, ColumnResult cap data ci g r F := by
  obtain ⟨c, i⟩ := ci
  cases c with
  | other v => exact hci.elim
  | integer v =>
    have hne' : (data.map fun x => x.int i) ≠ [] := by simpa using hne
    obtain ⟨h1, h2, h3⟩ := fitDiscrete_facts hne'
    refine ⟨_, _, _, result_leaf rfl ⟨fun kp hkp => (h1 kp hkp).le, h2⟩ rfl ?_⟩
    intro x hx p hp hr
    have hk := h3 (x.int i) (List.mem_map.2 ⟨x, hx, rfl⟩)
    rw [pyHash_eq hr.1 hr.2] at hk
    have hp' : p v = (x.int i : ℝ) := hp
    simp only [leafDensity, Leaf.var, hp']
    exact density_pos h1 hk
  | symbolic v domain =>
    obtain ⟨h1, h2, h3⟩ := hci
    have hne' : (data.map fun x => x.int i) ≠ [] := by simpa using hne
    obtain ⟨probs, e1, e2, e3, e4, e5, e6⟩ := Props.C32_fit_symbolic hne' h1 h2 (by
      intro w hw
      obtain ⟨x, hx, rfl⟩ := List.mem_map.1 hw
      exact h3 x hx)
    refine ⟨_, _, _, result_leaf (d := .symbolic v probs) ?_ ⟨fun kp hkp => (e3 kp hkp).le, e5⟩ rfl ?_⟩
    · simp only [columnCircuit, e1, bind, Except.bind]
    · intro x hx p hp _
      obtain ⟨e, he, hex, hpe⟩ := hp
      simp only [leafDensity, Leaf.var, hpe]
      have hl := e2 e he
      have hk : e.2 ∈ probs.map Prod.fst := by
        by_contra hk
        rw [PM.lookup_eq_zero hk] at hl
        have hc : 0 < ((data.map fun x => x.int i).count e.1 : ℝ) := by
          exact_mod_cast List.count_pos_iff.2 (List.mem_map.2 ⟨x, hx, hex.symm⟩)
        have hlen : (0 : ℝ) < (data.map fun x => x.int i).length := by exact_mod_cast List.length_pos_iff.2 hne'
        exact (div_pos hc hlen).ne hl
      exact density_pos e3 hk
  | continuous P =>
    set col := data.map fun x => x.real i with hcol
    have hne' : col ≠ [] := by simpa [hcol] using hne
    by_cases h2 : ∃ x ∈ col, ∃ y ∈ col, x ≠ y
    · have hI : Props.FitInput P col none := ⟨hci.1, hci.2, h2, by simp⟩
      obtain ⟨E, hfit, hE, _, ch, hch, hperm, _⟩ := hI.result cap
      obtain ⟨g', r', hfit', hL', _, _, _, _, _, hpos⟩ := Props.C39_fit hI cap
      have hF := Nyga.fine_of (data := col) (weights := none) h2 (by simp)
      set U := (npUnique col).map Prod.fst
      set ws := Nyga.weightsOf col none
      set E' := E.map fun x => Nyga.entry P.var U ws x.1 x.2 with hE'
      rw [hfit] at hfit'
      injection hfit' with hg
      have hEne : E' ≠ [] := by
        intro h0
        rw [hE', List.map_eq_nil_iff] at h0
        subst h0
        have h0 := hperm.symm.eq_nil
        subst h0
        have htwo := hF.two
        generalize U.length = n at hch htwo
        cases hch
        omega
      have hvalid : ∀ x ∈ E', x.2.1.Valid ∧ x.2.1.var = P.var := by
        intro x hx
        obtain ⟨y, hy, rfl⟩ := List.mem_map.1 hx
        have hb := hch.bounds y.2 (hperm.mem_iff.1 (List.mem_map.2 ⟨y, hy, rfl⟩))
        exact ⟨Props.quantile_valid hF hb.2.1 hb.2.2, rfl⟩
      have hD := hE.denotes hEne hvalid
      refine ⟨leafMix 0 E', 0, _, ⟨?_, hD, ?_, ?_⟩⟩
      · simp only [columnCircuit, bind, Except.bind]
        rw [← hcol, hfit]
        simp only [hE.layered.root]
      · have hw := (Props.C40_weights_partial hI hfit hE.layered.root).2.1
        rw [hE.out, List.map_map] at hw
        simp only [mul_one]
        exact hw
      · intro x hx p hp _
        have hp' : p P.var = x.real i := hp
        obtain ⟨q, hq, hlik⟩ := hpos (x.real i) (List.mem_map.2 ⟨x, hx, rfl⟩) freshMem
        rw [← hg] at hlik
        obtain ⟨sc, hs, _, _⟩ := hD.scope
        obtain ⟨f, hf⟩ := (Props.C01_formula_exists_unique hD.layered (fun _ => x.real i)).1
        obtain ⟨_, _, _, _, hlik'⟩ := Props.C01_loglikelihood hD.layered hs hD.valid (fun _ => x.real i) hf freshMem
        rw [hlik] at hlik'
        injection hlik' with hlik'
        rw [hD.value _ f hf] at hlik'
        rw [hlik'] at hq
        refine lt_of_lt_of_eq hq ?_
        refine congrArg List.sum (List.map_congr_left ?_)
        intro y hy
        simp only [(hvalid y hy).2, hp']
    · push Not at h2
      obtain ⟨a, ha⟩ := List.exists_mem_of_ne_nil _ hne'
      have hall : ∀ y ∈ col, y = a := fun y hy => h2 y hy a ha
      refine ⟨_, _, _, result_leaf (d := .dirac P.var a cap) ?_ hcap rfl ?_⟩
      · have hfit : Nyga.fit P cap col none = .ok (newUnit 0 (.leaf (.dirac P.var a cap))) := Props.fit_single hne' hall cap none
        simp only [columnCircuit, bind, Except.bind]
        rw [← hcol, hfit]
        simp only [(layered_newUnit 0 (Kind.leaf (Leaf.dirac P.var a cap))).root]
      · intro x hx p hp _
        have hp' : p P.var = x.real i := hp
        have hxa : x.real i = a := hall _ (List.mem_map.2 ⟨x, hx, rfl⟩)
        simp only [leafDensity, Leaf.var, hp', hxa, if_pos]
        exact hcap

end PM.Learn.Jpt
