import Verif.Circuit.Conditional
import Verif.Spec.Conditioning
import Verif.Props.LeafConditional
import Verif.Circuit.ValueLemmas

/-! Helper lemmas: conditioning a leaf in place. -/

namespace PM

open Classical MeasureTheory ProbabilityTheory Spec Leaf Props

/-- What conditioning a leaf in place means. -/
def CondSpec (d : Leaf) (S : Set ℝ) : LeafCond → Prop
  | .impossible => (leafLaw d).real S = 0
  | .one d' p => p.exp = (leafLaw d).real S ∧ 0 < (leafLaw d).real S ∧ d'.Valid ∧ d'.Normalized ∧ d'.var = d.var ∧
      (∀ X, Fits d X → Fits d' X) ∧
      ∀ B, MeasurableSet B → (leafLaw d').real B = (leafLaw d).real (S ∩ B) / (leafLaw d).real S
  | .several ps => ps ≠ [] ∧ (ps.map fun q => q.2.exp).sum = (leafLaw d).real S ∧ 0 < (leafLaw d).real S

theorem discrete_real (probs : List (ℤ × ℝ)) (hp : ∀ kp ∈ probs, 0 ≤ kp.2) {A : Set ℝ} (hA : MeasurableSet A) :
    ((probs.map fun kp => ENNReal.ofReal kp.2 • Measure.dirac (kp.1 : ℝ)).sum).real A
      = (probs.map fun kp => A.indicator (fun _ => kp.2) (kp.1 : ℝ)).sum := by
  rw [measureReal_def, discrete_law_apply probs hp hA, ENNReal.toReal_ofReal]
  apply List.sum_nonneg
  intro x hx
  obtain ⟨kp, hkp, rfl⟩ := List.mem_map.1 hx
  exact Set.indicator_nonneg (fun _ _ => hp kp hkp) _

theorem sum_div (l : List (ℤ × ℝ)) (T : ℝ) (f : ℤ × ℝ → ℝ) : (l.map fun q => f q / T).sum = (l.map f).sum / T := by
  induction l with
  | nil => simp
  | cons a l ih => simp [ih, add_div]

theorem normalizeProbs_real {kept : List (ℤ × ℝ)} (hp : ∀ kp ∈ kept, 0 ≤ kp.2) {B : Set ℝ} (hB : MeasurableSet B) :
    (((normalizeProbs kept).map fun kp => ENNReal.ofReal kp.2 • Measure.dirac (kp.1 : ℝ)).sum).real B
      = (kept.map fun kp => B.indicator (fun _ => kp.2) (kp.1 : ℝ)).sum / (kept.map Prod.snd).sum := by
  have hT : 0 ≤ (kept.map Prod.snd).sum := List.sum_nonneg (by
    intro x hx; obtain ⟨q, hq, rfl⟩ := List.mem_map.1 hx; exact hp q hq)
  rw [discrete_real _ _ hB]
  · rw [← sum_div]
    simp only [normalizeProbs, List.map_map]
    congr 1
    apply List.map_congr_left
    intro q hq
    by_cases h : (q.1 : ℝ) ∈ B <;> simp [h]
  · intro q hq
    obtain ⟨q', hq', rfl⟩ := List.mem_map.1 hq
    exact div_nonneg (hp q' hq') hT

theorem discreteCond_spec {d : Leaf} {mk : List (ℤ × ℝ) → Leaf} {kept : List (ℤ × ℝ)} {S : Set ℝ}
    (hlawmk : ∀ l, leafLaw (mk l) = (l.map fun kp => ENNReal.ofReal kp.2 • Measure.dirac (kp.1 : ℝ)).sum)
    (hvalmk : ∀ l, (∀ kp ∈ l, 0 ≤ kp.2) → (l.map Prod.fst).Nodup → (mk l).Valid)
    (hnmk : ∀ l, (l.map Prod.snd).sum = 1 → (mk l).Normalized) (hvar : ∀ l, (mk l).var = d.var)
    (hfit : ∀ l X, Fits d X → Fits (mk l) X)
    (hp : ∀ kp ∈ kept, 0 ≤ kp.2) (hn : (kept.map Prod.fst).Nodup)
    (hkept : ∀ B, MeasurableSet B → (kept.map fun kp => B.indicator (fun _ => kp.2) (kp.1 : ℝ)).sum = (leafLaw d).real (S ∩ B)) :
    CondSpec d S (match discreteCond mk kept with
      | (none, _) => .impossible
      | (some d', p) => .one d' p) := by
  have hT : (kept.map Prod.snd).sum = (leafLaw d).real S := by
    have := hkept Set.univ MeasurableSet.univ
    simpa using this
  unfold discreteCond
  by_cases h0 : (kept.map Prod.snd).sum = 0
  · rw [if_pos h0]
    exact hT.symm.trans h0
  · rw [if_neg h0]
    have hpos : 0 < (leafLaw d).real S := by
      rw [← hT]
      refine lt_of_le_of_ne (List.sum_nonneg ?_) (Ne.symm h0)
      intro x hx; obtain ⟨q, hq, rfl⟩ := List.mem_map.1 hx; exact hp q hq
    refine ⟨?_, hpos, hvalmk _ ?_ ?_, hnmk _ (normalizeProbs_sum h0), hvar _, hfit _, ?_⟩
    · rw [LogP.exp_log (by rw [hT]; exact hpos.le), hT]
    · intro q hq
      obtain ⟨q', hq', rfl⟩ := List.mem_map.1 hq
      exact div_nonneg (hp q' hq') (by rw [hT]; exact hpos.le)
    · rw [normalizeProbs_keys]; exact hn
    · intro B hB
      rw [hlawmk, normalizeProbs_real hp hB, hkept B hB, hT]

theorem pieces_sum {ν : Measure ℝ} [IsFiniteMeasure ν] {Ks : List SimpleInterval} (h : (VSet.interval Ks).Disjoint) :
    (Ks.map fun K => ν.real K.toSet).sum = ν.real (VSet.interval Ks).toSet := by
  obtain ⟨hp, hne⟩ := h
  induction Ks with
  | nil =>
    have : (VSet.interval []).toSet = ∅ := by ext x; simp [VSet.toSet, VSet.Mem]
    simp [this]
  | cons K Ks ih =>
    obtain ⟨h1, h2⟩ := List.pairwise_cons.1 hp
    have e : (VSet.interval (K :: Ks)).toSet = K.toSet ∪ (VSet.interval Ks).toSet := by
      ext x; simp [VSet.toSet, VSet.Mem, SimpleInterval.toSet]
    rw [List.map_cons, List.sum_cons, ih h2 (fun i hi => hne i (by simp [hi])), e,
      measureReal_union _ (VSet.measurableSet_toSet _)]
    rw [Set.disjoint_left]
    rintro x hx ⟨i, hi, hxi⟩
    exact h1 i hi x ⟨hx, hxi⟩

theorem condInPlace_spec {d : Leaf} {A : VSet} (hd : d.Valid) (hf : Fits d A) (hA : A.Disjoint) (hp : ProperOn d A) :
    ∃ c, d.condInPlace A = .ok c ∧ CondSpec d A.toSet c := by
  have hfin := finite_leafLaw hd
  have discrete : ∀ {mk : List (ℤ × ℝ) → Leaf} {kept}, d.condInPlace A = (match d.logConditional A with
      | .error e => .error e
      | .ok (none, _) => .ok .impossible
      | .ok (some d', p) => .ok (.one d' p)) → d.logConditional A = .ok (discreteCond mk kept) →
      CondSpec d A.toSet (match discreteCond mk kept with
        | (none, _) => .impossible
        | (some d', p) => .one d' p) → ∃ c, d.condInPlace A = .ok c ∧ CondSpec d A.toSet c := by
    intro mk kept h1 h2 h3
    rw [h1, h2]
    cases h4 : discreteCond mk kept with
    | mk o p =>
      rw [h4] at h3
      cases o with
      | none => exact ⟨_, rfl, h3⟩
      | some d' => exact ⟨_, rfl, h3⟩
  have cont : d.Continuous → (∀ s I, d.support = .interval [s] → A = .interval I → ∀ i ∈ I, ¬ (s.inter i).IsSingleton) →
      (∃ I, A = .interval I) → (∀ I, d.condInPlace (.interval I) = match d.support.inter (.interval I) with
      | .symbols _ => .error .typeError
      | .interval [] => .ok .impossible
      | .interval [K] => (d.condSimple K).map fun r => .one r.1 r.2
      | .interval Ks => do
        let ps ← Ks.mapM d.condSimple
        match ps.filter fun q => 0 < q.2.exp with
        | [] => .ok .impossible
        | q :: qs => .ok (.several (q :: qs))) → ∃ c, d.condInPlace A = .ok c ∧ CondSpec d A.toSet c := by
    intro hc hsing ⟨I, hI⟩ hdef
    obtain ⟨s, hs⟩ := support_single hc
    subst hI
    rw [hdef]
    set Ks := (I.map fun j => s.inter j).filter fun k => ¬ k.IsEmpty with hKs
    have hinter : d.support.inter (.interval I) = .interval Ks := by
      rw [hs]; simp [VSet.inter, hKs]
    have hset : (VSet.interval Ks).toSet = d.support.toSet ∩ (VSet.interval I).toSet := by
      rw [← hinter, VSet.toSet_inter]
      rw [hs]; trivial
    have hlawset : ∀ B, MeasurableSet B → (leafLaw d).real ((VSet.interval Ks).toSet ∩ B) = (leafLaw d).real ((VSet.interval I).toSet ∩ B) := by
      intro B hB
      rw [hset, Set.inter_assoc, Set.inter_comm, measureReal_def, measureReal_def,
        law_inter_support hd hc ((VSet.measurableSet_toSet _).inter hB)]
    have hlaw0 : (leafLaw d).real (VSet.interval Ks).toSet = (leafLaw d).real (VSet.interval I).toSet := by
      simpa using hlawset Set.univ MeasurableSet.univ
    have hK : ∀ K ∈ Ks, K.lower < K.upper ∧ K.toSet ⊆ d.support.toSet := by
      intro K hK
      rw [hKs, List.mem_filter] at hK
      obtain ⟨hm, hne⟩ := hK
      obtain ⟨i, hi, rfl⟩ := List.mem_map.1 hm
      refine ⟨SimpleInterval.lower_lt_upper (by simpa using hne) (hsing s I hs rfl i hi), ?_⟩
      intro x hx
      rw [hs]
      exact ⟨s, by simp, ((SimpleInterval.mem_inter s i x).1 hx).1⟩
    have hdis : (VSet.interval Ks).Disjoint := by
      refine ⟨?_, fun i hi => by
        rw [hKs, List.mem_filter] at hi; simpa using hi.2⟩
      rw [hKs]
      apply List.Pairwise.filter
      rw [List.pairwise_map]
      exact hA.1.imp fun {a b} h x hx => h x
        ⟨((SimpleInterval.mem_inter s a x).1 hx.1).2, ((SimpleInterval.mem_inter s b x).1 hx.2).2⟩
    rw [hinter]
    have hone : ∀ K ∈ Ks, ∃ d' lp, d.condSimple K = .ok (d', lp) ∧ d'.Valid ∧ d'.Continuous ∧ d'.var = d.var ∧
        lp.exp = (leafLaw d).real K.toSet ∧ 0 < (leafLaw d).real K.toSet ∧ leafLaw d' = (leafLaw d)[|K.toSet] := by
      intro K hKm
      obtain ⟨d', lp, h1, h2, h3, h4, h5, h6, h7, h8⟩ := condSimple_density hd hc (hK K hKm).1 (hK K hKm).2
      exact ⟨d', lp, h1, h2, h3, h4, h5, h6, law_cond_of_density hd hc h3 (SimpleInterval.measurableSet_toSet K) h6 h8⟩
    clear_value Ks
    match Ks, hone, hlaw0, hlawset, hdis with
    | [], _, hlaw0, _, _ =>
      refine ⟨.impossible, rfl, ?_⟩
      show (leafLaw d).real _ = 0
      rw [← hlaw0]
      have : (VSet.interval []).toSet = ∅ := by ext x; simp [VSet.toSet, VSet.Mem]
      simp [this]
    | [K], hone, hlaw0, hlawset, _ =>
      obtain ⟨d', lp, h1, h2, h3, h4, h5, h6, h7⟩ := hone K (by simp)
      refine ⟨.one d' lp, by simp [h1, Except.map], ?_⟩
      rw [single_toSet] at hlaw0 hlawset
      refine ⟨by rw [h5, hlaw0], hlaw0 ▸ h6, h2, ?_, h4, ?_, ?_⟩
      · revert h3; cases d' <;> simp [Leaf.Continuous, Leaf.Normalized]
      · intro X hX
        cases X with
        | interval J => revert h3; cases d' <;> simp [Leaf.Continuous, Fits]
        | symbols S => revert hX hc; cases d <;> simp [Leaf.Continuous, Fits]
      · intro B hB
        rw [h7, ← hlawset B hB, ← hlaw0, measureReal_def, cond_apply (SimpleInterval.measurableSet_toSet K),
          ENNReal.toReal_mul, ENNReal.toReal_inv, measureReal_def, measureReal_def]
        field_simp
    | K₁ :: K₂ :: Ks, hone, hlaw0, _, hdis =>
      have hall : ∃ F : SimpleInterval → Leaf × LogP, ∀ K ∈ K₁ :: K₂ :: Ks, d.condSimple K = .ok (F K) ∧
          (F K).2.exp = (leafLaw d).real K.toSet ∧ 0 < (F K).2.exp := by
        refine ⟨fun K => if h : K ∈ K₁ :: K₂ :: Ks then ((hone K h).choose, (hone K h).choose_spec.choose)
          else (.dirac 0 0 0, 0), ?_⟩
        intro K hm
        have := (hone K hm).choose_spec.choose_spec
        simp only [hm, dite_true]
        exact ⟨this.1, this.2.2.2.2.1, by rw [this.2.2.2.2.1]; exact this.2.2.2.2.2.1⟩
      obtain ⟨F, hF⟩ := hall
      have hm : (K₁ :: K₂ :: Ks).mapM d.condSimple = .ok ((K₁ :: K₂ :: Ks).map F) :=
        mapM_ok_map (fun K hK => (hF K hK).1)
      have hfil : ((K₁ :: K₂ :: Ks).map F).filter (fun q => 0 < q.2.exp) = (K₁ :: K₂ :: Ks).map F := by
        rw [List.filter_eq_self]
        intro q hq
        obtain ⟨K, hK, rfl⟩ := List.mem_map.1 hq
        simpa using (hF K hK).2.2
      have hsum : (((K₁ :: K₂ :: Ks).map F).map fun q => q.2.exp).sum = (leafLaw d).real (VSet.interval I).toSet := by
        rw [← hlaw0, ← pieces_sum hdis, List.map_map]
        congr 1
        exact List.map_congr_left fun K hK => (hF K hK).2.1
      refine ⟨.several ((K₁ :: K₂ :: Ks).map F), ?_, by simp, hsum, ?_⟩
      · simp only [hm]
        show (match ((K₁ :: K₂ :: Ks).map F).filter (fun q => decide (0 < q.2.exp)) with
          | [] => Except.ok LeafCond.impossible
          | q :: qs => .ok (.several (q :: qs))) = _
        rw [hfil]
        rfl
      · rw [← hsum, List.map_cons, List.map_cons, List.sum_cons]
        refine add_pos_of_pos_of_nonneg (hF K₁ (by simp)).2.2 (List.sum_nonneg ?_)
        intro x hx
        obtain ⟨q, _, rfl⟩ := List.mem_map.1 hx
        exact LogP.exp_nonneg _
  cases d with
  | symbolic v probs =>
    cases A with
    | interval I => exact absurd hf id
    | symbols S =>
      refine discrete (mk := symbolic v)
        (kept := (S.filter fun k => 0 < lookup probs k).map fun k => (k, lookup probs k)) rfl rfl ?_
      refine discreteCond_spec (fun _ => rfl) (fun _ h1 h2 => ⟨h1, h2⟩) (fun _ h => h) (fun _ => rfl) (fun l X h => by cases X <;> exact h) ?_ ?_ ?_
      · intro q hq
        obtain ⟨k, _, rfl⟩ := List.mem_map.1 hq
        exact lookup_nonneg hd.1 k
      · rw [List.map_map]
        have : (Prod.fst ∘ fun k => (k, lookup probs k)) = id := rfl
        rw [this, List.map_id]
        exact List.Nodup.filter _ hA
      · intro B hB
        show _ = ((probs.map fun kp => ENNReal.ofReal kp.2 • Measure.dirac (kp.1 : ℝ)).sum).real _
        rw [discrete_real probs hd.1 ((VSet.measurableSet_toSet _).inter hB)]
        have hS' : (S.filter fun k : ℤ => ((k : ℝ) ∈ B)).Nodup := List.Nodup.filter _ hA
        have h := lookup_sum probs hd.2 (S.filter fun k : ℤ => ((k : ℝ) ∈ B)) hS'
        have e : (VSet.symbols (S.filter fun k : ℤ => ((k : ℝ) ∈ B))).toSet = (VSet.symbols S).toSet ∩ B := by
          ext x
          simp only [VSet.toSet, VSet.Mem, List.mem_filter, decide_eq_true_eq, Set.mem_inter_iff, Set.mem_ofPred_eq]
          constructor
          · rintro ⟨k, ⟨hk, hb⟩, rfl⟩; exact ⟨⟨k, hk, rfl⟩, hb⟩
          · rintro ⟨⟨k, hk, rfl⟩, hb⟩; exact ⟨k, ⟨hk, hb⟩, rfl⟩
        rw [← e, ← h]
        clear h e hS' hf hA hp cont discrete
        induction S with
        | nil => simp
        | cons k S ih =>
          have hnn := lookup_nonneg hd.1 k
          by_cases hk : 0 < lookup probs k
          · by_cases hb : (k : ℝ) ∈ B
            · simp only [List.filter_cons, hk, hb, decide_true, if_true, List.map_cons, List.sum_cons, ih,
                Set.indicator_of_mem]
            · simp only [List.filter_cons, hk, hb, decide_true, decide_false, if_true, List.map_cons, List.sum_cons, ih,
                not_false_eq_true, Set.indicator_of_notMem, zero_add, Bool.false_eq_true, if_false]
          · have h0 : lookup probs k = 0 := le_antisymm (not_lt.1 hk) hnn
            by_cases hb : (k : ℝ) ∈ B
            · simp only [List.filter_cons, hk, hb, decide_true, decide_false, if_true, List.map_cons, List.sum_cons, ih,
                Bool.false_eq_true, if_false]
              rw [h0, zero_add]
            · simp only [List.filter_cons, hk, hb, decide_false, ih, Bool.false_eq_true, if_false]
  | integer v probs =>
    cases A with
    | symbols S => exact absurd hf id
    | interval I =>
      refine discrete (mk := integer v)
        (kept := probs.filter fun kp => (VSet.interval I).Mem (kp.1 : ℝ)) rfl rfl ?_
      refine discreteCond_spec (fun _ => rfl) (fun _ h1 h2 => ⟨h1, h2⟩) (fun _ h => h) (fun _ => rfl) (fun l X h => by cases X <;> exact h) ?_ ?_ ?_
      · intro q hq; exact hd.1 q (List.mem_filter.1 hq).1
      · exact hd.2.sublist (List.filter_sublist.map _)
      · intro B hB
        show _ = ((probs.map fun kp => ENNReal.ofReal kp.2 • Measure.dirac (kp.1 : ℝ)).sum).real _
        rw [discrete_real probs hd.1 ((VSet.measurableSet_toSet _).inter hB)]
        clear hd hf hA hp cont discrete hfin
        induction probs with
        | nil => simp
        | cons q probs ih =>
          by_cases hq : (VSet.interval I).Mem (q.1 : ℝ)
          · have hq' : (q.1 : ℝ) ∈ (VSet.interval I).toSet := hq
            by_cases hb : (q.1 : ℝ) ∈ B
            · simp [hq, hb, ih, hq']
            · simp [hq, hb, ih]
          · have hq' : (q.1 : ℝ) ∉ (VSet.interval I).toSet := hq
            simp [hq, ih, hq']
  | uniform v lo hi l r =>
    cases A with
    | symbols S => exact absurd hf id
    | interval I =>
      exact cont trivial (fun s I' h1 h2 => by cases h2; exact hp s h1) ⟨I, rfl⟩ (fun I => rfl)
  | gaussian v μ σ =>
    cases A with
    | symbols S => exact absurd hf id
    | interval I =>
      exact cont trivial (fun s I' h1 h2 => by cases h2; exact hp s h1) ⟨I, rfl⟩ (fun I => rfl)
  | truncGaussian v J μ σ =>
    cases A with
    | symbols S => exact absurd hf id
    | interval I =>
      exact cont trivial (fun s I' h1 h2 => by cases h2; exact hp s h1) ⟨I, rfl⟩ (fun I => rfl)
  | dirac v loc cap =>
    cases A with
    | symbols S => exact absurd hf id
    | interval I => exact absurd hp id

end PM
