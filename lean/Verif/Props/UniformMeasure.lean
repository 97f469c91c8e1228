import Verif.Props.UniformBox
import Verif.Props.ConditionalPieces

/-!
# C50: uniform measures of events
-/

namespace PM.Props

open Spec Graph MeasureTheory Classical
open scoped ENNReal

variable {ty : Var → VarType} {s : Finset Var} {E : SimpleEvent} {dom : Var → VSet}

theorem sum_ite_one {α : Type} {l : List α} {Q : α → Prop} [DecidablePred Q] (h : l.Pairwise fun a b => ¬ (Q a ∧ Q b)) (c : ℝ)
    {P : Prop} [Decidable P] (hP : P ↔ ∃ a ∈ l, Q a) : (l.map fun a => if Q a then c else 0).sum = if P then c else 0 := by
  simp only [hP]
  clear hP
  induction l with
  | nil => simp
  | cons a l ih =>
    obtain ⟨h1, h2⟩ := List.pairwise_cons.1 h
    rw [List.map_cons, List.sum_cons, ih h2]
    by_cases ha : Q a
    · have : ¬ ∃ b ∈ l, Q b := fun ⟨b, hb, hq⟩ => h1 b hb ⟨ha, hq⟩
      simp [ha, this]
    · simp [ha]

/-- The density of one variable. -/
theorem partValue_density {p : Var × VSet} (h : BoundedSet (ty p.1) p.2)
    (heq : ty p.1 = .continuous → ∀ I, p.2 = .interval I → ∀ i ∈ I, ∀ j ∈ I,
      i.upper.toReal - i.lower.toReal = j.upper.toReal - j.lower.toReal) :
    ∃ c, 0 < c ∧ ∀ x : Var → ℝ, partValue ty p (fun d => leafDensity d (x d.var)) = if p.2.Mem (x p.1) then c else 0 := by
  obtain ⟨v, A⟩ := p
  simp only at h heq ⊢
  unfold partValue
  simp only
  cases ht : ty v <;> cases A <;> simp only [ht] at h heq ⊢ <;> try exact absurd h id
  · rename_i I
    have heq := heq trivial I rfl
    obtain ⟨i₀, hi₀⟩ := List.exists_mem_of_ne_nil I h.1
    have hlen : ∀ i ∈ I, len i = len i₀ := fun i hi => heq i hi i₀ hi₀
    have hpos : 0 < len i₀ := by
      obtain ⟨a, b, h1, h2, h3⟩ := h.2.2 i₀ hi₀
      simp only [len, h1, h2, EReal.toReal_coe]
      linarith
    have hn : (0 : ℝ) < I.length := by
      have := List.length_pos_iff.2 h.1
      exact_mod_cast this
    refine ⟨1 / (I.length * len i₀), by positivity, fun x => ?_⟩
    have hsum : (I.map fun j => Real.exp (len j)).sum = I.length * Real.exp (len i₀) := by
      rw [List.map_congr_left fun i hi => by rw [hlen i hi]]
      simp
    have : (I.map fun i => Real.exp (len i) / (I.map fun j => Real.exp (len j)).sum * leafDensity (unif v i) (x (unif v i).var))
        = I.map fun i => if i.Mem (x v) then 1 / (I.length * len i₀) else 0 := by
      apply List.map_congr_left
      intro i hi
      obtain ⟨a, b, h1, h2, h3⟩ := h.2.2 i hi
      have hi' : (SimpleInterval.mk i.lower.toReal i.upper.toReal i.left i.right) = i := by
        rw [h1, h2]
        simp only [EReal.toReal_coe]
        rw [← h1, ← h2]
      rw [hsum, hlen i hi]
      simp only [unif, leafDensity, Leaf.var, hi']
      have hl : i.upper.toReal - i.lower.toReal = len i₀ := hlen i hi
      rw [hl]
      have := Real.exp_pos (len i₀)
      split
      · field_simp
      · simp
    rw [this]
    refine sum_ite_one ?_ _ Iff.rfl
    · exact h.2.1.1.imp fun hab hx => hab _ hx
  · rename_i S
    have hn : (0 : ℝ) < S.length := by
      have := List.length_pos_iff.2 h.1
      exact_mod_cast this
    refine ⟨1 / S.length, by positivity, fun x => ?_⟩
    have hf : ∀ l : List ℤ, (((l.map fun k => (k, 1 / (S.length : ℝ))).filter fun kp => decide ((kp.1 : ℝ) = x v)).map Prod.snd).sum
        = (l.map fun k : ℤ => if (k : ℝ) = x v then 1 / (S.length : ℝ) else 0).sum := by
      intro l
      induction l with
      | nil => rfl
      | cons k l ih =>
        rw [List.map_cons, List.filter_cons]
        by_cases hk : (k : ℝ) = x v
        · simp only [hk, decide_true, if_true, List.map_cons, List.sum_cons, ih]
        · simp only [hk, decide_false, if_false, Bool.false_eq_true, List.map_cons, List.sum_cons, ih, zero_add]
    refine (hf S).trans (sum_ite_one ?_ _ Iff.rfl)
    · refine h.2.imp ?_
      rintro a b hab ⟨h1, h2⟩
      exact hab (by exact_mod_cast h1.trans h2.symm)
  · rename_i I
    have hn : (0 : ℝ) < I.length := by
      have := List.length_pos_iff.2 h.1
      exact_mod_cast this
    refine ⟨1 / I.length, by positivity, fun x => ?_⟩
    have hf : ∀ l : List SimpleInterval, (∀ i ∈ l, i ∈ I) →
        (((l.map fun i => (⌊i.lower.toReal⌋, 1 / (I.length : ℝ))).filter fun kp => decide ((kp.1 : ℝ) = x v)).map Prod.snd).sum
        = (l.map fun i => if i.Mem (x v) then 1 / (I.length : ℝ) else 0).sum := by
      intro l hl
      induction l with
      | nil => rfl
      | cons i l ih =>
        rw [List.map_cons, List.filter_cons]
        have ih := ih fun j hj => hl j (by simp [hj])
        have hiff : ((⌊i.lower.toReal⌋ : ℤ) : ℝ) = x v ↔ i.Mem (x v) := by
          obtain ⟨k, rfl⟩ := h.2.2 i (hl i (by simp))
          simp only [EReal.toReal_coe, Int.floor_intCast, SimpleInterval.Mem, SimpleInterval.leftOK, SimpleInterval.rightOK,
            EReal.coe_le_coe_iff]
          exact ⟨fun h => ⟨h.le, h.ge⟩, fun h => le_antisymm h.1 h.2⟩
        by_cases hk : i.Mem (x v)
        · simp only [hiff.2 hk, hk, decide_true, if_true, List.map_cons, List.sum_cons, ih]
        · simp only [mt hiff.1 hk, hk, decide_false, if_false, Bool.false_eq_true, List.map_cons, List.sum_cons, ih, zero_add]
    refine (hf I fun _ h => h).trans (sum_ite_one ?_ _ Iff.rfl)
    · exact h.2.1.1.imp fun hab hx => hab _ hx

/-- The density of a box. -/
theorem box_density (hn : E.keys.Nodup) (hs : ∀ p ∈ E, BoundedSet (ty p.1) p.2) (heq : EqualLengths ty E) :
    ∃ c, 0 < c ∧ ∀ x : Var → ℝ, (E.map fun p => partValue ty p (fun d => leafDensity d (x d.var))).prod
      = if E.Mem x then c else 0 := by
  induction E with
  | nil => exact ⟨1, one_pos, fun x => by simp [SimpleEvent.Mem]⟩
  | cons p E ih =>
    obtain ⟨c, hc, h1⟩ := ih (List.nodup_cons.1 hn).2 (fun q hq => hs q (by simp [hq])) fun q hq => heq q (by simp [hq])
    obtain ⟨c', hc', h2⟩ := partValue_density (hs p (by simp)) (heq p (by simp))
    refine ⟨c' * c, by positivity, fun x => ?_⟩
    rw [List.map_cons, List.prod_cons, h1, h2]
    have : SimpleEvent.Mem (p :: E) x ↔ p.2.Mem (x p.1) ∧ SimpleEvent.Mem E x := by simp [SimpleEvent.Mem]
    by_cases ha : p.2.Mem (x p.1) <;> by_cases hb : SimpleEvent.Mem E x <;> simp [this, ha, hb]

theorem integralOver_const {μ : Var → Measure ℝ} {c : ℝ≥0∞} (hc : c ≠ ⊤) (φ : (Var → ℝ) → ℝ≥0∞) :
    integralOver μ s (fun x => c * φ x) = c * integralOver μ s φ := by
  unfold integralOver lmarginal
  rw [lintegral_const_mul' _ _ hc]

/-- **C50, simple events**: if the intervals of every continuous variable have the same length, the density of
`uniform_measure_of_simple_event(event)` is the same everywhere in the event and zero outside. -/
theorem C50_constant_density_partial (h : BoundedBox ty s E) (heq : EqualLengths ty E) :
    ∃ g c, uniformOfSimple ty E = .ok g ∧ 0 < c ∧ ∀ x m, g.likelihood m x = .ok (if E.Mem x then c else 0) := by
  obtain ⟨g, hgo, h1, h2, h3⟩ := uniformOfSimple_spec h
  obtain ⟨c, hc, hd⟩ := box_density h.nodup h.sets heq
  obtain ⟨sc, hs, hdec, hr⟩ := h1.scope
  refine ⟨g, c, hgo, hc, fun x m => ?_⟩
  obtain ⟨f, hf⟩ := exists_circuitValue h1.layered.graded.acyclic (fun d : Leaf => leafDensity d (x d.var))
  obtain ⟨L, _, _, _, h4⟩ := C01_loglikelihood h1.layered hs h1.valid x hf m
  rw [h4, h1.value _ _ hf, hd]

theorem hasBase_part {p : Var × VSet} (h : BoundedSet (ty p.1) p.2) {d : Leaf} (hd : PartLeaf ty p d) :
    HasBase (fun v => ty v == .continuous) d := by
  obtain ⟨v, A⟩ := p
  simp only at h
  unfold PartLeaf at hd
  simp only at hd
  cases ht : ty v <;> cases A <;> simp only [ht] at hd h <;> try exact absurd h id
  · obtain ⟨i, hi, rfl⟩ := hd
    simp [unif, HasBase, ht]
  · subst hd
    simp [HasBase, ht]
  · subst hd
    simp [HasBase, ht]

theorem mem_inter_event {Fs : Event} (hE : TypedEvent ty s E) (hF : ∀ F ∈ Fs, TypedEvent ty s F) (x : Var → ℝ) :
    (∃ G ∈ Event.inter [E] Fs, SimpleEvent.Mem G x) ↔ E.Mem x ∧ ∃ F ∈ Fs, F.Mem x := by
  simp only [Event.inter, List.flatMap_cons, List.flatMap_nil, List.append_nil, List.mem_map]
  constructor
  · rintro ⟨_, ⟨F, hFm, rfl⟩, hx⟩
    rw [SimpleEvent.mem_inter (hF F hFm).nodup (compatible_of_typed hE (hF F hFm))] at hx
    exact ⟨hx.1, F, hFm, hx.2⟩
  · rintro ⟨h1, F, hFm, h2⟩
    exact ⟨_, ⟨F, hFm, rfl⟩, (SimpleEvent.mem_inter (hF F hFm).nodup (compatible_of_typed hE (hF F hFm)) x).2 ⟨h1, h2⟩⟩

/-- The probabilities of the circuit of a box with constant density. -/
theorem box_integral (h : BoundedBox ty s E) (hdom : TypedDomain ty dom E) {g : Circuit} (hg : BoxCircuit ty s E g) {c : ℝ}
    (hlik : ∀ x m, g.likelihood m x = .ok (if E.Mem x then c else 0)) (Gs : Event) (hG : ∀ F ∈ Gs, TypedEvent ty s F)
    (hdis : DisjointFamily Gs) (m : Mem ℝ) : ∃ p, 0 ≤ p ∧ (g.probability m dom Gs).2 = .ok p ∧
      ENNReal.ofReal p = ENNReal.ofReal c * eventVolume ty s (Event.inter [E] Gs) := by
  have h1 := hg.denotes
  obtain ⟨sc, hs, hdec, hr⟩ := h1.scope
  have hE := typed_of_box h
  obtain ⟨p, hp0, hp, hpi⟩ := C04_probability_is_integral h1.layered hs hdec h1.valid (cont := fun v => ty v == .continuous)
    (fun n d hk => by
      obtain ⟨p, hp, hd⟩ := hg.leaves n d hk
      exact hasBase_part (h.sets p hp) hd)
    (hg.domainFor h hdom) (Es := Gs) (fun G hGm => by rw [hr]; exact hg.eventFor h (hG G hGm)) hdis
    (lik := fun x => if E.Mem x then c else 0) (fun x => hlik x freshMem) m
  refine ⟨p, hp0, hp, ?_⟩
  rw [hpi, hr, eventVolume, ← integralOver_const ENNReal.ofReal_ne_top]
  congr 1
  funext x
  simp only [mem_inter_event hE hG]
  by_cases ha : E.Mem x <;> by_cases hb : ∃ G ∈ Gs, G.Mem x <;> simp [ha, hb]

/-- **C50 as claimed**: every part `Fs` of a bounded event `Es` gets its share of the volume. -/
def C50_full : Prop := ∀ (ty : Var → VarType) (s : Finset Var) (dom : Var → VSet) (box : Event → SimpleEvent) (Es : Event),
  Es ≠ [] → (∀ E ∈ Es, BoundedBox ty s E) → DisjointFamily Es → (∀ E ∈ Es, TypedDomain ty dom E) →
  BoundedBox ty s (box Es) → (∀ E, box [E] = E) →
  ∃ g, uniformOfEvent ty dom box Es = .ok (some g) ∧
    ∀ Fs : Event, (∀ F ∈ Fs, TypedEvent ty s F) → DisjointFamily Fs → ∀ m, ∃ q, (g.probability m dom Fs).2 = .ok q ∧
      ENNReal.ofReal q * eventVolume ty s Es = eventVolume ty s (Es.inter Fs)

/-- **C50**, as far as it holds: for an event that consists of one simple event (a box) in which the intervals of every
continuous variable have the same length, e.g. one interval per continuous variable, every event `Fs` gets its share of the volume of
the box.  The volume is positive and finite. -/
theorem C50_share_of_volume_partial (h : BoundedBox ty s E) (heq : EqualLengths ty E) (hdom : TypedDomain ty dom E)
    {box : Event → SimpleEvent} (hbox : box [E] = E) :
    0 < eventVolume ty s [E] ∧ eventVolume ty s [E] < ⊤ ∧
    ∃ g, uniformOfEvent ty dom box [E] = .ok (some g) ∧
      ∀ Fs : Event, (∀ F ∈ Fs, TypedEvent ty s F) → DisjointFamily Fs → ∀ m, ∃ q, 0 ≤ q ∧ (g.probability m dom Fs).2 = .ok q ∧
        ENNReal.ofReal q * eventVolume ty s [E] = eventVolume ty s (Event.inter [E] Fs) := by
  obtain ⟨g, g', hgo, hg, hgo', hP1, hq⟩ := uniformOfEvent_single h hdom hbox
  obtain ⟨g₂, c, hgo₂, hc, hlik⟩ := C50_constant_density_partial h heq
  rw [hgo] at hgo₂
  injection hgo₂ with hgo₂
  subst hgo₂
  have hE := typed_of_box h
  have hint := box_integral h hdom hg hlik
  have hself : eventVolume ty s (Event.inter [E] [E]) = eventVolume ty s [E] := by
    unfold eventVolume
    congr 1
    funext x
    simp only [mem_inter_event (Fs := [E]) hE (by simpa using hE)]
    simp
  obtain ⟨p, hp0, hp, hpi⟩ := hint [E] (by simpa using hE) (List.pairwise_singleton _ _) freshMem
  rw [hP1 freshMem] at hp
  injection hp with hp
  subst hp
  rw [hself, ENNReal.ofReal_one] at hpi
  have hc0 : ENNReal.ofReal c ≠ 0 := by simpa using hc
  refine ⟨?_, ?_, g', hgo', ?_⟩
  · rw [pos_iff_ne_zero]
    intro h0
    rw [h0, mul_zero] at hpi
    exact one_ne_zero hpi
  · rw [lt_top_iff_ne_top]
    intro h0
    rw [h0, ENNReal.mul_top hc0] at hpi
    exact ENNReal.one_ne_top hpi
  · intro Fs hF hdis m
    obtain ⟨q, h3, h4⟩ := hq Fs hF m freshMem
    have hF' : ∀ G ∈ Fs.map (fun F => E.inter F), TypedEvent ty s G := by
      intro G hG
      obtain ⟨F, hFm, rfl⟩ := List.mem_map.1 hG
      exact typed_inter hE (hF F hFm)
    have hmem : ∀ F ∈ Fs, ∀ x, (E.inter F).Mem x ↔ E.Mem x ∧ F.Mem x := fun F hFm x =>
      SimpleEvent.mem_inter (hF F hFm).nodup (compatible_of_typed hE (hF F hFm)) x
    obtain ⟨p, h5, h6, h7⟩ := hint (Fs.map fun F => E.inter F) hF' (by
      rw [DisjointFamily, List.pairwise_map]
      refine List.Pairwise.imp_of_mem ?_ hdis
      intro a b ha hb hab x hx
      rw [hmem a ha, hmem b hb] at hx
      exact hab x ⟨hx.1.2, hx.2.2⟩) freshMem
    rw [h4] at h6
    injection h6 with h6
    subst h6
    refine ⟨q, h5, h3, ?_⟩
    have : eventVolume ty s (Event.inter [E] (Fs.map fun F => E.inter F)) = eventVolume ty s (Event.inter [E] Fs) := by
      unfold eventVolume
      congr 1
      funext x
      have : (∃ G ∈ Event.inter [E] (Fs.map fun F => E.inter F), SimpleEvent.Mem G x) ↔ ∃ G ∈ Event.inter [E] Fs, SimpleEvent.Mem G x := by
        rw [mem_inter_event hE hF', mem_inter_event hE hF]
        simp only [List.mem_map]
        constructor
        · rintro ⟨h1, _, ⟨F, hFm, rfl⟩, hx⟩
          exact ⟨h1, F, hFm, ((hmem F hFm x).1 hx).2⟩
        · rintro ⟨h1, F, hFm, hx⟩
          exact ⟨h1, _, ⟨F, hFm, rfl⟩, (hmem F hFm x).2 ⟨h1, hx⟩⟩
      simp only [this]
    rw [h7, this, mul_comm, ← mul_assoc, mul_comm (eventVolume ty s [E]), ← hpi, one_mul]

/-- What the code computes for any bounded box: inside each interval of a continuous variable the density is constant, but the
intervals are weighted with the exponentials of their lengths. -/
theorem C50_weights {v : Var} {I : List SimpleInterval} (hv : ty v = .continuous) (h : BoundedBox ty {v} [(v, .interval I)])
    {i : SimpleInterval} (hi : i ∈ I) {x : Var → ℝ} (hx : i.Mem (x v)) :
    ∃ g, uniformOfSimple ty [(v, .interval I)] = .ok g ∧ ∀ m, g.likelihood m x =
      .ok (Real.exp (i.upper.toReal - i.lower.toReal) / (I.map fun j => Real.exp (j.upper.toReal - j.lower.toReal)).sum
        / (i.upper.toReal - i.lower.toReal)) := by
  obtain ⟨g, hgo, h1, h2, h3⟩ := uniformOfSimple_spec h
  obtain ⟨sc, hs, hdec, hr⟩ := h1.scope
  refine ⟨g, hgo, fun m => ?_⟩
  obtain ⟨f, hf⟩ := exists_circuitValue h1.layered.graded.acyclic (fun d : Leaf => leafDensity d (x d.var))
  obtain ⟨L, _, _, _, h4⟩ := C01_loglikelihood h1.layered hs h1.valid x hf m
  rw [h4, h1.value _ _ hf]
  simp only [List.map_cons, List.map_nil, List.prod_cons, List.prod_nil, mul_one, partValue, hv]
  have hb : BoundedSet (ty v) (.interval I) := h.sets (v, .interval I) (by simp)
  rw [hv] at hb
  have hd := hb.2.1.1
  have key : ∀ l : List SimpleInterval, (∀ j ∈ l, j ∈ I) → i ∈ l → l.Pairwise (fun i j => ∀ x, ¬ (i.Mem x ∧ j.Mem x)) →
      (l.map fun j => Real.exp (len j) / (I.map fun j => Real.exp (len j)).sum * leafDensity (unif v j) (x (unif v j).var)).sum
        = Real.exp (len i) / (I.map fun j => Real.exp (len j)).sum * (1 / len i) := by
    have hterm : ∀ j ∈ I, leafDensity (unif v j) (x (unif v j).var) = if j.Mem (x v) then 1 / len j else 0 := by
      intro j hj
      obtain ⟨a, b, h1, h2, h3⟩ := hb.2.2 j hj
      have hj' : (SimpleInterval.mk j.lower.toReal j.upper.toReal j.left j.right) = j := by
        rw [h1, h2]
        simp only [EReal.toReal_coe]
        rw [← h1, ← h2]
      simp only [unif, leafDensity, Leaf.var, hj', len]
    intro l hl hil hp
    induction l with
    | nil => cases hil
    | cons j l ih =>
      obtain ⟨hp1, hp2⟩ := List.pairwise_cons.1 hp
      rw [List.map_cons, List.sum_cons]
      rcases List.mem_cons.1 hil with rfl | hil
      · have hz : (l.map fun j => Real.exp (len j) / (I.map fun j => Real.exp (len j)).sum * leafDensity (unif v j) (x (unif v j).var)).sum = 0 := by
          apply List.sum_eq_zero
          intro y hy
          obtain ⟨k, hk, rfl⟩ := List.mem_map.1 hy
          rw [hterm k (hl k (by simp [hk])), if_neg fun hkx => hp1 k hk (x v) ⟨hx, hkx⟩, mul_zero]
        rw [hz, add_zero, hterm i hi, if_pos hx]
      · rw [ih (fun k hk => hl k (by simp [hk])) hil hp2, hterm j (hl j (by simp)), if_neg fun hjx => hp1 i hil (x v) ⟨hjx, hx⟩,
          mul_zero, zero_add]
  rw [key I (fun _ h => h) hi hd]
  simp only [len]
  congr 1
  ring

/-! ### `[0,1] ∪ [2,4]` -/

/-- All variables are continuous. -/
def allContinuous : Var → VarType := fun _ => .continuous

theorem gap_box : BoundedBox allContinuous {0} [(0, gap)] := by
  refine ⟨by simp [SimpleEvent.keys], by simp [SimpleEvent.keys], ?_⟩
  intro p hp
  rw [List.mem_singleton.1 hp]
  refine ⟨by simp, ⟨?_, ?_⟩, ?_⟩
  · simp only [List.pairwise_cons, List.mem_singleton, forall_eq, List.not_mem_nil, false_imp_iff, implies_true, List.Pairwise.nil,
      and_true]
    intro x hx
    simp only [cc, SimpleInterval.Mem, SimpleInterval.leftOK, SimpleInterval.rightOK, EReal.coe_le_coe_iff] at hx
    linarith [hx.1.2, hx.2.1]
  · intro i hi
    simp only [List.mem_cons, List.not_mem_nil, or_false] at hi
    rcases hi with rfl | rfl
    · exact cc_not_empty (by norm_num)
    · exact cc_not_empty (by norm_num)
  · intro i hi
    simp only [List.mem_cons, List.not_mem_nil, or_false] at hi
    rcases hi with rfl | rfl
    · exact ⟨0, 1, rfl, rfl, by norm_num⟩
    · exact ⟨2, 4, rfl, rfl, by norm_num⟩

theorem line_domain (E : SimpleEvent) : TypedDomain allContinuous (fun _ => realLine) E :=
  ⟨fun _ _ => rfl, fun _ h => by simp [allContinuous] at h, fun _ _ h => by simp [allContinuous] at h⟩

theorem unitInterval_typed : TypedEvent allContinuous {0} [(0, .interval [cc 0 1])] :=
  ⟨by simp [SimpleEvent.keys], by simp [SimpleEvent.keys], by simpa using cc_disjoint (by norm_num), by simp [FitsType, allContinuous]⟩

theorem gap_inter : SimpleEvent.inter [(0, gap)] [(0, .interval [cc 0 1])] = [(0, .interval [cc 0 1])] := by
  have h1 : gap.inter (.interval [cc 0 1]) = .interval [cc 0 1] := by
    simp only [VSet.inter, List.flatMap_cons, List.flatMap_nil, List.map_cons, List.map_nil, List.append_nil, List.cons_append,
      List.nil_append, inter_cc]
    norm_num
    have h2 : (cc 2 1).IsEmpty := by
      left
      simp only [cc]
      exact_mod_cast (by norm_num : (1 : ℝ) < 2)
    have h3 : ¬ (cc 0 1).IsEmpty := cc_not_empty (by norm_num)
    simp [h2, h3]
  simp [SimpleEvent.inter, SimpleEvent.keys, h1]

theorem volume_line (A : VSet) : eventVolume allContinuous {0} [[(0, A)]] = volume A.toSet := by
  unfold eventVolume integralOver
  rw [lmarginal_singleton]
  simp only [baseMeasure, allContinuous, beq_self_eq_true, if_true]
  have : (fun t : ℝ => if ∃ E ∈ [[((0 : Var), A)]], SimpleEvent.Mem E (Function.update (0 : Var → ℝ) 0 t) then (1 : ℝ≥0∞) else 0)
      = A.toSet.indicator 1 := by
    funext t
    by_cases ht : A.Mem t
    · simp [SimpleEvent.Mem, ht, VSet.toSet]
    · simp [SimpleEvent.Mem, ht, VSet.toSet]
  rw [this, lintegral_indicator_one (VSet.measurableSet_toSet A)]

/-- **C50 does not hold**: in the uniform measure of `[0,1] ∪ [2,4]` the interval `[0,1]` has probability `1 / (1 + e)` instead of
one third. -/
theorem C50_full_false : ¬ C50_full := by
  intro hfull
  obtain ⟨g', hgo', hshare⟩ := hfull allContinuous {0} (fun _ => realLine) (fun Es => Es.headD []) [[(0, gap)]] (by simp)
    (by simpa using gap_box) (List.pairwise_singleton _ _) (by intro E _; exact line_domain E) (by simpa using gap_box) (fun _ => rfl)
  obtain ⟨g, g₂, hgo, hg, hgo₂, _, hq⟩ := uniformOfEvent_single gap_box (line_domain _) (box := fun Es => Es.headD []) rfl
  rw [hgo'] at hgo₂
  injection hgo₂ with hgo₂
  injection hgo₂ with hgo₂
  subst hgo₂
  have hF : ∀ F ∈ [[((0 : Var), VSet.interval [cc 0 1])]], TypedEvent allContinuous {0} F := by simpa using unitInterval_typed
  obtain ⟨q, h1, h2⟩ := hshare _ hF (List.pairwise_singleton _ _) freshMem
  obtain ⟨q', h3, h4⟩ := hq _ hF freshMem freshMem
  rw [h1] at h3
  injection h3 with h3
  subst h3
  -- the share
  have hv : Event.inter [[((0 : Var), gap)]] [[(0, .interval [cc 0 1])]] = [[(0, .interval [cc 0 1])]] := by
    simp [Event.inter, gap_inter]
  rw [hv, volume_line, volume_line] at h2
  have hset : ∀ a b : ℝ, (cc a b).toSet = Set.Icc a b := by
    intro a b
    ext x
    simp [cc, SimpleInterval.toSet, SimpleInterval.Mem, SimpleInterval.leftOK, SimpleInterval.rightOK]
  have e1 : (VSet.interval [cc 0 1]).toSet = Set.Icc 0 1 := by
    rw [← hset]
    ext x
    simp [VSet.toSet, VSet.Mem, SimpleInterval.toSet]
  have e2 : gap.toSet = Set.Icc 0 1 ∪ Set.Icc 2 4 := by
    rw [← hset, ← hset]
    ext x
    simp [VSet.toSet, VSet.Mem, SimpleInterval.toSet]
  have hdis : Disjoint (Set.Icc (0 : ℝ) 1) (Set.Icc 2 4) := by
    rw [Set.disjoint_left]
    intro x hx hx'
    linarith [hx.2, hx'.1]
  rw [e1, e2, measure_union hdis measurableSet_Icc, Real.volume_Icc, Real.volume_Icc] at h2
  -- the probability
  obtain ⟨sc, hs, hdec, hr⟩ := hg.denotes.scope
  obtain ⟨f, hf⟩ := exists_probValue hg.denotes.layered [((0 : Var), VSet.interval [cc 0 1])]
  have hfr := hg.denotes.value _ _ hf
  have a1 := uniform_real 0 (show (0 : ℝ) < 1 by norm_num) 0 1
  have a2 := uniform_real 0 (show (2 : ℝ) < 4 by norm_num) 0 1
  norm_num at a1 a2
  have hexp : Real.exp 2 = Real.exp 1 * Real.exp 1 := by rw [← Real.exp_add]; norm_num
  have hval : f 0 = 1 / (1 + Real.exp 1) := by
    rw [hfr]
    have u1 : unif 0 (cc 0 1) = .uniform 0 0 1 .closed .closed := by simp [unif, cc]
    have u2 : unif 0 (cc 2 4) = .uniform 0 2 4 .closed .closed := by simp only [unif, cc, EReal.toReal_coe]
    have l1 : len (cc 0 1) = 1 := by simp [len, cc]
    have l2 : len (cc 2 4) = 2 := by simp only [len, cc, EReal.toReal_coe]; norm_num
    simp only [List.map_cons, List.map_nil, List.prod_cons, List.prod_nil, partValue, allContinuous, List.sum_cons, List.sum_nil,
      u1, u2, l1, l2, Leaf.var, allowed_single, a1, a2, hexp]
    have := Real.exp_pos 1
    field_simp
    ring
  rw [List.map_cons, List.map_nil, gap_inter, probability_eq hg.denotes.layered hs hg.denotes.valid
    (hg.domainFor gap_box (line_domain _)) (by intro F hFm; rw [hr]; exact hg.eventFor gap_box (hF F hFm)) (p := fun _ => f)
    (by simpa using hf)] at h4
  simp only [List.map_cons, List.map_nil, List.sum_cons, List.sum_nil, add_zero, Except.ok.injEq] at h4
  rw [← h4, hval] at h2
  have hlt := Real.add_one_lt_exp (one_ne_zero (α := ℝ))
  have hpos := Real.exp_pos 1
  rw [← ENNReal.ofReal_add (by norm_num) (by norm_num), ← ENNReal.ofReal_mul (by positivity),
    ENNReal.ofReal_eq_ofReal_iff (by positivity) (by norm_num)] at h2
  field_simp at h2
  linarith

/-! ### Examples -/

/-- A continuous variable, a symbolic one and an integer one. -/
def boxTypes : Var → VarType
  | 0 => .continuous
  | 1 => .symbolic
  | _ => .integer

/-- `([0,1] ∪ [2,3]) × {5, 7} × {1, 4}`. -/
noncomputable def mixedBox : SimpleEvent := [(0, .interval [cc 0 1, cc 2 3]), (1, .symbols [5, 7]), (2, .interval [cc 1 1, cc 4 4])]

theorem mixedBox_bounded : BoundedBox boxTypes {0, 1, 2} mixedBox ∧ EqualLengths boxTypes mixedBox := by
  have hdis : ∀ a b c d : ℝ, a ≤ b → b < c → c ≤ d → (VSet.interval [cc a b, cc c d]).Disjoint := by
    intro a b c d h1 h2 h3
    refine ⟨?_, ?_⟩
    · simp only [List.pairwise_cons, List.mem_singleton, forall_eq, List.not_mem_nil, false_imp_iff, implies_true, List.Pairwise.nil,
        and_true]
      intro x hx
      simp only [cc, SimpleInterval.Mem, SimpleInterval.leftOK, SimpleInterval.rightOK, EReal.coe_le_coe_iff] at hx
      linarith [hx.1.2, hx.2.1]
    · intro i hi
      simp only [List.mem_cons, List.not_mem_nil, or_false] at hi
      rcases hi with rfl | rfl
      · exact cc_not_empty h1
      · exact cc_not_empty h3
  refine ⟨⟨by simp [mixedBox, SimpleEvent.keys], by simp [mixedBox, SimpleEvent.keys], ?_⟩, ?_⟩
  · intro p hp
    simp only [mixedBox, List.mem_cons, List.not_mem_nil, or_false] at hp
    rcases hp with rfl | rfl | rfl
    · refine ⟨by simp, hdis 0 1 2 3 (by norm_num) (by norm_num) (by norm_num), ?_⟩
      intro i hi
      simp only [List.mem_cons, List.not_mem_nil, or_false] at hi
      rcases hi with rfl | rfl
      · exact ⟨0, 1, rfl, rfl, by norm_num⟩
      · exact ⟨2, 3, rfl, rfl, by norm_num⟩
    · exact ⟨by simp, by simp⟩
    · refine ⟨by simp, hdis 1 1 4 4 (by norm_num) (by norm_num) (by norm_num), ?_⟩
      intro i hi
      simp only [List.mem_cons, List.not_mem_nil, or_false] at hi
      rcases hi with rfl | rfl
      · exact ⟨1, by simp [cc]⟩
      · exact ⟨4, by simp [cc]⟩
  · intro p hp ht I hI
    simp only [mixedBox, List.mem_cons, List.not_mem_nil, or_false] at hp
    rcases hp with rfl | rfl | rfl
    · injection hI with hI
      subst hI
      intro i hi j hj
      simp only [List.mem_cons, List.not_mem_nil, or_false] at hi hj
      rcases hi with rfl | rfl <;> rcases hj with rfl | rfl <;> simp only [cc, EReal.toReal_coe] <;> norm_num
    · cases ht
    · cases ht

/-- The domains: the symbols are `5`, `6`, `7`. -/
noncomputable def mixedDomain : Var → VSet
  | 1 => .symbols [5, 6, 7]
  | _ => realLine

theorem mixedDomain_typed : TypedDomain boxTypes mixedDomain mixedBox := by
  refine ⟨?_, ?_, ?_⟩
  · intro v hv
    match v with
    | 0 => rfl
    | 1 => exact absurd rfl hv
    | _ + 2 => rfl
  · intro v hv
    match v with
    | 1 => exact ⟨_, rfl, by simp⟩
    | 0 => cases hv
    | _ + 2 => cases hv
  · intro p hp hv x hx
    simp only [mixedBox, List.mem_cons, List.not_mem_nil, or_false] at hp
    rcases hp with rfl | rfl | rfl
    · cases hv
    · obtain ⟨k, hk, rfl⟩ := hx
      refine ⟨k, ?_, rfl⟩
      simp only [List.mem_cons, List.not_mem_nil, or_false] at hk ⊢
      rcases hk with rfl | rfl <;> simp
    · cases hv

/-- The hypotheses of `C50_share_of_volume_partial` are met by a box with all three types of variables. -/
example : ∃ g, uniformOfEvent boxTypes mixedDomain (fun Es => Es.headD []) [mixedBox] = .ok (some g) := by
  obtain ⟨_, _, g, h, _⟩ := C50_share_of_volume_partial mixedBox_bounded.1 mixedBox_bounded.2 mixedDomain_typed
    (box := fun Es => Es.headD []) rfl
  exact ⟨g, h⟩

end PM.Props
