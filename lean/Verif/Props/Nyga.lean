import Verif.Learn.NygaGeometry
import Verif.Props.Queries
import Verif.Props.Support

/-!
# C39, C40, C57: quantile distributions
-/

namespace PM.Props

open Classical Graph Spec Learn Learn.Nyga

/-- The arguments of a fit: a minimal number of samples per quantile of at least one, a threshold that is not negative, data with
two different values and, if weights are given, a positive weight for every distinct data point. -/
structure FitInput (P : Params) (data : List ℝ) (weights : Option (List ℝ)) : Prop where
  minSamples : 1 ≤ P.minSamples
  minImprovement : 0 ≤ P.minImprovement
  two : ∃ x ∈ data, ∃ y ∈ data, x ≠ y
  weights : ∀ ws, weights = some ws → ws.length = data.dedup.length ∧ ∀ w ∈ ws, 0 < w

theorem FitInput.result {P : Params} {data : List ℝ} {weights : Option (List ℝ)} (h : FitInput P data weights) (cap : ℝ) :
    ∃ E : List (Node × (ℕ × ℕ)),
      fit P cap data weights
        = .ok (leafMix 0 (E.map fun x => entry P.var ((npUnique data).map Prod.fst) (weightsOf data weights) x.1 x.2)) ∧
      FreshIds 0 (E.map fun x => entry P.var ((npUnique data).map Prod.fst) (weightsOf data weights) x.1 x.2) ∧
      (∀ x ∈ E, NoBetter P ((npUnique data).map Prod.fst) (weightsOf data weights) x.2) ∧
      ∃ ch, Segs 0 ((npUnique data).map Prod.fst).length ch ∧ (E.map Prod.snd).Perm ch ∧
        (∀ s ∈ ch, s = (0, ((npUnique data).map Prod.fst).length) ∨ (s.1 : ℤ) + P.minSamples ≤ s.2) := by
  obtain ⟨E, h1, h2⟩ := fit_arrays (fine_of h.two h.weights) h.minSamples h.minImprovement
  exact ⟨E, by rw [fit_eq h.two, h1], h2⟩

theorem quantile_valid {data ws : List ℝ} (hF : Fine data ws) {v : Var} {s : ℕ × ℕ} (h1 : s.1 < s.2) (h2 : s.2 ≤ data.length) :
    (quantile v data s).Valid := border_lt hF.sorted hF.two h1 h2

/-- C39.  `fit` terminates without an error.  The result is a mixture of uniform distributions; their intervals are pairwise
disjoint and a point lies in one of them exactly if it lies between the smallest and the largest data point; `is_deterministic`
answers `True`, and every data point has a positive likelihood. -/
theorem C39_fit {P : Params} {data : List ℝ} {weights : Option (List ℝ)} (h : FitInput P data weights) (cap : ℝ) :
    ∃ g r, fit P cap data weights = .ok g ∧ Layered g r ∧ g.kind? r = some .sum ∧
      (∀ c ∈ g.succ r, ∃ lo hi b, lo < hi ∧ g.kind? c = some (.leaf (.uniform P.var lo hi .closed b))) ∧
      ((g.succ r).Pairwise fun c c' => Disjoint (intervalOf g c) (intervalOf g c')) ∧
      (∀ x, (∃ c ∈ g.succ r, x ∈ intervalOf g c) ↔ (∃ a ∈ data, a ≤ x) ∧ ∃ b ∈ data, x ≤ b) ∧
      (∀ m, (g.isDeterministic m).2 = .ok true) ∧
      (∀ x ∈ data, ∀ m, ∃ p, 0 < p ∧ g.likelihood m (fun _ => x) = .ok p) := by
  obtain ⟨E, hfit, hE, _, ch, hch, hperm, _⟩ := h.result cap
  have hF := fine_of h.two h.weights
  set U := (npUnique data).map Prod.fst with hU
  set ws := weightsOf data weights
  set g := leafMix 0 (E.map fun x => entry P.var U ws x.1 x.2) with hg
  have h2 := hF.two
  have hb : ∀ x ∈ E, x.2.1 < x.2.2 ∧ x.2.2 ≤ U.length := fun x hx =>
    (hch.bounds x.2 (hperm.mem_iff.1 (List.mem_map_of_mem hx))).2
  have hsucc : g.succ 0 = E.map Prod.fst := by
    rw [hE.succ, List.map_map]
    rfl
  have hkind : ∀ x ∈ E, g.kind? x.1 = some (.leaf (quantile P.var U x.2)) := fun x hx =>
    hE.kindLeaf (List.mem_map_of_mem (f := fun x => entry P.var U ws x.1 x.2) hx)
  have hsym : ∀ {s t : ℕ × ℕ}, (∀ x, ¬ (InSeg U s x ∧ InSeg U t x)) → ∀ x, ¬ (InSeg U t x ∧ InSeg U s x) :=
    fun h x hx => h x ⟨hx.2, hx.1⟩
  have hpair : (E.map Prod.snd).Pairwise fun s t => ∀ x, ¬ (InSeg U s x ∧ InSeg U t x) :=
    (hperm.pairwise_iff (fun {_ _} => hsym)).2 (segs_disjoint hF hch)
  have hdisj : E.Pairwise fun x y => ∀ t, ¬ (InSeg U x.2 t ∧ InSeg U y.2 t) := List.pairwise_map.1 hpair
  have hcover : ∀ x, border U 0 ≤ x → x ≤ border U U.length → ∃ y ∈ E, InSeg U y.2 x := by
    intro x h3 h4
    obtain ⟨s, hs, hs'⟩ := inSeg_cover hch (by omega) h3 h4
    obtain ⟨y, hy, rfl⟩ := List.mem_map.1 (hperm.mem_iff.2 hs)
    exact ⟨y, hy, hs'⟩
  have hUne : U ≠ [] := by intro h0; simp [h0] at h2
  have hb0 : border U 0 = U.getD 0 0 := by simp [border]
  have hbn := cut_last hUne
  have hUm : ∀ i < U.length, U.getD i 0 ∈ data := fun i hi => by
    rw [List.getD_eq_getElem _ _ hi]
    exact mem_unique.1 (List.getElem_mem hi)
  have hmU : ∀ x ∈ data, ∃ i < U.length, U.getD i 0 = x := fun x hx => by
    obtain ⟨i, hi, hix⟩ := List.getElem_of_mem (mem_unique.2 hx)
    exact ⟨i, hi, by rw [List.getD_eq_getElem _ _ hi]; exact hix⟩
  have hlo : ∀ x, border U 0 ≤ x ↔ ∃ a ∈ data, a ≤ x := by
    intro x
    rw [hb0]
    constructor
    · intro hx; exact ⟨_, hUm 0 (by omega), hx⟩
    · rintro ⟨a, ha, hax⟩
      obtain ⟨i, hi, rfl⟩ := hmU a ha
      exact (getD_le hF.sorted (Nat.zero_le i) hi).trans hax
  have hhi : ∀ x, x ≤ border U U.length ↔ ∃ b ∈ data, x ≤ b := by
    intro x
    rw [hbn]
    constructor
    · intro hx; exact ⟨_, hUm (U.length - 1) (by omega), hx⟩
    · rintro ⟨a, ha, hax⟩
      obtain ⟨i, hi, rfl⟩ := hmU a ha
      exact hax.trans (getD_le hF.sorted (by omega) (by omega))
  have hEne : E ≠ [] := by
    obtain ⟨y, hy, _⟩ := hcover (border U 0) le_rfl (border_mono hF.sorted hF.two (Nat.zero_le _) le_rfl)
    exact List.ne_nil_of_mem hy
  have hden := hE.denotes (v := P.var) (by simpa using hEne) (by
    intro x hx
    obtain ⟨y, hy, rfl⟩ := List.mem_map.1 hx
    exact ⟨quantile_valid hF (hb y hy).1 (hb y hy).2, rfl⟩)
  obtain ⟨sc, hsc, _, _⟩ := hden.scope
  have hdens : ∀ x ∈ E, ∀ t, 0 < leafDensity (quantile P.var U x.2) t ↔ InSeg U x.2 t := by
    intro x hx t
    have hlt := border_lt hF.sorted hF.two (hb x hx).1 (hb x hx).2
    rw [← quantile_mem]
    have hD : leafDensity (quantile P.var U x.2) t = if (SimpleInterval.mk (border U x.2.1) (border U x.2.2) .closed
        (if x.2.2 = U.length then .closed else .opn)).Mem t then 1 / (border U x.2.2 - border U x.2.1) else 0 := by
      simp only [quantile, leafDensity]
    rw [hD]
    by_cases hmem : (SimpleInterval.mk (border U x.2.1) (border U x.2.2) .closed
        (if x.2.2 = U.length then .closed else .opn)).Mem t
    · rw [if_pos hmem]
      exact ⟨fun _ => hmem, fun _ => div_pos one_pos (by linarith)⟩
    · rw [if_neg hmem]
      exact ⟨fun h => absurd h (lt_irrefl _), fun h => absurd h hmem⟩
  refine ⟨g, 0, hfit, hE.layered, hE.kind, ?_, ?_, ?_, ?_, ?_⟩
  · intro c hc
    rw [hsucc] at hc
    obtain ⟨x, hx, rfl⟩ := List.mem_map.1 hc
    exact ⟨_, _, _, border_lt hF.sorted hF.two (hb x hx).1 (hb x hx).2, hkind x hx⟩
  · rw [hsucc, List.pairwise_map]
    refine hdisj.imp_of_mem ?_
    intro x y hx hy hxy
    rw [intervalOf_eq hE hx, intervalOf_eq hE hy, Set.disjoint_left]
    exact fun t h3 h4 => hxy t ⟨h3, h4⟩
  · intro x
    rw [← hlo, ← hhi, hsucc]
    constructor
    · rintro ⟨c, hc, hx⟩
      obtain ⟨y, hy, rfl⟩ := List.mem_map.1 hc
      rw [intervalOf_eq hE hy] at hx
      exact inSeg_bounds hF (hb y hy).1 (hb y hy).2 hx
    · rintro ⟨h3, h4⟩
      obtain ⟨y, hy, hyx⟩ := hcover x h3 h4
      exact ⟨y.1, List.mem_map_of_mem hy, by rw [intervalOf_eq hE hy]; exact hyx⟩
  · intro m
    let S : Node → Set (Var → ℝ) := fun n =>
      if n = 0 then {x | ∃ y ∈ E, InSeg U y.2 (x P.var)} else {x | ∃ y ∈ E, y.1 = n ∧ InSeg U y.2 (x P.var)}
    have hne0 : ∀ y ∈ E, y.1 ≠ 0 := by
      intro y hy h0
      exact hE.notMem (List.mem_map.2 ⟨entry P.var U ws y.1 y.2, List.mem_map_of_mem (f := fun x => entry P.var U ws x.1 x.2) hy, h0⟩)
    have hinj : ∀ y ∈ E, ∀ z ∈ E, y.1 = z.1 → y = z := by
      have hnd : (E.map Prod.fst).Nodup := by
        have := hE.nodup
        rw [List.map_map] at this
        exact this
      intro y hy z hz hyz
      exact List.inj_on_of_nodup_map hnd hy hz hyz
    have hSy : ∀ y ∈ E, ∀ x, x ∈ S y.1 ↔ InSeg U y.2 (x P.var) := by
      intro y hy x
      simp only [S, if_neg (hne0 y hy), Set.mem_ofPred_eq]
      constructor
      · rintro ⟨z, hz, h3, h4⟩
        rw [← hinj z hz y hy h3]; exact h4
      · intro h3; exact ⟨y, hy, rfl, h3⟩
    have hS : PossiblePoints g S := by
      refine ⟨?_, ?_, ?_⟩
      · intro n d hk x
        obtain ⟨w, hw, rfl, rfl⟩ := hE.of_leaf hk
        obtain ⟨y, hy, rfl⟩ := List.mem_map.1 hw
        exact (hSy y hy x).trans (hdens y hy _).symm
      · intro n hk x
        rw [hE.sum_iff.1 hk, hsucc]
        simp only [S, if_true, Set.mem_ofPred_eq]
        constructor
        · rintro ⟨y, hy, h3⟩
          exact ⟨y.1, List.mem_map_of_mem hy, (hSy y hy x).2 h3⟩
        · rintro ⟨c, hc, h3⟩
          obtain ⟨y, hy, rfl⟩ := List.mem_map.1 hc
          exact ⟨y, hy, (hSy y hy x).1 h3⟩
      · intro n hk
        exact absurd hk hE.not_prod
    obtain ⟨b, hb1, hb2⟩ := C14_is_deterministic hE.layered hsc (fun n hk => absurd hk hE.not_prod)
      (sym := fun _ => false) (by
        intro n d hk
        obtain ⟨w, hw, rfl, rfl⟩ := hE.of_leaf hk
        obtain ⟨y, hy, rfl⟩ := List.mem_map.1 hw
        simp [entry, quantile]) hden.valid hS m
    rw [hb1]
    congr 1
    rw [hb2]
    intro n hk
    rw [hE.sum_iff.1 hk]
    change (g.succ 0).Pairwise _
    rw [hsucc, List.pairwise_map]
    refine hdisj.imp_of_mem ?_
    intro y z hy hz hyz x hx
    exact hyz (x P.var) ⟨(hSy y hy x).1 hx.1, (hSy z hz x).1 hx.2⟩
  · intro x hx m
    obtain ⟨f, hf, hfr⟩ := hden.exists_value (fun d => leafDensity d x)
    obtain ⟨L, _, _, _, hL⟩ := C01_loglikelihood hE.layered hsc hden.valid (fun _ => x) hf m
    refine ⟨f 0, ?_, hL⟩
    obtain ⟨y, hy, hyx⟩ := hcover x ((hlo x).2 ⟨x, hx, le_rfl⟩) ((hhi x).2 ⟨x, hx, le_rfl⟩)
    rw [hfr, List.map_map]
    have hnn : ∀ t ∈ E.map ((fun x_1 : Node × Leaf × LogP => x_1.2.2.exp * leafDensity x_1.2.1 x) ∘
        fun x => entry P.var U ws x.1 x.2), 0 ≤ t := by
      intro t ht
      obtain ⟨z, hz, rfl⟩ := List.mem_map.1 ht
      exact mul_nonneg (LogP.exp_nonneg _) (leafDensity_nonneg (quantile_valid hF (hb z hz).1 (hb z hz).2) _)
    refine lt_of_lt_of_le ?_ (List.single_le_sum hnn _ (List.mem_map_of_mem hy))
    refine mul_pos ?_ ((hdens y hy x).2 hyx)
    rw [LogP.exp_pos]
    simp only [entry, quantileWeight]
    have hlen := hF.len
    have hsum : 0 < ws.sum := by
      have := seg_pos hF.pos (i := 0) (j := ws.length) (by omega) le_rfl
      rwa [seg_all] at this
    have hm : 0 < massOf ws y.2.1 y.2.2 := by
      rw [massOf_eq (hb y hy).1.le (by rw [hF.len]; exact (hb y hy).2)]
      exact seg_pos hF.pos (hb y hy).1 (by rw [hF.len]; exact (hb y hy).2)
    rw [← LogP.exp_pos, LogP.exp_log (div_pos hm hsum).le]
    exact div_pos hm hsum

/-- C40, if the given weights (if any) are those of the distinct data points in increasing order.  Every mixture weight is positive and is the weight of the data points in the interval of its
leaf, relative to the weight of all; the weights sum to one.  If no weights are given, every data point counts once.  If there is
more than one leaf, every leaf has at least `min_samples_per_quantile` of the distinct data points in its interval. -/
theorem C40_weights_partial {P : Params} {data : List ℝ} {weights : Option (List ℝ)} (h : FitInput P data weights) {cap : ℝ}
    {g : Circuit} {r : Node} (hfit : fit P cap data weights = .ok g) (hr : g.root = .ok r) :
    (∀ e ∈ g.outEdges r, 0 < linWeight e) ∧ ((g.outEdges r).map linWeight).sum = 1 ∧
    (weights = none → ∀ e ∈ g.outEdges r,
      linWeight e = (data.countP fun x => decide (x ∈ intervalOf g e.dst)) / data.length) ∧
    (∀ ws, weights = some ws → ∀ e ∈ g.outEdges r,
      linWeight e = weightIn (data.dedup.insertionSort (· ≤ ·)) ws (intervalOf g e.dst) / ws.sum) ∧
    ((g.succ r).length ≠ 1 → ∀ c ∈ g.succ r, P.minSamples ≤ (data.dedup.countP fun x => decide (x ∈ intervalOf g c))) := by
  obtain ⟨E, hfit', hE, _, ch, hch, hperm, hmin⟩ := h.result cap
  rw [hfit] at hfit'
  injection hfit' with hg
  have hF := fine_of h.two h.weights
  set U := (npUnique data).map Prod.fst with hU
  have hUd : U = data.dedup.insertionSort (· ≤ ·) := by
    rw [hU]
    unfold npUnique
    rw [List.map_map]
    exact List.map_id _
  set ws := weightsOf data weights with hws
  have h2 := hF.two
  have hlen := hF.len
  subst hg
  have hr0 : r = 0 := by
    have := hE.layered.root
    rw [hr] at this
    injection this
  subst hr0
  have hb : ∀ x ∈ E, x.2.1 < x.2.2 ∧ x.2.2 ≤ U.length := fun x hx =>
    (hch.bounds x.2 (hperm.mem_iff.1 (List.mem_map_of_mem hx))).2
  have hsum : 0 < ws.sum := by
    have := seg_pos hF.pos (i := 0) (j := ws.length) (by omega) le_rfl
    rwa [seg_all] at this
  have hm : ∀ y ∈ E, 0 < massOf ws y.2.1 y.2.2 := by
    intro y hy
    rw [massOf_eq (hb y hy).1.le (by rw [hF.len]; exact (hb y hy).2)]
    exact seg_pos hF.pos (hb y hy).1 (by rw [hF.len]; exact (hb y hy).2)
  have hlw : ∀ y ∈ E, (quantileWeight ws y.2).exp = massOf ws y.2.1 y.2.2 / ws.sum := fun y hy =>
    LogP.exp_log (div_pos (hm y hy) hsum).le
  have hedge : ∀ e ∈ (leafMix 0 (E.map fun x => entry P.var U ws x.1 x.2)).outEdges 0,
      ∃ y ∈ E, e.dst = y.1 ∧ linWeight e = massOf ws y.2.1 y.2.2 / ws.sum := by
    intro e he
    rw [hE.out, List.map_map] at he
    obtain ⟨y, hy, rfl⟩ := List.mem_map.1 he
    exact ⟨y, hy, rfl, hlw y hy⟩
  have hshare : ∀ y ∈ E, weightIn U ws (intervalOf (leafMix 0 (E.map fun x => entry P.var U ws x.1 x.2)) y.1)
      = massOf ws y.2.1 y.2.2 := by
    intro y hy
    rw [intervalOf_eq hE hy, weightIn_seg hF (hb y hy).1 (hb y hy).2]
  refine ⟨?_, ?_, ?_, ?_, ?_⟩
  · intro e he
    obtain ⟨y, hy, _, h3⟩ := hedge e he
    rw [h3]
    exact div_pos (hm y hy) hsum
  · rw [hE.out, List.map_map, List.map_map]
    have h3 : (E.map ((linWeight ∘ fun x : Node × Leaf × LogP => (⟨0, x.1, some x.2.2⟩ : Edge)) ∘
        fun x => entry P.var U ws x.1 x.2)) = (E.map Prod.snd).map fun s => massOf ws s.1 s.2 * ws.sum⁻¹ := by
      rw [List.map_map]
      apply List.map_congr_left
      intro y hy
      exact (hlw y hy).trans (div_eq_mul_inv _ _)
    rw [h3, (hperm.map _).sum_eq, List.sum_map_mul_right, hch.mass, ← hlen, massOf_eq (Nat.zero_le _) le_rfl, seg_all,
      mul_inv_cancel₀ hsum.ne']
  · rintro rfl e he
    obtain ⟨y, hy, h3, h4⟩ := hedge e he
    have hws0 : ws = (npUnique data).map fun vc => (vc.2 : ℝ) := rfl
    have hs0 : ws.sum = data.length := by
      have := npUnique_real_sum data 1
      simp only [div_one] at this
      rw [hws0, this]
    rw [h4, h3, ← hshare y hy, hs0]
    congr 1
    exact weightIn_counts data _
  · rintro ws' rfl e he
    obtain ⟨y, hy, h3, h4⟩ := hedge e he
    rw [h4, h3, ← hshare y hy]
    rw [← hUd]
    rfl
  · intro hne c hc
    rw [hE.succ, List.map_map] at hc hne
    obtain ⟨y, hy, rfl⟩ := List.mem_map.1 hc
    have hy' : y.2 ∈ ch := hperm.mem_iff.1 (List.mem_map_of_mem hy)
    have h3 : (y.2.1 : ℤ) + P.minSamples ≤ y.2.2 := by
      rcases hmin y.2 hy' with h0 | h0
      · exfalso
        apply hne
        have hch1 : ch.length = 1 := by
          have hall : ∀ t ∈ ch, t = y.2 := by
            intro t ht
            by_contra hty
            have hp := hch.pairwise
            have hbt := hch.bounds t ht
            obtain ⟨i, hi, hit⟩ := List.getElem_of_mem ht
            obtain ⟨j, hj, hjt⟩ := List.getElem_of_mem hy'
            rcases lt_trichotomy i j with hij | hij | hij
            · have := List.pairwise_iff_getElem.1 hp i j hi hj hij
              rw [hit, hjt, h0] at this
              simp at this
              omega
            · subst hij
              exact hty (hit.symm.trans hjt)
            · have := List.pairwise_iff_getElem.1 hp j i hj hi hij
              rw [hit, hjt, h0] at this
              simp at this
              omega
          have hnd : ch.Nodup := by
            refine hch.pairwise.imp_of_mem ?_
            intro s t hs ht hst heq
            subst heq
            have := (hch.bounds s hs).2.1
            omega
          have hrep := List.eq_replicate_of_mem hall
          have hle : ch.length ≤ 1 := by
            rw [hrep] at hnd
            exact List.nodup_replicate.1 hnd
          have := List.length_pos_of_mem hy'
          omega
        have := hperm.length_eq
        simp only [List.length_map] at this ⊢
        omega
      · exact h0
    change P.minSamples ≤ ((data.dedup.countP fun x =>
      decide (x ∈ intervalOf (leafMix 0 (E.map fun x => entry P.var U ws x.1 x.2)) y.1) : ℕ) : ℤ)
    rw [intervalOf_eq hE hy]
    have hcount : data.dedup.countP (fun x => decide (x ∈ {t | InSeg U y.2 t})) = y.2.2 - y.2.1 := by
      have h5 : data.dedup.countP (fun x => decide (x ∈ {t | InSeg U y.2 t}))
          = U.countP (fun x => decide (x ∈ {t | InSeg U y.2 t})) := by
        rw [hUd]
        exact (List.perm_insertionSort _ _).symm.countP_eq _
      rw [h5]
      have h6 := weightIn_seg (ws := List.replicate U.length 1) ⟨hF.sorted, hF.two, by simp, by
        intro w hw; rw [List.eq_of_mem_replicate hw]; exact one_pos⟩ (hb y hy).1 (hb y hy).2
      have h7 : ∀ (l : List ℝ) (S : Set ℝ), weightIn l (List.replicate l.length 1) S = (l.countP fun x => decide (x ∈ S)) := by
        intro l S
        induction l with
        | nil => simp [weightIn]
        | cons a l ih =>
          unfold weightIn at ih ⊢
          rw [List.length_cons, List.replicate_succ, List.zip_cons_cons, List.filter_cons, List.countP_cons]
          by_cases ha : a ∈ S
          · simp [ha, ih, add_comm]
          · simp [ha, ih]
      rw [h7] at h6
      have h8 : massOf (List.replicate U.length 1) y.2.1 y.2.2 = ((y.2.2 - y.2.1 : ℕ) : ℝ) := by
        unfold massOf
        rw [Finset.sum_congr rfl (g := fun _ => (1 : ℝ))]
        · simp
        · intro t ht
          have := (Finset.mem_Ico.1 ht).2
          have := (hb y hy).2
          rw [List.getD_eq_getElem _ _ (by rw [List.length_replicate]; omega), List.getElem_replicate]
      rw [h8] at h6
      exact_mod_cast h6
    rw [hcount]
    have := (hb y hy).1
    omega

/-- C40: the mixture weights are the shares of the weights given with the data points. -/
def C40_full : Prop :=
  ∀ (P : Params) (cap : ℝ) (data ws : List ℝ), 1 ≤ P.minSamples → 0 ≤ P.minImprovement → (∃ x ∈ data, ∃ y ∈ data, x ≠ y) →
    ws.length = data.length → (∀ w ∈ ws, 0 < w) →
    ∃ g r, fit P cap data (some ws) = .ok g ∧ g.root = .ok r ∧
      ∀ e ∈ g.outEdges r, linWeight e = weightIn data ws (intervalOf g e.dst) / ws.sum

/-- C57.  The result of a fit cannot be improved by one more split.  The distinct data points in the interval of a leaf are a
range of the sorted points, and splitting the range anywhere, with `min_samples_per_quantile` points on both sides, multiplies the
likelihood of its points by at most `min_likelihood_improvement`. -/
theorem C57_no_better_split {P : Params} {data : List ℝ} {weights : Option (List ℝ)} (h : FitInput P data weights) {cap : ℝ}
    {g : Circuit} {r : Node} (hfit : fit P cap data weights = .ok g) (hr : g.root = .ok r) {pts ws : List ℝ}
    (hpts : pts = data.dedup.insertionSort (· ≤ ·)) (hws : ws = weights.getD (pts.map fun x => (data.count x : ℝ))) :
    ∀ c ∈ g.succ r, ∃ i j, i < j ∧ j ≤ pts.length ∧
      (∀ t < pts.length, pts.getD t 0 ∈ intervalOf g c ↔ i ≤ t ∧ t < j) ∧
      ∀ k : ℕ, i + P.minSamples ≤ k → k + P.minSamples ≤ j →
        Real.exp (splitScore pts ws i j k - uniformScore pts ws 1 i j) ≤ P.minImprovement := by
  obtain ⟨E, hfit', hE, hNB, ch, hch, hperm, _⟩ := h.result cap
  rw [hfit] at hfit'
  injection hfit' with hg
  have hF := fine_of h.two h.weights
  have hU : (npUnique data).map Prod.fst = pts := by
    rw [hpts]
    unfold npUnique
    rw [List.map_map]
    exact List.map_id _
  have hW : weightsOf data weights = ws := by
    rw [hws, ← hU]
    unfold weightsOf npUnique
    rw [List.map_map, List.map_map, List.map_map]
    rfl
  rw [hU, hW] at hg hE hF
  rw [hU] at hch
  simp only [hU, hW] at hNB
  subst hg
  have hr0 : r = 0 := by
    have := hE.layered.root
    rw [hr] at this
    injection this
  subst hr0
  intro c hc
  rw [hE.succ, List.map_map] at hc
  obtain ⟨y, hy, rfl⟩ := List.mem_map.1 hc
  have hb := (hch.bounds y.2 (hperm.mem_iff.1 (List.mem_map_of_mem hy))).2
  refine ⟨y.2.1, y.2.2, hb.1, hb.2, ?_, hNB y hy⟩
  intro t ht
  change _ ∈ intervalOf (leafMix 0 (E.map fun x => entry P.var pts ws x.1 x.2)) y.1 ↔ _
  rw [intervalOf_eq hE hy]
  exact inSeg_data hF hb.1 hb.2 ht

/-- C57, one induction step.  `compute_best_split` evaluates every admissible split and returns the first of the best ones with its
log-likelihood; there is none exactly if the range has less than twice the minimal number of samples. -/
theorem C57_best_split {P : Params} {data ws : List ℝ} (hs : data.Pairwise (· < ·)) (h2 : 2 ≤ data.length)
    (hl : ws.length = data.length) (hpos : ∀ w ∈ ws, 0 < w) (hm : 1 ≤ P.minSamples) {b e : ℕ} (hbe : b < e) (he : e ≤ data.length) :
    let A : Arrays := ⟨data, cumsum ws, cumsum (ws.map Real.log)⟩
    ((e : ℤ) - b < 2 * P.minSamples → computeBestSplit P A ⟨b, e⟩ = .ok (.negInf, none)) ∧
    (2 * P.minSamples ≤ (e : ℤ) - b → ∃ k : ℕ, b + P.minSamples ≤ k ∧ k + P.minSamples ≤ e ∧
      computeBestSplit P A ⟨b, e⟩ = .ok (.fin (splitScore data ws b e k), some (k : ℤ)) ∧
      ∀ j : ℕ, b + P.minSamples ≤ j → j + P.minSamples ≤ e → splitScore data ws b e j ≤ splitScore data ws b e k) := by
  intro A
  rcases computeBestSplit_eq ⟨hs, h2, hl, hpos⟩ hm hbe he with h | ⟨k, h3, h4, h5⟩
  · exact ⟨fun _ => h.2, fun h' => by omega⟩
  · exact ⟨fun h' => by omega, fun _ => ⟨k, h3, h4, h5⟩⟩

theorem fitInput_example : FitInput ⟨0, 1, 0⟩ [2, 1] (some [3, 1]) where
  minSamples := le_rfl
  minImprovement := le_rfl
  two := ⟨2, by simp, 1, by simp, by norm_num⟩
  weights := by
    intro ws hws
    injection hws with hws
    subst hws
    constructor
    · rw [List.Nodup.dedup (by simp)]
      simp
    · intro w hw
      rcases List.mem_pair.1 hw with rfl | rfl <;> norm_num

/-- The weights are not brought into the order of the data.  For the points `2` and `1` with the weights `3` and `1` the quantile of
`2` gets a quarter of the weight. -/
theorem C40_full_false : ¬ C40_full := by
  intro hfull
  obtain ⟨g, r, hfit, hr, hw⟩ := hfull ⟨0, 1, 0⟩ 1 [2, 1] [3, 1] le_rfl le_rfl ⟨2, by simp, 1, by simp, by norm_num⟩ rfl (by
    intro w hw
    rcases List.mem_pair.1 hw with rfl | rfl <;> norm_num)
  have hsort : ([2, 1] : List ℝ).dedup.insertionSort (· ≤ ·) = [1, 2] := by
    rw [List.Nodup.dedup (by simp)]
    simp [List.insertionSort]
  have h1 := (C40_weights_partial fitInput_example hfit hr).2.2.2.1 _ rfl
  have h2 := C57_no_better_split fitInput_example hfit hr hsort.symm rfl
  obtain ⟨g', r', hfit', hL, hk, _, _, hcov, _⟩ := C39_fit fitInput_example 1
  rw [hfit] at hfit'
  injection hfit' with hgg
  subst hgg
  have hrr : r' = r := by
    have := hL.root
    rw [hr] at this
    injection this with this
    exact this.symm
  subst hrr
  obtain ⟨c, hc, h2c⟩ := (hcov 2).2 ⟨⟨1, by simp, by norm_num⟩, 2, by simp, le_rfl⟩
  obtain ⟨i, j, hij, hj, hmem, hno⟩ := h2 c hc
  have hmem1 := (hmem 1 (by simp)).1 (by simpa using h2c)
  have hj2 : j = 2 := by simp at hj; omega
  have hi1 : i = 1 := by
    by_contra hne
    have hi0 : i = 0 := by omega
    have := hno 1 (by simp [hi0]) (by subst hj2; norm_num)
    exact absurd this (not_le.2 (Real.exp_pos _))
  have hn1 : (1 : ℝ) ∉ intervalOf g c := by
    have := (hmem 0 (by simp)).not.2 (by omega)
    simpa using this
  obtain ⟨e, he, rfl⟩ : ∃ e ∈ g.outEdges r', e.dst = c := by
    unfold Graph.succ at hc
    exact List.mem_map.1 hc
  have h3 := h1 e he
  have h4 := hw e he
  rw [hsort] at h3
  rw [h3] at h4
  unfold weightIn at h4
  simp [h2c, hn1] at h4
  norm_num at h4

/-- C39 for every minimal number of samples and every threshold. -/
def C39_full : Prop :=
  ∀ (P : Params) (cap : ℝ) (data : List ℝ), (∃ x ∈ data, ∃ y ∈ data, x ≠ y) → ∃ g, fit P cap data none = .ok g

theorem foldlM_reads {α β : Type} {f : β → α → Except PyErr β} : ∀ {l : List α} {s t : β}, l.foldlM f s = .ok t →
    ∀ k ∈ l, ∃ s' t', f s' k = .ok t'
  | [], _, _, _, _, hk => by simp at hk
  | a :: l, s, t, h, k, hk => by
    rw [List.foldlM_cons] at h
    cases h1 : f s a with
    | error e => rw [h1] at h; simp [bind, Except.bind] at h
    | ok s' =>
      rw [h1] at h
      rcases List.mem_cons.1 hk with rfl | hk
      · exact ⟨s, s', h1⟩
      · exact foldlM_reads h k hk

/-- With a minimal number of samples of zero, the last split index is the length of the data; reading the data there raises an
error, so no fit succeeds. -/
theorem C39_zero_samples {P : Params} {data : List ℝ} (hm : P.minSamples = 0) (h2 : ∃ x ∈ data, ∃ y ∈ data, x ≠ y)
    (cap : ℝ) (weights : Option (List ℝ)) (g : Circuit) : fit P cap data weights ≠ .ok g := by
  intro hg
  rw [fit_eq h2] at hg
  have hl := two_le_unique h2
  set U := (npUnique data).map Prod.fst
  set A := arrays U (weightsOf data weights)
  obtain ⟨fuel, hfuel⟩ : ∃ f, 2 * U.length = f + 1 := ⟨2 * U.length - 1, by omega⟩
  rw [hfuel] at hg
  simp only [loop, induce, bind, Except.bind] at hg
  cases hb : computeBestSplit P A ⟨0, U.length⟩ with
  | error e => rw [hb] at hg; simp at hg
  | ok best =>
    simp only [computeBestSplit, bind, Except.bind] at hb
    split at hb
    · simp at hb
    split at hb
    · simp at hb
    obtain ⟨s, t, hst⟩ := foldlM_reads hb (U.length : ℤ) (by
      rw [mem_pyRange]
      constructor <;> simp [hm])
    have hread : pyGet A.data U.length = .error .indexError := by
      have hA : A.data = U := rfl
      have h0 : ¬ ((U.length : ℤ) < 0) := by omega
      unfold pyGet
      simp only [hA, if_neg h0, Int.toNat_natCast, List.getElem?_length]
    have hside : ∀ p q, splitSide A ⟨0, U.length⟩ U.length p ≠ .ok q := by
      intro p q hq
      simp only [splitSide, bind, Except.bind, hread] at hq
      split at hq <;> simp at hq
    split at hst
    · simp at hst
    · rename_i q hq
      exact hside _ _ hq

/-- A minimal number of samples of zero. -/
theorem C39_full_false : ¬ C39_full := by
  intro hfull
  obtain ⟨g, hg⟩ := hfull ⟨0, 0, 0⟩ 1 [1, 2] ⟨1, by simp, 2, by simp, by norm_num⟩
  exact C39_zero_samples rfl ⟨1, by simp, 2, by simp, by norm_num⟩ _ _ _ hg

theorem unique_single {data : List ℝ} {x : ℝ} (hne : data ≠ []) (h : ∀ y ∈ data, y = x) : (npUnique data).map Prod.fst = [x] := by
  have h1 := (npUnique_sorted data).imp (S := (· ≠ ·)) (fun h => ne_of_lt h)
  have h3 : ∀ y ∈ (npUnique data).map Prod.fst, y = x := fun y hy => h y (mem_unique.1 hy)
  have h4 := List.eq_replicate_of_mem h3
  have h5 : ((npUnique data).map Prod.fst).length ≤ 1 := by
    rw [h4] at h1
    exact List.nodup_replicate.1 h1
  have h6 : x ∈ (npUnique data).map Prod.fst := by
    obtain ⟨y, hy⟩ := List.exists_mem_of_ne_nil _ hne
    exact mem_unique.2 (h y hy ▸ hy)
  match hm : (npUnique data).map Prod.fst with
  | [] => rw [hm] at h6; simp at h6
  | [a] => rw [hm] at h6; simp at h6; rw [h6]
  | a :: b :: l => rw [hm] at h5; simp at h5

theorem fit_single {P : Params} {data : List ℝ} {x : ℝ} (hne : data ≠ []) (h : ∀ y ∈ data, y = x) (cap : ℝ)
    (weights : Option (List ℝ)) : fit P cap data weights = .ok (newUnit 0 (.leaf (.dirac P.var x cap))) := by
  unfold fit
  simp only [unique_single hne h]

/-- Data with one value gives a Dirac distribution at the value. -/
theorem C39_single {P : Params} {data : List ℝ} {x : ℝ} (hne : data ≠ []) (h : ∀ y ∈ data, y = x) (cap : ℝ)
    (weights : Option (List ℝ)) : ∃ g r, fit P cap data weights = .ok g ∧ Layered g r ∧ g.kind? r = some (.leaf (.dirac P.var x cap)) :=
  ⟨newUnit 0 (.leaf (.dirac P.var x cap)), 0, fit_single hne h cap weights, layered_newUnit _ _, rfl⟩

/-- Three points, one of them twice, are a possible input. -/
example : FitInput ⟨0, 1, 1 / 10⟩ [1, 4, 2, 2] none where
  minSamples := le_rfl
  minImprovement := by norm_num
  two := ⟨1, by simp, 2, by simp, by norm_num⟩
  weights := by simp

/-- The theorems apply to this input. -/
example : ∃ g r, fit ⟨0, 1, 0⟩ 1 [2, 1] (some [3, 1]) = .ok g ∧ g.root = .ok r ∧ ((g.outEdges r).map linWeight).sum = 1 := by
  obtain ⟨g, r, hfit, hL, _⟩ := C39_fit fitInput_example 1
  exact ⟨g, r, hfit, hL.root, (C40_weights_partial fitInput_example hfit hL.root).2.1⟩

/-- Three sorted points with a split after the first one. -/
example : ([1, 2, 4] : List ℝ).Pairwise (· < ·) ∧ ∃ k : ℕ, (0 : ℤ) + 1 ≤ k ∧ (k : ℤ) + 1 ≤ 3 := by
  constructor
  · norm_num
  · exact ⟨1, by norm_num, by norm_num⟩

end PM.Props
