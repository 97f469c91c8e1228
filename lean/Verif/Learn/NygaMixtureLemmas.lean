import Verif.Learn.NygaMixture
import Verif.Props.LeafConditional
import Verif.Circuit.TransformLemmas
import Verif.Circuit.DetSumLemmas

/-! Helper lemmas for C64. -/

namespace PM.Learn.Nyga

open Graph Spec MeasureTheory

theorem weigh_eq {g : Circuit} {v : Var} {p : ℝ × ℝ × Bound → ℝ} :
    ∀ (Is : List (ℝ × ℝ × Bound)) (m : Mem ℝ),
      (∀ I ∈ Is, ∀ m, (g.probabilityOfSimpleEvent m [(v, .interval [⟨(I.1 : EReal), (I.2.1 : EReal), .closed, I.2.2⟩])]).2 = .ok (p I)) →
      weigh g v Is m = .ok (Is.map p)
  | [], _, _ => rfl
  | I :: Is, m, h => by
    have h1 := h I (by simp) m
    unfold weigh
    generalize g.probabilityOfSimpleEvent m [(v, .interval [⟨(I.1 : EReal), (I.2.1 : EReal), .closed, I.2.2⟩])] = q at h1
    obtain ⟨q1, q2⟩ := q
    dsimp only at h1
    subst h1
    dsimp only
    rw [weigh_eq Is q1 fun I' hI' => h I' (by simp [hI'])]
    rfl

theorem mapM_borders {g : Circuit} : ∀ (l : List Node), (∀ n ∈ l, ∃ v lo hi a b, g.kind? n = some (.leaf (.uniform v lo hi a b))) →
    ∃ bs, l.mapM (bordersOf g) = .ok bs ∧
      (∀ n ∈ l, ∀ v lo hi a b, g.kind? n = some (.leaf (.uniform v lo hi a b)) → lo ∈ bs.flatten ∧ hi ∈ bs.flatten) ∧
      ∀ t ∈ bs.flatten, ∃ n ∈ l, ∃ v lo hi a b, g.kind? n = some (.leaf (.uniform v lo hi a b)) ∧ (t = lo ∨ t = hi)
  | [], _ => ⟨[], rfl, by simp, by simp⟩
  | n :: l, h => by
    obtain ⟨bs, h1, h2, h3⟩ := mapM_borders l fun n hn => h n (by simp [hn])
    obtain ⟨v, lo, hi, a, b, hk⟩ := h n (by simp)
    refine ⟨[lo, hi] :: bs, ?_, ?_, ?_⟩
    · rw [List.mapM_cons, h1]
      simp only [bordersOf, hk]
      rfl
    · intro n' hn' v' lo' hi' a' b' hk'
      rcases List.mem_cons.1 hn' with rfl | hn'
      · rw [hk] at hk'
        injection hk' with hk'; injection hk' with hk'; injection hk' with e1 e2 e3
        simp [e2, e3]
      · have := h2 n' hn' v' lo' hi' a' b' hk'
        simp [this]
    · intro t ht
      rw [List.flatten_cons, List.mem_append] at ht
      rcases ht with ht | ht
      · exact ⟨n, by simp, v, lo, hi, a, b, hk, by simpa using ht⟩
      · obtain ⟨n', hn', h4⟩ := h3 t ht
        exact ⟨n', by simp [hn'], h4⟩

/-- Where a number lies that is not one of the sorted points. -/
theorem locate {x : ℝ} : ∀ {pts : List ℝ}, pts.Pairwise (· < ·) → x ∉ pts →
    (∀ t ∈ pts, x < t) ∨ (∀ t ∈ pts, t < x) ∨ ∃ j, j + 1 < pts.length ∧ pts.getD j 0 < x ∧ x < pts.getD (j + 1) 0
  | [], _, _ => .inl (by simp)
  | a :: l, hp, hx => by
    rw [List.pairwise_cons] at hp
    rw [List.mem_cons, not_or] at hx
    rcases lt_or_gt_of_ne hx.1 with h | h
    · exact .inl fun t ht => by
        rcases List.mem_cons.1 ht with rfl | ht
        · exact h
        · exact h.trans (hp.1 t ht)
    · rcases locate hp.2 hx.2 with h1 | h1 | ⟨j, h1, h2, h3⟩
      · cases l with
        | nil => exact .inr (.inl (by simpa using h))
        | cons b l => exact .inr (.inr ⟨0, by simp, by simpa using h, by simpa using h1 b (by simp)⟩)
      · refine .inr (.inl fun t ht => ?_)
        rcases List.mem_cons.1 ht with rfl | ht
        · exact h
        · exact h1 t ht
      · exact .inr (.inr ⟨j + 1, by simpa using h1, by simpa using h2, by simpa using h3⟩)

theorem getD_get {pts : List ℝ} {i : ℕ} (hi : i < pts.length) : pts.getD i 0 = pts[i] := by
  simp [List.getD, List.getElem?_eq_getElem hi]

theorem getD_lt {pts : List ℝ} (hp : pts.Pairwise (· < ·)) {i j : ℕ} (hij : i < j) (hj : j < pts.length) :
    pts.getD i 0 < pts.getD j 0 := by
  rw [getD_get (by omega), getD_get hj]
  exact List.pairwise_iff_getElem.1 hp i j (by omega) hj hij

theorem getD_le {pts : List ℝ} (hp : pts.Pairwise (· < ·)) {i j : ℕ} (hij : i ≤ j) (hj : j < pts.length) :
    pts.getD i 0 ≤ pts.getD j 0 := by
  rcases hij.lt_or_eq with h | rfl
  · exact (getD_lt hp h hj).le
  · exact le_rfl

/-- No point lies between two neighbours. -/
theorem no_between {pts : List ℝ} (hp : pts.Pairwise (· < ·)) {i : ℕ} (hi : i + 1 < pts.length) {t : ℝ} (ht : t ∈ pts) :
    t ≤ pts.getD i 0 ∨ pts.getD (i + 1) 0 ≤ t := by
  obtain ⟨k, hk, rfl⟩ := List.getElem_of_mem ht
  rw [← getD_get hk]
  rcases Nat.lt_or_ge i k with h | h
  · exact .inr (getD_le hp h hk)
  · exact .inl (getD_le hp h (by omega))

theorem uniform_outside {v : Var} {lo hi x : ℝ} {l r : Bound} (h : x < lo ∨ hi < x) : leafDensity (.uniform v lo hi l r) x = 0 := by
  simp only [leafDensity]
  rw [if_neg]
  rintro ⟨h1, h2⟩
  have h1' : lo ≤ x := by cases l <;> simp [SimpleInterval.leftOK] at h1 <;> linarith
  have h2' : x ≤ hi := by cases r <;> simp [SimpleInterval.rightOK] at h2 <;> linarith
  rcases h with h | h <;> linarith

theorem uniform_inside' {v : Var} {lo hi x : ℝ} {l r : Bound} (h1 : lo < x) (h2 : x < hi) :
    leafDensity (.uniform v lo hi l r) x = 1 / (hi - lo) := by
  simp only [leafDensity]
  rw [if_pos]
  constructor
  · cases l <;> simp [SimpleInterval.leftOK, h1, h1.le]
  · cases r <;> simp [SimpleInterval.rightOK, h2, h2.le]

/-- The part of a uniform distribution between two neighbouring points. -/
theorem uniform_piece {v : Var} {lo hi a b x : ℝ} {l r c : Bound} (h : lo < hi) (hab : a < b) (hlo : lo ≤ a ∨ b ≤ lo)
    (hhi : hi ≤ a ∨ b ≤ hi) (hx : a < x) (hx' : x < b) :
    (Leaf.uniform v lo hi l r).prob (.interval [⟨(a : EReal), (b : EReal), .closed, c⟩])
      = .ok (leafDensity (.uniform v lo hi l r) x * (b - a)) := by
  have hpos : 0 < hi - lo := sub_pos.2 h
  have hset : (VSet.interval [⟨(a : EReal), (b : EReal), .closed, c⟩]).toSet = if c = .closed then Set.Icc a b else Set.Ico a b := by
    ext t
    cases c <;> simp [VSet.toSet, VSet.Mem, SimpleInterval.Mem, SimpleInterval.leftOK, SimpleInterval.rightOK]
  have hdis : (VSet.interval [⟨(a : EReal), (b : EReal), .closed, c⟩]).Disjoint := by
    refine ⟨List.pairwise_singleton _ _, fun i hi => ?_⟩
    rw [List.mem_singleton.1 hi]
    rintro (h1 | ⟨h1, -⟩)
    · exact absurd (EReal.coe_lt_coe_iff.1 h1) hab.not_gt
    · exact absurd (EReal.coe_eq_coe_iff.1 h1) hab.ne
  rw [Props.C28_probability v h l r hdis, hset]
  congr 1
  have hlen : ∀ S : Set ℝ, Set.Ico a b ⊆ S → S ⊆ Set.Icc a b → volume.real S = b - a := by
    intro S h1 h2
    refine le_antisymm ?_ ?_
    · refine (measureReal_mono h2 (by simp)).trans ?_
      rw [Real.volume_real_Icc_of_le hab.le]
    · rw [← Real.volume_real_Ico_of_le hab.le]
      exact measureReal_mono h1 (ne_top_of_le_ne_top (by simp) (measure_mono h2))
  have hS1 : Set.Ico a b ⊆ (if c = .closed then Set.Icc a b else Set.Ico a b) := by
    split
    · exact Set.Ico_subset_Icc_self
    · exact le_rfl
  have hS2 : (if c = .closed then Set.Icc a b else Set.Ico a b) ⊆ Set.Icc a b := by
    split
    · exact le_rfl
    · exact Set.Ico_subset_Icc_self
  have out : (hi ≤ a ∨ b ≤ lo) → volume.real ((if c = .closed then Set.Icc a b else Set.Ico a b) ∩ Set.Icc lo hi) = 0 := by
    intro ho
    have hnull : volume (Set.Icc a b ∩ Set.Icc lo hi) = 0 := by
      rcases ho with ho | ho
      · refine measure_mono_null (t := {a}) ?_ (by simp)
        rintro t ⟨⟨h1, h2⟩, h3, h4⟩
        exact le_antisymm (h4.trans ho) h1
      · refine measure_mono_null (t := {b}) ?_ (by simp)
        rintro t ⟨⟨h1, h2⟩, h3, h4⟩
        exact le_antisymm h2 (ho.trans h3)
    rw [measureReal_def, measure_mono_null (Set.inter_subset_inter_left _ hS2) hnull]
    rfl
  have dens : leafDensity (.uniform v lo hi l r) x = if lo ≤ a ∧ b ≤ hi then 1 / (hi - lo) else 0 := by
    by_cases hc : lo ≤ a ∧ b ≤ hi
    · rw [if_pos hc]
      exact uniform_inside' (hc.1.trans_lt hx) (hx'.trans_le hc.2)
    · rw [if_neg hc]
      refine uniform_outside ?_
      rcases hlo with h3 | h3
      · rcases hhi with h4 | h4
        · exact .inr (by linarith)
        · exact absurd ⟨h3, h4⟩ hc
      · exact .inl (by linarith)
  rw [dens]
  by_cases hc : lo ≤ a ∧ b ≤ hi
  · rw [if_pos hc, Set.inter_eq_left.2 (hS2.trans (Set.Icc_subset_Icc hc.1 hc.2)), hlen _ hS1 hS2]
    ring
  · rw [if_neg hc, out, zero_div, zero_mul]
    rcases hlo with h3 | h3
    · rcases hhi with h4 | h4
      · exact .inl h4
      · exact absurd ⟨h3, h4⟩ hc
    · exact .inr h3

/-- The entries of the new mixture. -/
noncomputable def entries (v : Var) (pts : List ℝ) (p : ℝ × ℝ × Bound → ℝ) : List (Node × Leaf × LogP) :=
  (List.range (pts.length - 1)).map fun i => pieceEntry v i (piece pts i, p (piece pts i))

theorem entries_eq (v : Var) (pts : List ℝ) (p : ℝ × ℝ × Bound → ℝ) :
    (((pieces pts).zip ((pieces pts).map p)).mapIdx (pieceEntry v)) = entries v pts p := by
  apply List.ext_getElem
  · simp [entries, pieces]
  · intro i h1 h2
    simp [entries, pieces]

theorem entries_fresh (v : Var) (pts : List ℝ) (p : ℝ × ℝ × Bound → ℝ) : FreshIds 0 (entries v pts p) := by
  have : (entries v pts p).map Prod.fst = (List.range (pts.length - 1)).map (· + 1) := by
    simp [entries, pieceEntry, Function.comp_def]
  constructor
  · rw [this]
    exact List.nodup_range.map (fun a b h => Nat.succ.inj h)
  · rw [this]
    simp

end PM.Learn.Nyga
