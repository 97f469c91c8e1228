import Verif.Dist.CondLemmas

/-! Lemmas about probability dictionaries. -/

namespace PM

open Classical Leaf

theorem lookup_nil (k : ℤ) : lookup [] k = 0 := rfl

theorem lookup_cons (q : ℤ × ℝ) (l : List (ℤ × ℝ)) (k : ℤ) :
    lookup (q :: l) k = if q.1 = k then q.2 else lookup l k := by
  unfold lookup
  by_cases h : q.1 = k
  · simp [h]
  · have : (q.1 == k) = false := by simpa using h
    simp [this, h]

theorem lookup_eq_zero {l : List (ℤ × ℝ)} {k : ℤ} (h : k ∉ l.map Prod.fst) : lookup l k = 0 := by
  induction l with
  | nil => rfl
  | cons q l ih =>
    simp only [List.map_cons, List.mem_cons, not_or] at h
    rw [lookup_cons, if_neg (Ne.symm h.1), ih h.2]

theorem lookup_of_mem {l : List (ℤ × ℝ)} (hn : (l.map Prod.fst).Nodup) {q : ℤ × ℝ} (h : q ∈ l) : lookup l q.1 = q.2 := by
  induction l with
  | nil => simp at h
  | cons a l ih =>
    simp only [List.map_cons, List.nodup_cons] at hn
    rw [lookup_cons]
    rcases List.mem_cons.1 h with rfl | h
    · simp
    · rw [if_neg, ih hn.2 h]
      intro he
      exact hn.1 (List.mem_map.2 ⟨q, h, he.symm⟩)

theorem lookup_nonneg {l : List (ℤ × ℝ)} (hp : ∀ kp ∈ l, 0 ≤ kp.2) (k : ℤ) : 0 ≤ lookup l k := by
  induction l with
  | nil => simp [lookup_nil]
  | cons a l ih =>
    rw [lookup_cons]
    split
    · exact hp a (by simp)
    · exact ih fun kp h => hp kp (by simp [h])

theorem lookup_map_snd (l : List (ℤ × ℝ)) (f : ℝ → ℝ) (h0 : f 0 = 0) (k : ℤ) :
    lookup (l.map fun kp => (kp.1, f kp.2)) k = f (lookup l k) := by
  induction l with
  | nil => simp [lookup_nil, h0]
  | cons a l ih =>
    simp only [List.map_cons, lookup_cons, ih]
    split <;> rfl

theorem lookup_filter (l : List (ℤ × ℝ)) (Q : ℤ → Prop) (k : ℤ) :
    lookup (l.filter fun kp => Q kp.1) k = if Q k then lookup l k else 0 := by
  induction l with
  | nil => simp [lookup_nil]
  | cons a l ih =>
    by_cases ha : Q a.1
    · rw [List.filter_cons_of_pos (by simpa using ha), lookup_cons, lookup_cons, ih]
      by_cases hk : a.1 = k
      · subst hk; simp [ha]
      · simp [hk]
    · rw [List.filter_cons_of_neg (by simpa using ha), lookup_cons, ih]
      by_cases hk : a.1 = k
      · subst hk; simp [ha]
      · simp [hk]

theorem lookup_map_key (S : List ℤ) (f : ℤ → ℝ) (k : ℤ) :
    lookup (S.map fun k => (k, f k)) k = if k ∈ S then f k else 0 := by
  induction S with
  | nil => simp [lookup_nil]
  | cons a S ih =>
    simp only [List.map_cons, lookup_cons, ih, List.mem_cons]
    by_cases h : a = k
    · subst h; simp
    · simp [h, Ne.symm h]

theorem sum_filter_pos (S : List ℤ) (f : ℤ → ℝ) (hf : ∀ k, 0 ≤ f k) :
    ((S.filter fun k => 0 < f k).map f).sum = (S.map f).sum := by
  induction S with
  | nil => simp
  | cons a S ih =>
    by_cases h : 0 < f a
    · rw [List.filter_cons_of_pos (by simpa using h)]; simp [ih]
    · rw [List.filter_cons_of_neg (by simpa using h)]
      have : f a = 0 := le_antisymm (not_lt.1 h) (hf a)
      simp [ih, this]

/-- The total probability of the values in a set. -/
noncomputable def massIn (probs : List (ℤ × ℝ)) (A : Set ℝ) : ℝ :=
  ((probs.filter fun kp => (kp.1 : ℝ) ∈ A).map Prod.snd).sum

theorem massIn_eq_indicator (probs : List (ℤ × ℝ)) (A : Set ℝ) :
    massIn probs A = (probs.map fun kp => A.indicator (fun _ => kp.2) (kp.1 : ℝ)).sum := by
  unfold massIn
  induction probs with
  | nil => simp
  | cons a l ih =>
    by_cases h : (a.1 : ℝ) ∈ A
    · rw [List.filter_cons_of_pos (by simpa using h)]
      simp [ih, Set.indicator_of_mem h]
    · rw [List.filter_cons_of_neg (by simpa using h)]
      simp [ih, Set.indicator_of_notMem h]

theorem normalizeProbs_lookup (l : List (ℤ × ℝ)) (k : ℤ) :
    lookup (normalizeProbs l) k = lookup l k / (l.map Prod.snd).sum :=
  lookup_map_snd l (fun p => p / (l.map Prod.snd).sum) (by simp) k

theorem normalizeProbs_keys (l : List (ℤ × ℝ)) : (normalizeProbs l).map Prod.fst = l.map Prod.fst := by
  simp [normalizeProbs, Function.comp_def]

theorem normalizeProbs_sum {l : List (ℤ × ℝ)} (h : (l.map Prod.snd).sum ≠ 0) :
    ((normalizeProbs l).map Prod.snd).sum = 1 := by
  have : ∀ (l' : List (ℤ × ℝ)) (c : ℝ), (l'.map fun kp => kp.2 / c).sum = (l'.map Prod.snd).sum / c := by
    intro l' c
    induction l' with
    | nil => simp
    | cons a l' ih => simp [ih, add_div]
  rw [normalizeProbs, List.map_map]
  exact (this l _).trans (div_self h)

end PM
