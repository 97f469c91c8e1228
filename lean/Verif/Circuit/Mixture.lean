import Verif.Circuit.WovenLayered
import Verif.Circuit.LeafMix
import Mathlib.Algebra.BigOperators.Group.Finset.Basic
import Mathlib.Algebra.BigOperators.Ring.Finset
import Mathlib.Tactic.Ring
import Mathlib.Tactic.FieldSimp

/-! # Mixtures and their interaction -/

namespace PM.Graph

open Spec

/-- `g` is a circuit over `V` whose root `u` is a sum unit with `N` children of values `F`. -/
structure Mixture (g : Circuit) (u : Node) (V : Finset Var) (N : ℕ) (F : ℕ → (Leaf → ℝ) → ℝ) : Prop where
  layered : Layered g u
  scope : ∃ sc, Scoped g sc ∧ Decomposable g sc ∧ sc u = V
  valid : ∀ n d, g.kind? n = some (.leaf d) → d.Valid
  kind : g.kind? u = some .sum
  count : (g.succ u).length = N
  value : ∀ ℓ f, CircuitValue g ℓ f → ∀ k < N, f ((g.succ u).getD k 0) = F k ℓ

theorem zipIdx_eq_range (l : List Node) : l.zipIdx = (List.range l.length).map fun j => (l.getD j 0, j) := by
  apply List.ext_getElem
  · simp
  · intro i h1 h2
    have h3 : i < l.length := by simpa using h1
    simp only [List.getElem_zipIdx, List.getElem_map, List.getElem_range, Nat.zero_add]
    rw [List.getD_eq_getElem?_getD, List.getElem?_eq_getElem h3]
    rfl

theorem sum_map_range (n : ℕ) (φ : ℕ → ℝ) : ((List.range n).map φ).sum = ∑ j ∈ Finset.range n, φ j := by
  induction n with
  | zero => simp
  | succ n ih => rw [List.range_succ, List.map_append, List.sum_append, ih, Finset.sum_range_succ]; simp

theorem sum_map_filter_ne {α : Type} (l : List α) (p φ : α → ℝ) (h : ∀ x ∈ l, p x = 0 → φ x = 0) :
    ((l.filter fun x => decide (p x ≠ 0)).map φ).sum = (l.map φ).sum := by
  induction l with
  | nil => rfl
  | cons x l ih =>
    have ih' := ih fun y hy => h y (by simp [hy])
    by_cases hx : p x = 0
    · rw [List.filter_cons_of_neg (by simpa using hx), List.map_cons, List.sum_cons, h x (by simp) hx, zero_add, ih']
    · rw [List.filter_cons_of_pos (by simpa using hx), List.map_cons, List.map_cons, List.sum_cons, List.sum_cons, ih']

/-- The weights of a proxy sum. -/
theorem exp_proxyTotal {others : List Node} {pc : ℝ} {pq : ℕ → ℝ} (hpc : 0 < pc) (hpq : ∀ j, 0 ≤ pq j)
    (hsum : ∑ j ∈ Finset.range others.length, pq j = pc) : (proxyTotal others.zipIdx pc pq).exp = 1 := by
  unfold proxyTotal
  rw [LogP.exp_logsumexp, List.map_map]
  have : (LogP.exp ∘ fun x : Node × ℕ => LogP.log (pq x.2 / pc)) = fun x => pq x.2 / pc := by
    funext x
    exact LogP.exp_log (div_nonneg (hpq _) hpc.le)
  rw [this, sum_map_filter_ne _ (fun x : Node × ℕ => pq x.2) _ (fun x _ hx => by rw [hx, zero_div]),
    zipIdx_eq_range, List.map_map]
  have : ((fun x : Node × ℕ => pq x.2 / pc) ∘ fun j => (others.getD j 0, j)) = fun j => pq j / pc := rfl
  rw [this, sum_map_range, ← Finset.sum_div, hsum, div_self hpc.ne']

theorem sum_proxyEdges {others : List Node} {pc : ℝ} {pq : ℕ → ℝ} (hpc : 0 < pc) (hpq : ∀ j, 0 ≤ pq j)
    (hsum : ∑ j ∈ Finset.range others.length, pq j = pc) (s : Node) (f : Node → ℝ) :
    ((proxyEdges s others.zipIdx pc pq).map fun e => linWeight e * f e.dst).sum
      = ∑ j ∈ Finset.range others.length, pq j / pc * f (others.getD j 0) := by
  have hT := exp_proxyTotal hpc hpq hsum
  have hT' : proxyTotal others.zipIdx pc pq ≠ LogP.negInf := by
    intro h; rw [h] at hT; simp at hT
  unfold proxyEdges
  rw [List.map_map]
  have : ((fun e : Edge => linWeight e * f e.dst) ∘ fun x : Node × ℕ =>
      (⟨s, x.1, some (LogP.log (pq x.2 / pc) - proxyTotal others.zipIdx pc pq)⟩ : Edge))
      = fun x => pq x.2 / pc * f x.1 := by
    funext x
    simp only [Function.comp, linWeight]
    rw [LogP.exp_sub hT', hT, div_one, LogP.exp_log (div_nonneg (hpq _) hpc.le)]
  rw [this, sum_map_filter_ne _ (fun x : Node × ℕ => pq x.2) _ (fun x _ hx => by rw [hx]; simp),
    zipIdx_eq_range, List.map_map]
  have : ((fun x : Node × ℕ => pq x.2 / pc * f x.1) ∘ fun j => (others.getD j 0, j))
      = fun j => pq j / pc * f (others.getD j 0) := rfl
  rw [this, sum_map_range]

section
variable {g h G : Circuit} {u o b : Node} {pc : ℕ → ℝ} {pq : ℕ → ℕ → ℝ}

/-- The leaves of the result are leaves of the two mixtures. -/
theorem woven_leaf (hh : h.WF) (hu : u ∈ g.ids) (hku : g.kind? u = some .sum)
    (hG : Woven g h u b (h.succ o).zipIdx pc pq (g.succ u).length G) {n : Node}
    {d : Leaf} (hk : G.kind? n = some (.leaf d)) : g.kind? n = some (.leaf d) ∨ h.kind? n = some (.leaf d) := by
  have hn := mem_ids_of_kind? hk
  rcases woven_unit hh hG hn with rfl | ⟨hng, hnu⟩ | ⟨k, hk', rfl⟩ | ⟨k, hk', rfl⟩ | ⟨hnh, _⟩
  · rw [hG.kindG _ hu, hku] at hk; cases hk
  · rw [hG.kindG n hng] at hk; exact .inl hk
  · rw [hG.kindP k hk'] at hk; cases hk
  · rw [hG.kindS k hk'] at hk; cases hk
  · rw [(hG.comp n hn hnh).1] at hk; exact .inr hk

theorem getD_mem {l : List Node} {k : ℕ} (hk : k < l.length) : l.getD k 0 ∈ l := by
  rw [List.getD_eq_getElem?_getD, List.getElem?_eq_getElem hk]
  exact List.getElem_mem _

theorem woven_scoped (hg : Layered g u) (hh : Layered h o) (hd : DisjointIds g h) (hbg : ∀ n ∈ g.ids, n < b)
    (hbh : ∀ n ∈ h.ids, n < b) (hku : g.kind? u = some .sum) (hko : h.kind? o = some .sum)
    (hG : Woven g h u b (h.succ o).zipIdx pc pq (g.succ u).length G)
    (hne : ∀ k < (g.succ u).length, ∃ x ∈ (h.succ o).zipIdx, pq k x.2 ≠ 0)
    {scg sch : Node → Finset Var} (hsg : Scoped g scg) (hdg : Decomposable g scg) (hsh : Scoped h sch)
    (hdh : Decomposable h sch) (hV : Disjoint (scg u) (sch o)) :
    ∃ sc, Scoped G sc ∧ Decomposable G sc ∧ sc u = scg u ∪ sch o := by
  have hu := (root_mem hg.root).1
  have hub := hbg u hu
  obtain ⟨sc, hsc⟩ : ∃ sc : Node → Finset Var, sc = fun n => if n = u then scg u ∪ sch o else if n ∈ g.ids then scg n
      else if n ∈ h.ids then sch n else if (n - b) % 2 = 0 then scg u ∪ sch o else sch o := ⟨_, rfl⟩
  have sU : sc u = scg u ∪ sch o := by rw [hsc]; simp
  have sG : ∀ n ∈ g.ids, n ≠ u → sc n = scg n := by
    intro n hn hnu; rw [hsc]; simp only [if_neg hnu, if_pos hn]
  have sH : ∀ n ∈ h.ids, sc n = sch n := by
    intro n hn
    have h1 : n ∉ g.ids := fun h' => hd n h' hn
    have h2 : n ≠ u := fun h' => h1 (h' ▸ hu)
    rw [hsc]; simp only [if_neg h1, if_neg h2, if_pos hn]
  have sP : ∀ k, sc (b + 2 * k) = scg u ∪ sch o := by
    intro k
    have h1 : b + 2 * k ∉ g.ids := fun h' => by have := hbg _ h'; nomega
    have h2 : b + 2 * k ∉ h.ids := fun h' => by have := hbh _ h'; nomega
    have h3 : b + 2 * k ≠ u := by nomega
    have h4 : (b + 2 * k - b) % 2 = 0 := by nomega
    rw [hsc]; simp only [if_neg h1, if_neg h2, if_neg h3, if_pos h4]
  have sS : ∀ k, sc (b + 2 * k + 1) = sch o := by
    intro k
    have h1 : b + 2 * k + 1 ∉ g.ids := fun h' => by have := hbg _ h'; nomega
    have h2 : b + 2 * k + 1 ∉ h.ids := fun h' => by have := hbh _ h'; nomega
    have h3 : b + 2 * k + 1 ≠ u := by nomega
    have h4 : ¬ (b + 2 * k + 1 - b) % 2 = 0 := by nomega
    rw [hsc]; simp only [if_neg h1, if_neg h2, if_neg h3, if_neg h4]
  have hcu : ∀ n, ∀ c ∈ g.succ n, c ≠ u := by
    rintro n c hc rfl
    obtain ⟨e, he, _, h2⟩ := mem_succ.1 hc
    have : e ∈ g.inEdges c := mem_inEdges.2 ⟨he, h2⟩
    rw [(root_mem hg.root).2] at this
    cases this
  have sGc : ∀ n, ∀ c ∈ g.succ n, sc c = scg c := fun n c hc => sG c (succ_mem_ids hg.wf hc) (hcu n c hc)
  have sHc : ∀ n, ∀ c ∈ h.succ n, sc c = sch c := fun n c hc => sH c (succ_mem_ids hh.wf hc)
  have succG : ∀ n ∈ g.ids, n ≠ u → G.succ n = g.succ n := fun n hn hnu => by unfold succ; rw [hG.outG n hn hnu]
  have succH : ∀ n ∈ G.ids, n ∈ h.ids → G.succ n = h.succ n := fun n hn hnh => by
    unfold succ; rw [(hG.comp n hn hnh).2]
  have succU : G.succ u = (List.range (g.succ u).length).map fun k => b + 2 * k := by
    unfold succ
    rw [hG.outU, List.drop_eq_nil_of_le (by simp [succ]), List.nil_append, List.map_map]
    rfl
  have succP : ∀ k < (g.succ u).length, G.succ (b + 2 * k) = [(g.succ u).getD k 0, b + 2 * k + 1] := by
    intro k hk; unfold succ; rw [hG.outP k hk]; rfl
  have succS : ∀ k < (g.succ u).length, G.succ (b + 2 * k + 1)
      = ((h.succ o).zipIdx.filter fun x => decide (pq k x.2 ≠ 0)).map Prod.fst := by
    intro k hk; unfold succ; rw [hG.outS k hk]; unfold proxyEdges; rw [List.map_map]; rfl
  have sOwn : ∀ k < (g.succ u).length, sc ((g.succ u).getD k 0) = scg u := fun k hk => by
    rw [sGc u _ (getD_mem hk)]
    exact hsg.sum u hku _ (getD_mem hk)
  refine ⟨sc, ⟨?_, ?_, ?_, ?_⟩, ?_, sU⟩
  · intro n d hk
    have hn := mem_ids_of_kind? hk
    rcases woven_unit hh.wf hG hn with rfl | ⟨hng, hnu⟩ | ⟨k, hk', rfl⟩ | ⟨k, hk', rfl⟩ | ⟨hnh, _⟩
    · rw [hG.kindG _ hu, hku] at hk; cases hk
    · rw [hG.kindG n hng] at hk
      rw [sG n hng hnu]; exact hsg.leaf n d hk
    · rw [hG.kindP k hk'] at hk; cases hk
    · rw [hG.kindS k hk'] at hk; cases hk
    · rw [(hG.comp n hn hnh).1] at hk
      rw [sH n hnh]; exact hsh.leaf n d hk
  · intro n hk
    have hn := mem_ids_of_kind? hk
    rcases woven_unit hh.wf hG hn with rfl | ⟨hng, hnu⟩ | ⟨k, hk', rfl⟩ | ⟨k, hk', rfl⟩ | ⟨hnh, _⟩
    · rw [succU]
      have := hsg.sumNe _ hku
      simpa using this
    · rw [hG.kindG n hng] at hk
      rw [succG n hng hnu]; exact hsg.sumNe n hk
    · rw [hG.kindP k hk'] at hk; cases hk
    · rw [succS k hk']
      obtain ⟨x, hx, hx0⟩ := hne k hk'
      intro h'
      rw [List.map_eq_nil_iff] at h'
      have : x ∈ (h.succ o).zipIdx.filter fun x => decide (pq k x.2 ≠ 0) := List.mem_filter.2 ⟨hx, by simpa using hx0⟩
      rw [h'] at this
      cases this
    · rw [(hG.comp n hn hnh).1] at hk
      rw [succH n hn hnh]; exact hsh.sumNe n hk
  · intro n hk c hc
    have hn := mem_ids_of_kind? hk
    rcases woven_unit hh.wf hG hn with rfl | ⟨hng, hnu⟩ | ⟨k, hk', rfl⟩ | ⟨k, hk', rfl⟩ | ⟨hnh, _⟩
    · rw [succU] at hc
      obtain ⟨k, _, rfl⟩ := List.mem_map.1 hc
      rw [sP k, sU]
    · rw [hG.kindG n hng] at hk
      rw [succG n hng hnu] at hc
      rw [sGc n c hc, sG n hng hnu]; exact hsg.sum n hk c hc
    · rw [hG.kindP k hk'] at hk; cases hk
    · rw [succS k hk'] at hc
      obtain ⟨x, hx, rfl⟩ := List.mem_map.1 hc
      have hxo := mem_other_zipIdx (List.mem_filter.1 hx).1
      rw [sS k, sHc o _ hxo]
      exact hsh.sum o hko _ hxo
    · rw [(hG.comp n hn hnh).1] at hk
      rw [succH n hn hnh] at hc
      rw [sHc n c hc, sH n hnh]; exact hsh.sum n hk c hc
  · intro n hk v
    have hn := mem_ids_of_kind? hk
    rcases woven_unit hh.wf hG hn with rfl | ⟨hng, hnu⟩ | ⟨k, hk', rfl⟩ | ⟨k, hk', rfl⟩ | ⟨hnh, _⟩
    · rw [hG.kindG _ hu, hku] at hk; cases hk
    · rw [hG.kindG n hng] at hk
      rw [succG n hng hnu, sG n hng hnu, hsg.prod n hk v]
      exact exists_congr fun c => and_congr_right fun hc => by rw [sGc n c hc]
    · rw [succP k hk', sP k]
      simp only [List.mem_cons, List.not_mem_nil, or_false, exists_eq_or_imp, exists_eq_left]
      rw [sOwn k hk', sS k, Finset.mem_union]
    · rw [hG.kindS k hk'] at hk; cases hk
    · rw [(hG.comp n hn hnh).1] at hk
      rw [succH n hn hnh, sH n hnh, hsh.prod n hk v]
      exact exists_congr fun c => and_congr_right fun hc => by rw [sHc n c hc]
  · intro n hk
    have hn := mem_ids_of_kind? hk
    rcases woven_unit hh.wf hG hn with rfl | ⟨hng, hnu⟩ | ⟨k, hk', rfl⟩ | ⟨k, hk', rfl⟩ | ⟨hnh, _⟩
    · rw [hG.kindG _ hu, hku] at hk; cases hk
    · rw [hG.kindG n hng] at hk
      rw [succG n hng hnu]
      refine (hdg n hk).imp_of_mem fun {x y} hx hy h' => ?_
      rw [sGc n x hx, sGc n y hy]; exact h'
    · rw [succP k hk', List.pairwise_pair, sOwn k hk', sS k]
      exact hV
    · rw [hG.kindS k hk'] at hk; cases hk
    · rw [(hG.comp n hn hnh).1] at hk
      rw [succH n hn hnh]
      refine (hdh n hk).imp_of_mem fun {x y} hx hy h' => ?_
      rw [sHc n x hx, sHc n y hy]; exact h'

/-- The value of a proxy product, and of the root. -/
theorem woven_value (hg : Layered g u) (hh : Layered h o) (hku : g.kind? u = some .sum)
    (hG : Woven g h u b (h.succ o).zipIdx pc pq (g.succ u).length G)
    (hpc : ∀ k < (g.succ u).length, 0 < pc k) (hpq : ∀ k j, 0 ≤ pq k j)
    (hsum : ∀ k < (g.succ u).length, ∑ j ∈ Finset.range (h.succ o).length, pq k j = pc k)
    {ℓ : Leaf → ℝ} {fg fh f : Node → ℝ} (hfg : CircuitValue g ℓ fg) (hfh : CircuitValue h ℓ fh) (hf : CircuitValue G ℓ f) :
    (∀ k < (g.succ u).length, f (b + 2 * k) = fg ((g.succ u).getD k 0) *
      ∑ j ∈ Finset.range (h.succ o).length, pq k j / pc k * fh ((h.succ o).getD j 0)) ∧
    f u = ∑ k ∈ Finset.range (g.succ u).length, pc k * f (b + 2 * k) := by
  have hu := (root_mem hg.root).1
  have hcu : ∀ n, ∀ c ∈ g.succ n, c ≠ u := by
    rintro n c hc rfl
    obtain ⟨e, he, _, h2⟩ := mem_succ.1 hc
    have : e ∈ g.inEdges c := mem_inEdges.2 ⟨he, h2⟩
    rw [(root_mem hg.root).2] at this
    cases this
  have key_g : ∀ n, n ∈ g.ids → n ≠ u → f n = fg n := by
    refine hg.graded.acyclic.induct (P := fun n => n ∈ g.ids → n ≠ u → f n = fg n) ?_
    intro n ih hn hnu
    have ih' : ∀ e ∈ g.outEdges n, f e.dst = fg e.dst := fun e he =>
      ih _ (dst_mem_succ he) (succ_mem_ids hg.wf (dst_mem_succ he)) (hcu n _ (dst_mem_succ he))
    obtain ⟨k, hk⟩ := exists_kind? hn
    have hk' := (hG.kindG n hn).trans hk
    cases k with
    | leaf d => rw [hf.leaf n d hk', hfg.leaf n d hk]
    | sum =>
      rw [hf.sum n hk', hfg.sum n hk, hG.outG n hn hnu]
      exact congrArg List.sum (List.map_congr_left fun e he => by rw [ih' e he])
    | prod =>
      rw [hf.prod n hk', hfg.prod n hk, hG.outG n hn hnu]
      exact congrArg List.prod (List.map_congr_left fun e he => ih' e he)
  have key_h : ∀ n, n ∈ h.ids → n ∈ G.ids → f n = fh n := by
    refine hh.graded.acyclic.induct (P := fun n => n ∈ h.ids → n ∈ G.ids → f n = fh n) ?_
    intro n ih hn hnG
    obtain ⟨c1, c2⟩ := hG.comp n hnG hn
    have ih' : ∀ e ∈ h.outEdges n, f e.dst = fh e.dst := fun e he =>
      ih _ (dst_mem_succ he) (succ_mem_ids hh.wf (dst_mem_succ he)) (by
        rw [← c2] at he
        exact succ_mem_ids hG.wf (dst_mem_succ he))
    obtain ⟨k, hk⟩ := exists_kind? hn
    have hk' := c1.trans hk
    cases k with
    | leaf d => rw [hf.leaf n d hk', hfh.leaf n d hk]
    | sum =>
      rw [hf.sum n hk', hfh.sum n hk, c2]
      exact congrArg List.sum (List.map_congr_left fun e he => by rw [ih' e he])
    | prod =>
      rw [hf.prod n hk', hfh.prod n hk, c2]
      exact congrArg List.prod (List.map_congr_left fun e he => ih' e he)
  constructor
  · intro k hk
    rw [hf.prod _ (hG.kindP k hk), hG.outP k hk]
    simp only [List.map_cons, List.map_nil, List.prod_cons, List.prod_nil, mul_one]
    have hc := getD_mem (l := g.succ u) hk
    rw [key_g _ (succ_mem_ids hg.wf hc) (hcu u _ hc)]
    congr 1
    rw [hf.sum _ (hG.kindS k hk), hG.outS k hk, sum_proxyEdges (hpc k hk) (hpq k) (hsum k hk)]
    refine Finset.sum_congr rfl fun j hj => ?_
    have hjl := Finset.mem_range.1 hj
    by_cases h0 : pq k j = 0
    · rw [h0]; simp
    · have hx : ((h.succ o).getD j 0, j) ∈ (h.succ o).zipIdx := by
        rw [zipIdx_eq_range]
        exact List.mem_map.2 ⟨j, List.mem_range.2 hjl, rfl⟩
      rw [key_h _ (succ_mem_ids hh.wf (getD_mem hjl)) ((hG.ids _).2 (.inr (.inr ⟨k, hk, _, hx, h0, .refl⟩)))]
  · rw [hf.sum u ((hG.kindG u hu).trans hku), hG.outU, List.drop_eq_nil_of_le (by simp [succ]), List.nil_append, List.map_map,
      ← sum_map_range]
    congr 1
    apply List.map_congr_left
    intro k hk
    simp only [Function.comp, linWeight]
    rw [LogP.exp_log (hpc k (List.mem_range.1 hk)).le]

end

/-- **`mount_with_interaction_terms`**: the `k`-th component is multiplied with the mixture of the other components with
weights `pq k j / pc k`, and its weight is `pc k`. -/
theorem Mixture.interaction {g h : Circuit} {u o : Node} {V W : Finset Var} {N M : ℕ} {F Q : ℕ → (Leaf → ℝ) → ℝ}
    (hg : Mixture g u V N F) (hh : Mixture h o W M Q) (hV : Disjoint V W) (hd : DisjointIds g h) {pc : ℕ → ℝ}
    {pq : ℕ → ℕ → ℝ} (hpc : ∀ k < N, 0 < pc k) (hpq : ∀ k j, 0 ≤ pq k j)
    (hsum : ∀ k < N, ∑ j ∈ Finset.range M, pq k j = pc k) :
    ∃ G, mountWithInteraction g h u o pc pq = .ok G ∧
      Mixture G u (V ∪ W) N (fun k ℓ => F k ℓ * ∑ j ∈ Finset.range M, pq k j / pc k * Q j ℓ) ∧
      (∀ ℓ f, CircuitValue G ℓ f →
        f u = ∑ k ∈ Finset.range N, pc k * (F k ℓ * ∑ j ∈ Finset.range M, pq k j / pc k * Q j ℓ)) ∧
      (∀ P : Leaf → Prop, (∀ n d, g.kind? n = some (.leaf d) → P d) → (∀ n d, h.kind? n = some (.leaf d) → P d) →
        ∀ n d, G.kind? n = some (.leaf d) → P d) := by
  obtain ⟨scg, hsg, hdg, rfl⟩ := hg.scope
  obtain ⟨sch, hsh, hdh, rfl⟩ := hh.scope
  have hN := hg.count
  have hM := hh.count
  subst hN
  subst hM
  have hu := (root_mem hg.layered.root).1
  have hne : ∀ k < (g.succ u).length, ∃ x ∈ (h.succ o).zipIdx, pq k x.2 ≠ 0 := by
    intro k hk
    by_contra hcon
    push Not at hcon
    have : ∑ j ∈ Finset.range (h.succ o).length, pq k j = 0 := by
      refine Finset.sum_eq_zero fun j hj => hcon ((h.succ o).getD j 0, j) ?_
      rw [zipIdx_eq_range]
      exact List.mem_map.2 ⟨j, List.mem_range.2 (Finset.mem_range.1 hj), rfl⟩
    rw [hsum k hk] at this
    exact (hpc k hk).ne' this
  have hbg : ∀ n ∈ g.ids, n < max g.fresh h.fresh := fun n hn => lt_of_lt_of_le (lt_fresh hn) (le_max_left _ _)
  have hbh : ∀ n ∈ h.ids, n < max g.fresh h.fresh := fun n hn => lt_of_lt_of_le (lt_fresh hn) (le_max_right _ _)
  obtain ⟨G, h1, hG⟩ := woven_fold (others := h.succ o) (pc := pc) (pq := pq) hg.layered.wf hh.layered.wf hd hu hbg hbh
    (fun x hx => succ_mem_ids hh.layered.wf hx) (nodup_succ hh.layered.wf o) (fun k hk => (hpc k hk).ne') hne
  have hL := woven_layered hg.layered hh.layered hd hbg hbh hg.kind hG
  have hleaf := fun n d => woven_leaf (n := n) (d := d) hh.layered.wf hu hg.kind hG
  have hval : ∀ ℓ f, CircuitValue G ℓ f → (∀ k < (g.succ u).length, f (max g.fresh h.fresh + 2 * k) = F k ℓ *
      ∑ j ∈ Finset.range (h.succ o).length, pq k j / pc k * Q j ℓ) ∧
      f u = ∑ k ∈ Finset.range (g.succ u).length, pc k * f (max g.fresh h.fresh + 2 * k) := by
    intro ℓ f hf
    obtain ⟨fg, hfg⟩ := exists_circuitValue hg.layered.graded.acyclic ℓ
    obtain ⟨fh, hfh⟩ := exists_circuitValue hh.layered.graded.acyclic ℓ
    obtain ⟨v1, v2⟩ := woven_value hg.layered hh.layered hg.kind hG hpc hpq hsum hfg hfh hf
    refine ⟨fun k hk => ?_, v2⟩
    rw [v1 k hk, hg.value ℓ fg hfg k hk]
    congr 1
    exact Finset.sum_congr rfl fun j hj => by rw [hh.value ℓ fh hfh j (Finset.mem_range.1 hj)]
  refine ⟨G, ?_, ⟨hL, ?_, ?_, ?_, ?_, ?_⟩, ?_, ?_⟩
  · unfold mountWithInteraction
    obtain ⟨hvg⟩ : Nonempty (g.varsOf (g.nodes.length + 1) u = .ok (scg u)) := by
      have := circuitVars_eq hg.layered.wf hg.layered.graded.acyclic hsg hg.layered.root
      unfold circuitVars at this
      rw [hg.layered.root] at this
      exact ⟨this⟩
    obtain ⟨hvh⟩ : Nonempty (h.varsOf (h.nodes.length + 1) o = .ok (sch o)) := by
      have := circuitVars_eq hh.layered.wf hh.layered.graded.acyclic hsh hh.layered.root
      unfold circuitVars at this
      rw [hh.layered.root] at this
      exact ⟨this⟩
    rw [hvg, hvh]
    simp only [bind, Except.bind]
    rw [if_pos hV]
    exact h1
  · obtain ⟨sc, a1, a2, a3⟩ := woven_scoped hg.layered hh.layered hd hbg hbh hg.kind hh.kind hG hne hsg hdg hsh hdh hV
    exact ⟨sc, a1, a2, a3⟩
  · intro n d hk
    exact (hleaf n d hk).elim (hg.valid n d) (hh.valid n d)
  · rw [hG.kindG u hu]; exact hg.kind
  · unfold succ
    rw [hG.outU, List.drop_eq_nil_of_le (by simp [succ])]
    simp [succ]
  · intro ℓ f hf k hk
    have : (G.succ u).getD k 0 = max g.fresh h.fresh + 2 * k := by
      unfold succ
      rw [hG.outU, List.drop_eq_nil_of_le (by simp [succ]), List.nil_append, List.map_map, List.getD_eq_getElem?_getD,
        List.getElem?_eq_getElem (by simpa [succ] using hk)]
      simp
    rw [this]
    exact (hval ℓ f hf).1 k hk
  · intro ℓ f hf
    rw [(hval ℓ f hf).2]
    exact Finset.sum_congr rfl fun k hk => by rw [(hval ℓ f hf).1 k (Finset.mem_range.1 hk)]
  · intro P hPg hPh n d hk
    exact (hleaf n d hk).elim (hPg n d) (hPh n d)

/-- A sum unit with leaves. -/
theorem FreshIds.mixture {u : Node} {E : List (Node × Leaf × LogP)} (h : FreshIds u E) (hne : E ≠ []) {v : Var}
    (hd : ∀ x ∈ E, x.2.1.Valid ∧ x.2.1.var = v) {d₀ : Leaf} :
    Mixture (leafMix u E) u {v} E.length (fun k ℓ => ℓ ((E[k]?.map fun x => x.2.1).getD d₀)) where
  layered := h.layered
  scope := (h.denotes hne hd).scope
  valid := (h.denotes hne hd).valid
  kind := h.kind
  count := by rw [h.succ]; simp
  value ℓ f hf k hk := by
    rw [h.succ, List.getD_eq_getElem?_getD, List.getElem?_map, List.getElem?_eq_getElem hk]
    simp only [Option.map_some, Option.getD_some]
    exact hf.leaf _ _ (h.kindLeaf (List.getElem_mem hk))

end PM.Graph
