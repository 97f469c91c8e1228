import Verif.Circuit.NodesWeights
import Verif.Spec.Paths
import Verif.Graph.EvalLemmas

/-! # The search of `nodes_weights` counts paths -/

namespace PM.Graph
open Spec

variable {D : Type} {g : Graph D} {r : Node} {c : Node → ℕ} {depth : Node → ℕ}

/-- The number of paths to `k` that are known when the units in `done` were visited. -/
def known (g : Graph D) (r : Node) (c : Node → ℕ) (done : List Node) (k : Node) : ℕ :=
  (if k = r then 1 else 0) + (((g.inEdges k).filter fun e => decide (e.src ∈ done)).map fun e => c e.src).sum

/-- The invariant of the search; `d` is the depth of the next unit. -/
structure SearchInv (g : Graph D) (r : Node) (c depth : Node → ℕ) (done : List Node) (s : WeightSearch) (d : ℕ) : Prop where
  order : ∃ A B, s.queue = A ++ B ∧ (∀ k ∈ A, depth k = d) ∧ ∀ k ∈ B, depth k = d + 1
  seen : ∀ k, k ∈ s.seen ↔ k ∈ done ∨ k ∈ s.queue
  nodup : (done ++ s.queue).Nodup
  ids : ∀ k ∈ done ++ s.queue, k ∈ g.ids
  shallow : ∀ k ∈ g.ids, depth k ≤ d → k ∈ s.seen
  below : ∀ k ∈ done, ∀ m ∈ g.succ k, m ∈ s.seen
  visited : ∀ k ∈ done, depth k ≤ d
  root : r ∈ s.seen
  weights : ∀ k, s.weights k = List.replicate (known g r c done k) 1

theorem fold_weightStep (n : Node) : ∀ (l : List Node) (s : WeightSearch), l.Nodup → n ∉ l →
    (∀ k, ((l.foldl (weightStep n) s).weights k) = if k ∈ l then (s.weights n).map (fun old => old * 1) ++ s.weights k else s.weights k) ∧
    ∃ N, (l.foldl (weightStep n) s).queue = s.queue ++ N ∧ (l.foldl (weightStep n) s).seen = s.seen ++ N ∧ N.Nodup ∧
      ∀ k, k ∈ N ↔ k ∈ l ∧ k ∉ s.seen
  | [], s, _, _ => ⟨fun k => by simp, [], by simp⟩
  | a :: l, s, hn, hm => by
    rw [List.nodup_cons] at hn
    simp only [List.mem_cons, not_or] at hm
    obtain ⟨h1, N, h2, h3, h4, h5⟩ := fold_weightStep n l (weightStep n s a) hn.2 hm.2
    refine ⟨fun k => ?_, ?_⟩
    · rw [List.foldl_cons, h1]
      simp only [weightStep, Function.update_apply, List.mem_cons, if_neg hm.1]
      by_cases hk : k = a
      · subst hk
        simp [hn.1]
      · simp [hk]
    · rw [List.foldl_cons]
      by_cases ha : a ∈ s.seen
      · refine ⟨N, by rw [h2]; simp [weightStep, ha], by rw [h3]; simp [weightStep, ha], h4, fun k => ?_⟩
        rw [h5]
        simp only [weightStep, ha, if_true, List.mem_cons]
        constructor
        · exact fun h => ⟨.inr h.1, h.2⟩
        · rintro ⟨rfl | h, h'⟩
          · exact absurd ha h'
          · exact ⟨h, h'⟩
      · refine ⟨a :: N, by rw [h2]; simp [weightStep, ha], by rw [h3]; simp [weightStep, ha], ?_, fun k => ?_⟩
        · rw [List.nodup_cons]
          refine ⟨fun h => ?_, h4⟩
          exact hn.1 ((h5 a).1 h).1
        · rw [List.mem_cons, h5]
          simp only [weightStep, ha, if_false, List.mem_cons, List.mem_append, List.not_mem_nil, or_false, not_or]
          constructor
          · rintro (rfl | ⟨h, h', h''⟩)
            · exact ⟨.inl rfl, ha⟩
            · exact ⟨.inr h, h'⟩
          · rintro ⟨rfl | h, h'⟩
            · exact .inl rfl
            · by_cases hk : k = a
              · exact .inl hk
              · exact .inr ⟨h, h', hk⟩

theorem known_of_done (hc : PathCount g r c) {done : List Node} {k : Node} (h : ∀ e ∈ g.inEdges k, e.src ∈ done) :
    known g r c done k = c k := by
  rw [hc k, known, List.filter_eq_self.2 fun e he => by simpa using h e he]

theorem known_append (hw : g.WF) {done : List Node} {n k : Node} (hn : n ∉ done) :
    known g r c (done ++ [n]) k = (if k ∈ g.succ n then c n else 0) + known g r c done k := by
  have key : ∀ l : List Edge, (l.map fun e => (e.src, e.dst)).Nodup → (∀ e ∈ l, e.dst = k) →
      ((l.filter fun e => decide (e.src ∈ done ++ [n])).map fun e => c e.src).sum =
        (if ∃ e ∈ l, e.src = n then c n else 0) + ((l.filter fun e => decide (e.src ∈ done)).map fun e => c e.src).sum := by
    intro l
    induction l with
    | nil => simp
    | cons e l ih =>
      intro h1 h2
      rw [List.map_cons, List.nodup_cons] at h1
      have ih' := ih h1.2 fun e' h => h2 e' (by simp [h])
      have hd : e.dst = k := h2 e (by simp)
      by_cases h3 : e.src = n
      · have h4 : ¬ ∃ e' ∈ l, e'.src = n := by
          rintro ⟨e', h5, h6⟩
          apply h1.1
          refine List.mem_map.2 ⟨e', h5, ?_⟩
          rw [h6, h3, hd, h2 e' (by simp [h5])]
        rw [if_neg h4, Nat.zero_add] at ih'
        rw [if_pos ⟨e, by simp, h3⟩, List.filter_cons_of_pos (by simp [h3]), List.filter_cons_of_neg (by simp [h3, hn]), List.map_cons,
          List.sum_cons, ih', h3]
      · have h4 : (∃ e' ∈ e :: l, e'.src = n) ↔ ∃ e' ∈ l, e'.src = n := by simp [h3]
        simp only [h4]
        by_cases h5 : e.src ∈ done
        · rw [List.filter_cons_of_pos (by simp [h5]), List.filter_cons_of_pos (by simp [h5]), List.map_cons, List.map_cons,
            List.sum_cons, List.sum_cons, ih']
          omega
        · rw [List.filter_cons_of_neg (by simp [h5, h3]), List.filter_cons_of_neg (by simp [h5]), ih']
  have h1 := key (g.inEdges k) (hw.edgeNodup.sublist (List.filter_sublist.map _)) fun e he => (mem_inEdges.1 he).2
  rw [known, known, h1]
  have h2 : (∃ e ∈ g.inEdges k, e.src = n) ↔ k ∈ g.succ n := by
    constructor
    · rintro ⟨e, he, rfl⟩
      rw [mem_inEdges] at he
      exact List.mem_map.2 ⟨e, mem_outEdges.2 ⟨he.1, rfl⟩, he.2⟩
    · intro h
      obtain ⟨e, he, rfl⟩ := List.mem_map.1 h
      rw [mem_outEdges] at he
      exact ⟨e, mem_inEdges.2 ⟨he.1, rfl⟩, he.2⟩
  simp only [h2]
  omega

/-- If all units of depth `d` were visited, the next units have depth `d + 1`. -/
theorem SearchInv.shift (hw : g.WF) (ha : ∀ n ∈ g.ids, g.Reachable r n) (hd : ∀ e ∈ g.edges, depth e.dst = depth e.src + 1) {done : List Node}
    {s : WeightSearch} {d : ℕ} (hI : SearchInv g r c depth done s d) (hq : ∀ k ∈ s.queue, depth k = d + 1) :
    SearchInv g r c depth done s (d + 1) where
  order := ⟨s.queue, [], by simp, hq, by simp⟩
  seen := hI.seen
  nodup := hI.nodup
  ids := hI.ids
  shallow := by
    intro k hk h1
    rcases Nat.lt_or_ge (depth k) (d + 1) with h2 | h2
    · exact hI.shallow k hk (by omega)
    · rcases Relation.ReflTransGen.cases_tail (ha k hk) with h3 | ⟨p, h3, h4⟩
      · rw [h3]; exact hI.root
      · obtain ⟨e, he, rfl⟩ := List.mem_map.1 h4
        have he' := mem_outEdges.1 he
        have h5 := hd e he'.1
        have hp : p ∈ g.ids := he'.2 ▸ hw.srcMem e he'.1
        have h6 : p ∈ s.seen := hI.shallow p hp (by rw [he'.2] at h5; omega)
        rcases (hI.seen p).1 h6 with h7 | h7
        · exact hI.below p h7 _ h4
        · have := hq p h7
          rw [he'.2] at h5
          omega
  below := hI.below
  visited := fun k hk => Nat.le_succ_of_le (hI.visited k hk)
  root := hI.root
  weights := hI.weights

/-- Visiting the next unit keeps the invariant. -/
theorem SearchInv.step (hw : g.WF) (hc : PathCount g r c) (hd : ∀ e ∈ g.edges, depth e.dst = depth e.src + 1) {done : List Node}
    {s : WeightSearch} {d : ℕ} (hI : SearchInv g r c depth done s d) {n : Node} {queue A B : List Node} (hq : s.queue = n :: queue)
    (hAB : queue = A ++ B) (hn : depth n = d) (hA : ∀ k ∈ A, depth k = d) (hB : ∀ k ∈ B, depth k = d + 1) :
    SearchInv g r c depth (done ++ [n]) ((g.succ n).foldl (weightStep n) { s with queue := queue }) d := by
  have hsn : (g.succ n).Nodup := by
    have h1 : ((g.outEdges n).map fun e => (e.src, e.dst)).Nodup := hw.edgeNodup.sublist (List.filter_sublist.map _)
    rw [succ]
    refine List.Nodup.of_map (fun k => (n, k)) ?_
    rw [List.map_map]
    rw [List.map_congr_left (g := fun e : Edge => (e.src, e.dst))]
    · exact h1
    · intro e he
      rw [← (mem_outEdges.1 he).2]
      rfl
  have hnn : n ∉ g.succ n := by
    intro h
    obtain ⟨e, he, h1⟩ := List.mem_map.1 h
    have he' := mem_outEdges.1 he
    have := hd e he'.1
    rw [he'.2, h1] at this
    omega
  have hmem : n ∈ g.ids := hI.ids n (by simp [hq])
  have hnd : n ∉ done := by
    have := hI.nodup
    rw [hq, List.nodup_append] at this
    exact fun h => this.2.2 n h n (by simp) rfl
  have hwn : s.weights n = List.replicate (c n) 1 := by
    rw [hI.weights, known_of_done hc]
    intro e he
    have he' := mem_inEdges.1 he
    have h1 := hd e he'.1
    rw [he'.2, hn] at h1
    rcases (hI.seen _).1 (hI.shallow e.src (hw.srcMem e he'.1) (by omega)) with h2 | h2
    · exact h2
    · rw [hq, hAB, List.mem_cons, List.mem_append] at h2
      rcases h2 with h2 | h2 | h2
      · rw [h2, hn] at h1; omega
      · have := hA _ h2; omega
      · have := hB _ h2; omega
  obtain ⟨h1, N, h2, h3, h4, h5⟩ := fold_weightStep n (g.succ n) { s with queue := queue } hsn hnn
  simp only at h2 h3 h5
  have hNd : ∀ k ∈ N, depth k = d + 1 := by
    intro k hk
    obtain ⟨e, he, rfl⟩ := List.mem_map.1 ((h5 k).1 hk).1
    have he' := mem_outEdges.1 he
    rw [hd e he'.1, he'.2, hn]
  refine ⟨⟨A, B ++ N, by rw [h2, hAB, List.append_assoc], hA, ?_⟩, ?_, ?_, ?_, ?_, ?_, ?_, ?_, ?_⟩
  · intro k hk
    rcases List.mem_append.1 hk with h | h
    · exact hB k h
    · exact hNd k h
  · intro k
    rw [h3, h2, List.mem_append, hI.seen, hq]
    simp only [List.mem_append, List.mem_cons, List.not_mem_nil, or_false]
    tauto
  · have h6 := hI.nodup
    rw [hq] at h6
    rw [h2, List.append_assoc]
    have h7 : (done ++ ([n] ++ (queue ++ N))) = (done ++ n :: queue) ++ N := by simp
    rw [h7, List.nodup_append]
    refine ⟨h6, h4, ?_⟩
    rintro a ha b hb rfl
    refine ((h5 a).1 hb).2 ((hI.seen a).2 ?_)
    rw [hq]
    exact List.mem_append.1 ha
  · intro k hk
    rw [h2] at hk
    simp only [List.mem_append, List.mem_cons, List.not_mem_nil, or_false] at hk
    rcases hk with (h | h) | h | h
    · exact hI.ids k (by simp [h])
    · rw [h]; exact hmem
    · exact hI.ids k (by simp [hq, h])
    · obtain ⟨e, he, rfl⟩ := List.mem_map.1 ((h5 k).1 h).1
      exact hw.dstMem e (mem_outEdges.1 he).1
  · intro k hk h
    rw [h3]
    exact List.mem_append_left _ (hI.shallow k hk h)
  · intro k hk m hm
    rw [h3, List.mem_append]
    rcases List.mem_append.1 hk with h | h
    · exact .inl (hI.below k h m hm)
    · rw [List.mem_singleton.1 h] at hm
      by_cases h6 : m ∈ s.seen
      · exact .inl h6
      · exact .inr ((h5 m).2 ⟨hm, h6⟩)
  · intro k hk
    rcases List.mem_append.1 hk with h | h
    · exact hI.visited k h
    · rw [List.mem_singleton.1 h, hn]
  · rw [h3]
    exact List.mem_append_left _ hI.root
  · intro k
    rw [h1, known_append hw hnd]
    simp only [hwn, hI.weights k]
    by_cases hk : k ∈ g.succ n
    · simp [hk]
    · simp [hk]

theorem weightLoop_inv (hw : g.WF) (ha : ∀ n ∈ g.ids, g.Reachable r n) (hc : PathCount g r c)
    (hd : ∀ e ∈ g.edges, depth e.dst = depth e.src + 1) :
    ∀ (fuel : ℕ) (done : List Node) (s : WeightSearch) (d : ℕ), SearchInv g r c depth done s d → g.ids.length ≤ done.length + fuel →
      ∀ k, (g.weightLoop fuel s).weights k = List.replicate (c k) 1
  | 0, done, s, d, hI, hf => by
    intro k
    have h1 : done.Subperm g.ids := by
      have h2 := hI.nodup
      rw [List.nodup_append] at h2
      exact h2.1.subperm fun x hx => hI.ids x (by simp [hx])
    have h2 : done.Perm g.ids := h1.perm_of_length_le (by omega)
    rw [weightLoop, hI.weights k, known_of_done hc]
    intro e he
    exact h2.mem_iff.2 (hw.srcMem e (mem_inEdges.1 he).1)
  | fuel + 1, done, s, d, hI, hf => by
    intro k
    rw [weightLoop]
    obtain ⟨A, B, h1, h2, h3⟩ := hI.order
    cases hq : s.queue with
    | nil =>
      simp only
      have hs : ∀ m, m ∈ s.seen → m ∈ done := by
        intro m hm
        rw [hI.seen, hq] at hm
        simpa using hm
      have hall : ∀ m, g.Reachable r m → m ∈ done := by
        intro m hm
        induction hm with
        | refl => exact hs r hI.root
        | tail _ h4 ih => exact hs _ (hI.below _ ih _ h4)
      rw [hI.weights k, known_of_done hc]
      intro e he
      exact hall _ (ha _ (hw.srcMem e (mem_inEdges.1 he).1))
    | cons n queue =>
      simp only
      cases A with
      | nil =>
        rw [List.nil_append] at h1
        have hI' := hI.shift hw ha hd (by rw [h1]; exact h3)
        rw [h1] at hq
        exact weightLoop_inv hw ha hc hd fuel (done ++ [n]) _ (d + 1)
          (hI'.step hw hc hd (h1.trans hq) (A := queue) (B := []) (by simp) (h3 n (by simp [hq])) (fun k hk => h3 k (by simp [hq, hk]))
            (by simp)) (by rw [List.length_append, List.length_singleton]; omega) k
      | cons a A =>
        rw [hq, List.cons_append, List.cons.injEq] at h1
        obtain ⟨rfl, h1⟩ := h1
        exact weightLoop_inv hw ha hc hd fuel (done ++ [n]) _ d
          (hI.step hw hc hd hq h1 (h2 n (by simp)) (fun k hk => h2 k (by simp [hk])) h3)
          (by rw [List.length_append, List.length_singleton]; omega) k

theorem nodesWeights_eq {D : Type} {g : Graph D} {r : Node} (hL : Layered g r) {c : Node → ℕ} (hc : PathCount g r c) (k : Node) :
    g.nodesWeights r k = List.replicate (c k) 1 := by
  obtain ⟨depth, hd⟩ := hL.graded
  have ha := reachable_of_root hL.wf hL.graded.acyclic hL.root
  obtain ⟨hri, hr0⟩ := root_mem hL.root
  refine weightLoop_inv hL.wf ha hc hd _ [] _ (depth r) ?_ (by simp [ids]) k
  refine ⟨⟨[r], [], by simp, by simp, by simp⟩, by simp, by simp, by simpa using hri, ?_, by simp, by simp, by simp, ?_⟩
  · intro k hk h
    have : ∀ m, g.Reachable r m → m = r ∨ depth r < depth m := by
      intro m hm
      induction hm with
      | refl => exact .inl rfl
      | tail _ h4 ih =>
        obtain ⟨e, he, rfl⟩ := List.mem_map.1 h4
        have he' := mem_outEdges.1 he
        have := hd e he'.1
        rw [he'.2] at this
        rcases ih with rfl | ih
        · right; omega
        · right; omega
    rcases this k (ha k hk) with h1 | h1
    · simp [h1]
    · omega
  · intro k
    by_cases hk : k = r
    · subst hk
      simp [known]
    · simp [known, hk]

end PM.Graph
