import Verif.Graph.Pass
import Mathlib.Logic.Relation
import Mathlib.Data.List.Nodup
import Mathlib.Tactic.Linarith

/-!
# Facts about breadth-first layers

Helper lemmas only; the property theorems are in `Verif/Props`.
-/

namespace PM.Graph

variable {D V : Type}

/-- Every edge goes down by exactly one level: all paths from the root to a unit have the same length. -/
def Graded (g : Graph D) : Prop := ∃ depth : Node → Nat, ∀ e ∈ g.edges, depth e.dst = depth e.src + 1

/-- No directed cycles. -/
def Acyclic (g : Graph D) : Prop := ∃ rank : Node → Nat, ∀ e ∈ g.edges, rank e.dst < rank e.src

/-- `n` can be reached from `r` along edges. -/
def Reachable (g : Graph D) (r n : Node) : Prop := Relation.ReflTransGen (fun a b => b ∈ g.succ a) r n

theorem mem_outEdges {g : Graph D} {n : Node} {e : Edge} : e ∈ g.outEdges n ↔ e ∈ g.edges ∧ e.src = n := by
  simp [outEdges]

theorem mem_inEdges {g : Graph D} {n : Node} {e : Edge} : e ∈ g.inEdges n ↔ e ∈ g.edges ∧ e.dst = n := by
  simp [inEdges]

theorem mem_succ {g : Graph D} {n c : Node} : c ∈ g.succ n ↔ ∃ e ∈ g.edges, e.src = n ∧ e.dst = c := by
  simp [succ, mem_outEdges, and_assoc]

theorem mem_pred {g : Graph D} {n p : Node} : p ∈ g.pred n ↔ ∃ e ∈ g.edges, e.dst = n ∧ e.src = p := by
  simp [pred, mem_inEdges, and_assoc]

theorem mem_pred_iff_mem_succ {g : Graph D} {n p : Node} : p ∈ g.pred n ↔ n ∈ g.succ p := by
  simp only [mem_pred, mem_succ]
  constructor <;> rintro ⟨e, he, h1, h2⟩ <;> exact ⟨e, he, h2, h1⟩

theorem Graded.acyclic {g : Graph D} (h : g.Graded) : g.Acyclic := by
  obtain ⟨d, hd⟩ := h
  have hbound : ∃ M, ∀ e ∈ g.edges, d e.dst ≤ M := by
    induction g.edges with
    | nil => exact ⟨0, by simp⟩
    | cons e es ih =>
      obtain ⟨M, hM⟩ := ih
      refine ⟨max M (d e.dst), ?_⟩
      intro e' he'
      rcases List.mem_cons.1 he' with rfl | h
      · exact le_max_right _ _
      · exact (hM e' h).trans (le_max_left _ _)
  obtain ⟨M, hM⟩ := hbound
  refine ⟨fun n => M - d n, fun e he => ?_⟩
  have h1 := hd e he
  have h2 := hM e he
  simp only
  omega

/-- The nodes of `cs` that are not visited yet, in order, each once. -/
def discover : List Node → List Node → List Node
  | _, [] => []
  | v, c :: cs => if c ∈ v then discover v cs else c :: discover (v ++ [c]) cs

theorem bfs_foldl (cs : List Node) : ∀ a v : List Node,
    cs.foldl (fun (acc : List Node × List Node) c =>
      if c ∈ acc.2 then acc else (acc.1 ++ [c], acc.2 ++ [c])) (a, v)
    = (a ++ discover v cs, v ++ discover v cs) := by
  induction cs with
  | nil => simp [discover]
  | cons c cs ih =>
    intro a v
    rw [List.foldl_cons]
    by_cases h : c ∈ v
    · simp [h, discover, ih]
    · simp [h, discover, ih]

theorem bfsNext_eq (g : Graph D) (v l : List Node) :
    g.bfsNext v l = (discover v (l.flatMap g.succ), v ++ discover v (l.flatMap g.succ)) := by
  simp [bfsNext, bfs_foldl]

theorem mem_discover {x : Node} : ∀ {cs v : List Node}, x ∈ discover v cs ↔ x ∈ cs ∧ x ∉ v := by
  intro cs
  induction cs with
  | nil => simp [discover]
  | cons c cs ih =>
    intro v
    by_cases h : c ∈ v
    · simp only [discover, h, if_true, ih, List.mem_cons]
      constructor
      · rintro ⟨h1, h2⟩; exact ⟨.inr h1, h2⟩
      · rintro ⟨rfl | h1, h2⟩
        · exact absurd h h2
        · exact ⟨h1, h2⟩
    · simp only [discover, h, if_false, List.mem_cons, ih, List.mem_append, not_or,
        List.not_mem_nil, or_false]
      constructor
      · rintro (rfl | ⟨h1, h2, h3⟩)
        · exact ⟨.inl rfl, h⟩
        · exact ⟨.inr h1, h2⟩
      · rintro ⟨rfl | h1, h2⟩
        · exact .inl rfl
        · by_cases hx : x = c
          · exact .inl hx
          · exact .inr ⟨h1, h2, hx⟩

theorem nodup_discover : ∀ {cs v : List Node}, (discover v cs).Nodup := by
  intro cs
  induction cs with
  | nil => simp [discover]
  | cons c cs ih =>
    intro v
    by_cases h : c ∈ v
    · simp [discover, h, ih]
    · simp [discover, h, ih, mem_discover]

/-- Every child of a node of a layer is in the next layer. -/
def Strat (g : Graph D) : List (List Node) → Prop
  | [] => True
  | l :: ls => (∀ n ∈ l, ∀ c ∈ g.succ n, c ∈ ls.headD []) ∧ Strat g ls

/-- Layer number `i` contains nodes of depth `k + i` only, each once. -/
def DepthOK (depth : Node → Nat) : Nat → List (List Node) → Prop
  | _, [] => True
  | k, l :: ls => (∀ n ∈ l, depth n = k) ∧ l.Nodup ∧ DepthOK depth (k + 1) ls

theorem bfsLoop_head (g : Graph D) {fuel : Nat} {v l : List Node} (h : 0 < fuel) :
    (g.bfsLoop fuel v l).headD [] = l := by
  cases fuel with
  | zero => omega
  | succ f => cases l <;> simp [bfsLoop]

theorem bfsLoop_strat {g : Graph D} (hw : g.WF) {depth : Node → Nat}
    (hd : ∀ e ∈ g.edges, depth e.dst = depth e.src + 1) :
    ∀ (fuel : Nat) (v l : List Node) (k : Nat), (∀ n ∈ l, depth n = k) → l.Nodup → (∀ n ∈ v, depth n ≤ k) →
      v.Nodup → v ⊆ g.ids → (l ≠ [] → g.nodes.length + 1 ≤ fuel + v.length) →
      Strat g (g.bfsLoop fuel v l) ∧ DepthOK depth k (g.bfsLoop fuel v l) := by
  intro fuel
  induction fuel with
  | zero => intros; simp [bfsLoop, Strat, DepthOK]
  | succ f ih =>
    intro v l k hl hln hv hvn hvs hf
    cases l with
    | nil => simp [bfsLoop, Strat, DepthOK]
    | cons a as =>
      set l := a :: as with hl_def
      have hne : l ≠ [] := by simp [hl_def]
      have hfuel := hf hne
      set nxt := discover v (l.flatMap g.succ) with hnxt
      have hdepth_nxt : ∀ n ∈ nxt, depth n = k + 1 := by
        intro n hn
        obtain ⟨h1, _⟩ := mem_discover.1 hn
        obtain ⟨p, hp, hc⟩ := List.mem_flatMap.1 h1
        obtain ⟨e, he, hs, hdst⟩ := mem_succ.1 hc
        rw [← hdst, hd e he, hs, hl p hp]
      have hids_nxt : nxt ⊆ g.ids := by
        intro n hn
        obtain ⟨h1, _⟩ := mem_discover.1 hn
        obtain ⟨p, hp, hc⟩ := List.mem_flatMap.1 h1
        obtain ⟨e, he, hs, hdst⟩ := mem_succ.1 hc
        rw [← hdst]; exact hw.dstMem e he
      have hvn' : (v ++ nxt).Nodup := by
        rw [List.nodup_append]
        refine ⟨hvn, nodup_discover, ?_⟩
        intro x hx y hy hxy
        subst hxy
        exact (mem_discover.1 hy).2 hx
      have hvs' : v ++ nxt ⊆ g.ids := List.append_subset.2 ⟨hvs, hids_nxt⟩
      have hlen : (v ++ nxt).length ≤ g.nodes.length := by
        have := (List.subperm_of_subset hvn' hvs').length_le
        simpa [ids] using this
      have hrest := ih (v ++ nxt) nxt (k + 1) hdepth_nxt nodup_discover
        (by
          intro n hn
          rcases List.mem_append.1 hn with h | h
          · exact (hv n h).trans (Nat.le_succ k)
          · exact (hdepth_nxt n h).le) hvn' hvs'
        (by
          intro hnn
          have : 0 < nxt.length := List.length_pos_iff.2 hnn
          simp only [List.length_append]
          omega)
      have heq : g.bfsLoop (f + 1) v l = l :: g.bfsLoop f (v ++ nxt) nxt := by
        simp [hl_def, bfsLoop, bfsNext_eq, hnxt]
      rw [heq]
      refine ⟨⟨?_, hrest.1⟩, hl, hln, hrest.2⟩
      intro n hn c hc
      have hcmem : c ∈ nxt := by
        refine mem_discover.2 ⟨List.mem_flatMap.2 ⟨n, hn, hc⟩, ?_⟩
        intro hcv
        obtain ⟨e, he, hs, hdst⟩ := mem_succ.1 hc
        have h1 := hd e he
        rw [hs, hdst, hl n hn] at h1
        have := hv c hcv
        omega
      have hfpos : 0 < f := by
        have : 0 < nxt.length := List.length_pos_of_mem hcmem
        simp only [List.length_append] at hlen
        omega
      rw [bfsLoop_head g hfpos]
      exact hcmem

theorem DepthOK.mem_depth {depth : Node → Nat} : ∀ {ls : List (List Node)} {k : Nat}, DepthOK depth k ls →
    ∀ n ∈ ls.flatten, k ≤ depth n := by
  intro ls
  induction ls with
  | nil => simp
  | cons l ls ih =>
    intro k h n hn
    obtain ⟨h1, _, h3⟩ := h
    rw [List.flatten_cons, List.mem_append] at hn
    rcases hn with hn | hn
    · exact (h1 n hn).ge
    · exact (Nat.le_succ k).trans (ih h3 n hn)

theorem DepthOK.nodup {depth : Node → Nat} : ∀ {ls : List (List Node)} {k : Nat}, DepthOK depth k ls →
    ls.flatten.Nodup := by
  intro ls
  induction ls with
  | nil => simp
  | cons l ls ih =>
    intro k h
    obtain ⟨h1, h2, h3⟩ := h
    rw [List.flatten_cons, List.nodup_append]
    refine ⟨h2, ih h3, ?_⟩
    intro a ha b hb hab
    have := h3.mem_depth b hb
    rw [← hab, h1 a ha] at this
    omega

theorem layersFrom_strat {g : Graph D} (hw : g.WF) {depth : Node → Nat}
    (hd : ∀ e ∈ g.edges, depth e.dst = depth e.src + 1) {r : Node} (hr : r ∈ g.ids) :
    Strat g (g.layersFrom r) ∧ DepthOK depth (depth r) (g.layersFrom r) := by
  apply bfsLoop_strat hw hd
  · simp
  · simp
  · simp
  · simp
  · simpa using hr
  · simp

theorem layersFrom_head {g : Graph D} {r : Node} (hr : r ∈ g.ids) :
    (g.layersFrom r).headD [] = [r] := by
  apply bfsLoop_head
  have : 0 < g.ids.length := List.length_pos_of_mem hr
  simpa [ids] using this

theorem Strat.mem_of_reachable {g : Graph D} : ∀ {ls : List (List Node)}, Strat g ls → ∀ n ∈ ls.flatten,
    ∀ c ∈ g.succ n, c ∈ ls.flatten := by
  intro ls
  induction ls with
  | nil => simp
  | cons l ls ih =>
    intro h n hn c hc
    obtain ⟨h1, h2⟩ := h
    rw [List.flatten_cons, List.mem_append] at hn ⊢
    rcases hn with hn | hn
    · right
      have := h1 n hn c hc
      cases ls with
      | nil => simp at this
      | cons l' ls' => simp only [List.headD_cons] at this; simp [this]
    · exact .inr (ih h2 n hn c hc)

theorem bfsLoop_subset (g : Graph D) {r : Node} : ∀ (fuel : Nat) (v l : List Node),
    (∀ n ∈ l, g.Reachable r n) → ∀ n ∈ (g.bfsLoop fuel v l).flatten, g.Reachable r n := by
  intro fuel
  induction fuel with
  | zero => simp [bfsLoop]
  | succ f ih =>
    intro v l hl n hn
    cases l with
    | nil => simp [bfsLoop] at hn
    | cons a as =>
      simp only [bfsLoop, List.flatten_cons, List.mem_append] at hn
      rcases hn with hn | hn
      · exact hl n hn
      · refine ih _ _ ?_ n hn
        intro x hx
        rw [bfsNext_eq] at hx
        obtain ⟨p, hp, hc⟩ := List.mem_flatMap.1 (mem_discover.1 hx).1
        exact (hl p hp).tail hc

theorem mem_layersFrom_reachable (g : Graph D) {r n : Node} (h : n ∈ (g.layersFrom r).flatten) :
    g.Reachable r n :=
  bfsLoop_subset g _ _ _ (by simp [Reachable, Relation.ReflTransGen.refl]) n h

theorem mem_layersFrom_iff {g : Graph D} (hw : g.WF) (hg : g.Graded) {r n : Node} (hr : r ∈ g.ids) :
    n ∈ (g.layersFrom r).flatten ↔ g.Reachable r n := by
  refine ⟨mem_layersFrom_reachable g, fun h => ?_⟩
  obtain ⟨depth, hd⟩ := hg
  have hs := (layersFrom_strat hw hd hr).1
  induction h with
  | refl =>
    have := layersFrom_head hr
    cases hL : g.layersFrom r with
    | nil => simp [hL] at this
    | cons l ls => simp only [hL, List.headD_cons] at this; simp [this]
  | tail _ hc ih => exact hs.mem_of_reachable _ ih _ hc

theorem reachable_mem_ids {g : Graph D} (hw : g.WF) {r n : Node} (hr : r ∈ g.ids) (h : g.Reachable r n) :
    n ∈ g.ids := by
  cases h with
  | refl => exact hr
  | tail _ hc =>
    obtain ⟨e, he, _, hdst⟩ := mem_succ.1 hc
    exact hdst ▸ hw.dstMem e he

/-! ### The root -/

theorem root_mem {g : Graph D} {r : Node} (h : g.root = .ok r) : r ∈ g.ids ∧ g.inEdges r = [] := by
  unfold root at h
  split at h
  · cases h
  · rename_i r' heq
    cases h
    have : r ∈ g.ids.filter (fun n => g.inDegree n == 0) := by rw [heq]; simp
    simpa [inDegree] using this
  · cases h

theorem root_unique {g : Graph D} {r : Node} (h : g.root = .ok r) {n : Node} (hn : n ∈ g.ids)
    (h0 : g.inEdges n = []) : n = r := by
  unfold root at h
  split at h
  · cases h
  · rename_i r' heq
    cases h
    have : n ∈ g.ids.filter (fun n => g.inDegree n == 0) := by simp [inDegree, hn, h0]
    rw [heq] at this
    simpa using this
  · cases h

/-- In an acyclic circuit every unit is reachable from the root. -/
theorem reachable_of_root {g : Graph D} (hw : g.WF) (ha : g.Acyclic) {r : Node} (h : g.root = .ok r) :
    ∀ n ∈ g.ids, g.Reachable r n := by
  obtain ⟨rank, hrank⟩ := ha
  obtain ⟨M, hM⟩ : ∃ M, ∀ n ∈ g.ids, rank n ≤ M := by
    induction g.ids with
    | nil => exact ⟨0, by simp⟩
    | cons e es ih =>
      obtain ⟨M, hM⟩ := ih
      refine ⟨max M (rank e), fun n hn => ?_⟩
      rcases List.mem_cons.1 hn with rfl | h
      · exact le_max_right _ _
      · exact (hM n h).trans (le_max_left _ _)
  suffices H : ∀ k n, n ∈ g.ids → M - rank n ≤ k → g.Reachable r n from fun n hn => H _ n hn le_rfl
  intro k
  induction k with
  | zero =>
    intro n hn hk
    cases hin : g.inEdges n with
    | nil => rw [root_unique h hn hin]; exact .refl
    | cons e es =>
      have he : e ∈ g.inEdges n := by simp [hin]
      obtain ⟨he1, he2⟩ := mem_inEdges.1 he
      have h1 := hrank e he1
      have h2 := hM _ (hw.srcMem e he1)
      rw [he2] at h1
      omega
  | succ k ih =>
    intro n hn hk
    cases hin : g.inEdges n with
    | nil => rw [root_unique h hn hin]; exact .refl
    | cons e es =>
      have he : e ∈ g.inEdges n := by simp [hin]
      obtain ⟨he1, he2⟩ := mem_inEdges.1 he
      have h1 := hrank e he1
      have h2 := hM _ (hw.srcMem e he1)
      rw [he2] at h1
      exact (ih e.src (hw.srcMem e he1) (by omega)).tail (mem_succ.2 ⟨e, he1, rfl, he2⟩)

end PM.Graph
