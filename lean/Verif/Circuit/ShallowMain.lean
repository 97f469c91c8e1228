import Verif.Circuit.ShallowProduct

/-! Helper lemmas: the recursion of `shallowing`. -/

namespace PM.Graph

open Spec

variable {D : Type}

/-- `Drawn` in terms of classes and out-edges. -/
inductive Rep (K : Node → Option (Kind D)) (O : Outs) : UTree D → Prop
  | leaf {n d} : K n = some (.leaf d) → O n = [] → Rep K O (.leaf n d)
  | inner {n b cs} : K n = some (if b then .sum else .prod) → O n = cs.map (fun c => (c.2.root, c.1)) →
      (∀ c ∈ cs, Rep K O c.2) → Rep K O (.inner n b cs)

theorem inn_inner {n : Node} {b : Bool} {cs : List (Option LogP × UTree D)} :
    (UTree.inner n b cs).inn = n :: cs.flatMap fun c => c.2.inn := by
  rw [UTree.inn]

theorem mem_inn_child {n : Node} {b : Bool} {cs : List (Option LogP × UTree D)} {c : Option LogP × UTree D} (hc : c ∈ cs) {u : Node}
    (hu : u ∈ c.2.inn) : u ∈ (UTree.inner n b cs).inn := by
  rw [inn_inner]
  exact List.mem_cons_of_mem _ (List.mem_flatMap.2 ⟨c, hc, hu⟩)

theorem Rep.congr {K K' : Node → Option (Kind D)} {O O' : Outs}
    (hl : ∀ u d, K u = some (.leaf d) → O u = [] → K' u = K u ∧ O' u = O u) {t : UTree D} (h : Rep K O t) :
    (∀ u ∈ t.inn, K' u = K u ∧ O' u = O u) → Rep K' O' t := by
  induction h with
  | leaf h1 h2 =>
    intro _
    obtain ⟨a, b⟩ := hl _ _ h1 h2
    exact .leaf (by rw [a, h1]) (by rw [b, h2])
  | @inner n b cs h1 h2 h3 ih =>
    intro hi
    obtain ⟨a, b'⟩ := hi n (by rw [inn_inner]; simp)
    exact .inner (by rw [a, h1]) (by rw [b', h2]) fun c hc => ih c hc fun u hu => hi u (mem_inn_child hc hu)

theorem Rep.kind {K : Node → Option (Kind D)} {O : Outs} {t : UTree D} (h : Rep K O t) :
    ∀ u ∈ t.inn, K u = some .sum ∨ K u = some .prod := by
  induction h with
  | leaf h1 h2 => intro u hu; rw [UTree.inn] at hu; simp at hu
  | @inner n b cs h1 h2 h3 ih =>
    intro u hu
    rw [inn_inner] at hu
    rcases List.mem_cons.1 hu with e | hu
    · rw [e, h1]; cases b <;> simp
    · obtain ⟨c, hc, hu⟩ := List.mem_flatMap.1 hu
      exact ih c hc u hu

theorem Rep.kind_ne {K : Node → Option (Kind D)} {O : Outs} {t : UTree D} (h : Rep K O t) {u : Node} (hu : u ∈ t.inn) : K u ≠ none := by
  rcases h.kind u hu with e | e <;> rw [e] <;> simp

theorem Rep.kind_leaf {K : Node → Option (Kind D)} {O : Outs} {t : UTree D} (h : Rep K O t) {u : Node} {d : D}
    (hu : K u = some (.leaf d)) : u ∉ t.inn := fun hc => by
  rcases h.kind u hc with e | e <;> rw [e] at hu <;> simp at hu

theorem Rep.root_mem {K : Node → Option (Kind D)} {O : Outs} {t : UTree D} (h : Rep K O t) (hl : ∀ d, K t.root ≠ some (.leaf d)) :
    t.root ∈ t.inn := by
  cases h with
  | leaf h1 h2 => exact absurd h1 (hl _)
  | inner h1 h2 h3 => rw [inn_inner]; simp [UTree.root]

/-- The inner units below the outermost one. -/
def innBelow : UTree D → List Node
  | .leaf _ _ => []
  | .inner _ _ cs => cs.flatMap fun c => c.2.inn

theorem innBelow_sub {t : UTree D} {u : Node} (h : u ∈ innBelow t) : u ∈ t.inn := by
  cases t with
  | leaf n d => simp [innBelow] at h
  | inner n b cs => rw [inn_inner]; exact List.mem_cons_of_mem _ h

theorem root_notMem_innBelow {t : UTree D} (h : t.inn.Nodup) : t.root ∉ innBelow t := by
  cases t with
  | leaf n d => simp [innBelow]
  | inner n b cs => rw [inn_inner] at h; exact (List.nodup_cons.1 h).1

theorem Rep.to_below {K : Node → Option (Kind D)} {O : Outs} {t : UTree D} (h : Rep K O t) : ∀ u ∈ t.inn, ∀ v, To O u v →
    (∀ d, K v ≠ some (.leaf d)) → v ∈ innBelow t := by
  induction h with
  | leaf h1 h2 => intro u hu; rw [UTree.inn] at hu; simp at hu
  | @inner n b cs h1 h2 h3 ih =>
    intro u hu v ht hv
    rw [inn_inner] at hu
    rcases List.mem_cons.1 hu with e | hu
    · rw [To, e, h2, List.map_map] at ht
      obtain ⟨c, hc, e⟩ := List.mem_map.1 ht
      have e : c.2.root = v := e
      subst e
      exact List.mem_flatMap.2 ⟨c, hc, (h3 c hc).root_mem hv⟩
    · obtain ⟨c, hc, hu⟩ := List.mem_flatMap.1 hu
      exact List.mem_flatMap.2 ⟨c, hc, innBelow_sub (ih c hc u hu v ht hv)⟩

theorem eq_of_flatMap_nodup {α β : Type} {f : α → List β} {l : List α} (h : (l.flatMap f).Nodup) {a b : α} (ha : a ∈ l) (hb : b ∈ l)
    {x : β} (hxa : x ∈ f a) (hxb : x ∈ f b) : a = b := by
  by_contra hne
  have hp := (List.nodup_flatMap.1 h).2
  have : Std.Symm (Function.onFun List.Disjoint f) := ⟨fun a b h => List.Disjoint.symm h⟩
  exact hp.forall ha hb hne hxa hxb

/-- The combinations of leaves after shallowing, with their weights. -/
noncomputable def flatten : UTree D → List (LogP × List (Node × D))
  | .leaf n d => [(0, [(n, d)])]
  | .inner _ true cs =>
    let fs := cs.map fun c => (c.1, c.2.isSum, flatten c.2)
    (fs.filter (fun f => f.2.1) ++ fs.filter fun f => !f.2.1).flatMap fun f => f.2.2.map fun q => (f.1.getD 0 + .fin weightKey, q.2)
  | .inner _ false cs =>
    let fs := cs.map fun c => (c.1, c.2.isSum, flatten c.2)
    (combinations ((fs.filter (fun f => f.2.1) ++ fs.filter fun f => !f.2.1).map fun f => f.2.2)).map fun cb => (.fin 1, cb.flatMap fun q => q.2)
decreasing_by all_goals exact UTree.size_lt ‹_›

structure Pre (s : Fresh D) (K : Node → Option (Kind D)) (O : Outs) (t : UTree D) (p : Option Node) (w : Option LogP) : Prop where
  view : View s.g K O
  rep : Rep K O t
  nodup : t.inn.Nodup
  low : ∀ u : ℕ, K u ≠ none → u < s.next
  own : ∀ v ∈ t.inn, ∀ u, To O u v → u ∈ t.inn ∨ (v = t.root ∧ p = some u)
  par : ∀ q, p = some q → (t.root, w) ∈ O q ∧ q ∉ t.inn
  built : WellBuilt t

structure Post (s : Fresh D) (K : Node → Option (Kind D)) (O : Outs) (t : UTree D) (p : Option Node) (w : Option LogP)
    (s' : Fresh D) (K' : Node → Option (Kind D)) (O' : Outs) (F : Flat D) : Prop where
  view : View s'.g K' O'
  flat : RepFlat K' O' F
  shape : F.prods.map (fun q => (q.1, q.2.2)) = flatten t
  next : s.next ≤ s'.next
  low : ∀ u : ℕ, K' u ≠ none → u < s'.next
  m : (t.isSum = true ∧ F.m = t.root) ∨ (t.isSum = false ∧ s.next ≤ F.m)
  pids : ∀ q ∈ F.pids, s.next ≤ q
  nd : F.ids.Nodup
  frameK : ∀ u : ℕ, u < s.next → u ∉ t.inn → K' u = K u
  frameO : ∀ u : ℕ, u < s.next → u ∉ t.inn → p ≠ some u → O' u = O u
  parent : ∀ q, p = some q → O' q = if t.isSum then O q else (O q).filter (fun a => decide (a.1 ≠ t.root)) ++ [(F.m, w)]
  clean : ∀ u : ℕ, u ∈ t.inn ∨ s.next ≤ u → u ∈ F.ids ∨ (K' u = none ∧ O' u = [])

theorem RepFlat.kind_ne {K : Node → Option (Kind D)} {O : Outs} {F : Flat D} (h : RepFlat K O F) {u : Node} (hu : u ∈ F.ids) :
    K u ≠ none := by
  rcases List.mem_cons.1 hu with e | e
  · rw [e, h.sum]; simp
  · obtain ⟨q, hq, e⟩ := List.mem_map.1 e
    rw [← e, h.prod q hq]; simp

theorem RepFlat.kind_leaf {K : Node → Option (Kind D)} {O : Outs} {F : Flat D} (h : RepFlat K O F) {u : Node} (hu : u ∈ F.ids) :
    ∀ d, K u ≠ some (.leaf d) := by
  rcases List.mem_cons.1 hu with e | e
  · rw [e, h.sum]; simp
  · obtain ⟨q, hq, e⟩ := List.mem_map.1 e
    rw [← e, h.prod q hq]; simp

/-- Where edges from the units of a flat part lead. -/
theorem RepFlat.to {K : Node → Option (Kind D)} {O : Outs} {F : Flat D} (h : RepFlat K O F) {u v : Node} (hu : u ∈ F.ids) (ht : To O u v) :
    (u = F.m ∧ v ∈ F.pids) ∨ ∃ d, K v = some (.leaf d) := by
  rcases List.mem_cons.1 hu with e | e
  · left
    rw [To, e, h.out, List.map_map] at ht
    exact ⟨e, ht⟩
  · obtain ⟨q, hq, e⟩ := List.mem_map.1 e
    rw [To, ← e, h.pout q hq, List.map_map] at ht
    obtain ⟨l, hl, e'⟩ := List.mem_map.1 ht
    have e' : l.1 = v := e'
    exact .inr ⟨l.2, by rw [← e']; exact h.leaf q hq l hl⟩

section
variable {s s' : Fresh D} {K K' : Node → Option (Kind D)} {O O' : Outs} {t : UTree D} {p : Option Node} {w : Option LogP} {F : Flat D}

theorem Post.loc (h : Post s K O t p w s' K' O' F) (hpre : Pre s K O t p w) : ∀ u ∈ F.ids, u ∈ t.inn ∨ s.next ≤ u := by
  intro u hu
  rcases List.mem_cons.1 hu with e | e
  · rcases h.m with ⟨h1, h2⟩ | ⟨h1, h2⟩
    · left
      rw [e, h2]
      cases t with
      | leaf n d => simp [UTree.isSum] at h1
      | inner n b cs => rw [inn_inner]; simp [UTree.root]
    · right; rw [e]; exact h2
  · exact .inr (h.pids u e)

theorem Post.to_old (h : Post s K O t p w s' K' O' F) (hpre : Pre s K O t p w) {u v : ℕ} (hv : v ∉ t.inn) (hK : K v ≠ none)
    (hK2 : ∀ d, K v ≠ some (.leaf d)) (ht : To O' u v) : To O u v := by
  have hvn : v < s.next := hpre.low v hK
  have hKv : K' v = K v := h.frameK v hvn hv
  by_cases hu : u ∈ t.inn ∨ s.next ≤ u
  · exfalso
    rcases h.clean u hu with hc | ⟨_, hc⟩
    · rcases h.flat.to hc ht with ⟨_, hvp⟩ | ⟨d, hd⟩
      · have := h.pids v hvp
        omega
      · rw [hKv] at hd
        exact hK2 d hd
    · rw [To, hc] at ht; simp at ht
  · have hu1 : u ∉ t.inn := fun hc => hu (.inl hc)
    have hu2 : u < s.next := by
      by_contra hc
      exact hu (.inr (by omega))
    by_cases hpu : p = some u
    · have := h.parent u hpu
      rw [To, this] at ht
      split_ifs at ht with hs
      · exact ht
      · rw [List.map_append, List.mem_append] at ht
        rcases ht with ht | ht
        · obtain ⟨a, ha, e⟩ := List.mem_map.1 ht
          exact List.mem_map.2 ⟨a, (List.mem_filter.1 ha).1, e⟩
        · simp only [List.map_cons, List.map_nil, List.mem_singleton] at ht
          have hvF : v ∈ F.ids := by rw [ht]; simp [Flat.ids]
          rcases h.loc hpre v hvF with hc | hc
          · exact absurd hc hv
          · omega
    · rw [To, h.frameO u hu2 hu1 hpu] at ht
      exact ht

theorem Post.inM (h : Post s K O t p w s' K' O' F) (hpre : Pre s K O t p w) {u : ℕ} (ht : To O' u F.m) : p = some u := by
  by_cases hu : u ∈ t.inn ∨ s.next ≤ u
  · exfalso
    rcases h.clean u hu with hc | ⟨_, hc⟩
    · rcases h.flat.to hc ht with ⟨_, hvp⟩ | ⟨d, hd⟩
      · exact (List.nodup_cons.1 h.nd).1 hvp
      · rw [h.flat.sum] at hd; simp at hd
    · rw [To, hc] at ht; simp at ht
  · by_contra hpu
    have hu1 : u ∉ t.inn := fun hc => hu (.inl hc)
    have hu2 : u < s.next := by
      by_contra hc
      exact hu (.inr (by omega))
    rw [To, h.frameO u hu2 hu1 hpu] at ht
    have ht : To O u F.m := ht
    rcases h.loc hpre F.m (by simp [Flat.ids]) with hc | hc
    · rcases hpre.own _ hc u ht with e | ⟨_, e⟩
      · exact hu1 e
      · exact hpu e
    · have := hpre.low _ (hpre.view.dst ht)
      omega

theorem Post.inP (h : Post s K O t p w s' K' O' F) (hpre : Pre s K O t p w) {q : Node} (hq : q ∈ F.pids) {u : ℕ} (ht : To O' u q) :
    u = F.m := by
  have hqn := h.pids q hq
  have hqm : q ≠ F.m := fun e => (List.nodup_cons.1 h.nd).1 (e ▸ hq)
  by_cases hu : u ∈ t.inn ∨ s.next ≤ u
  · rcases h.clean u hu with hc | ⟨_, hc⟩
    · rcases h.flat.to hc ht with ⟨e, _⟩ | ⟨d, hd⟩
      · exact e
      · exact absurd hd (h.flat.kind_leaf (by simp [Flat.ids, hq]) d)
    · rw [To, hc] at ht; simp at ht
  · exfalso
    have hu1 : u ∉ t.inn := fun hc => hu (.inl hc)
    have hu2 : u < s.next := by
      by_contra hc
      exact hu (.inr (by omega))
    have hold : To O u q → False := fun hto => by
      have := hpre.low _ (hpre.view.dst hto)
      exact absurd hqn (not_le.2 this)
    by_cases hpu : p = some u
    · rw [To, h.parent u hpu] at ht
      split_ifs at ht with hs
      · exact hold ht
      · rw [List.map_append, List.mem_append] at ht
        rcases ht with ht | ht
        · obtain ⟨a, ha, e⟩ := List.mem_map.1 ht
          exact hold (List.mem_map.2 ⟨a, (List.mem_filter.1 ha).1, e⟩)
        · simp only [List.map_cons, List.map_nil, List.mem_singleton] at ht
          exact hqm ht
    · rw [To, h.frameO u hu2 hu1 hpu] at ht
      exact hold ht

end

end PM.Graph
