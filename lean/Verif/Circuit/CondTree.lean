import Verif.Circuit.CondInv
import Verif.Circuit.CopyLemmas

/-! Helper lemmas: conditioning when no leaf falls into several pieces. -/

namespace PM

open Spec MeasureTheory

/-- A change of the leaf distributions. -/
def Kind.mapLeaf {D : Type} (f : D → D) : Kind D → Kind D
  | .leaf d => .leaf (f d)
  | .sum => .sum
  | .prod => .prod

namespace Graph

variable {D : Type}

/-- The graph with changed leaf distributions at the units in `S`. -/
def mapLeavesOn (g : Graph D) (f : D → D) (S : Node → Bool) : Graph D :=
  { g with nodes := g.nodes.map fun p => (p.1, if S p.1 then p.2.mapLeaf f else p.2) }

theorem ids_mapLeavesOn (g : Graph D) (f : D → D) (S : Node → Bool) : (g.mapLeavesOn f S).ids = g.ids := by
  simp only [ids, mapLeavesOn, List.map_map]; rfl

theorem kind?_mapLeavesOn (g : Graph D) (f : D → D) (S : Node → Bool) (n : Node) :
    (g.mapLeavesOn f S).kind? n = (g.kind? n).map fun k => if S n then k.mapLeaf f else k := by
  unfold kind? mapLeavesOn
  simp only [List.find?_map]
  have : ((fun p : Node × Kind D => p.1 == n) ∘ fun p : Node × Kind D => (p.1, if S p.1 then p.2.mapLeaf f else p.2))
      = fun p => p.1 == n := rfl
  rw [this]
  cases h : g.nodes.find? fun p => p.1 == n with
  | none => rfl
  | some q =>
    have h2 : q.1 = n := by simpa using List.find?_some h
    simp [h2]

theorem kind?_of_mem_nodes {g : Graph D} (hw : g.WF) {p : Node × Kind D} (hp : p ∈ g.nodes) : g.kind? p.1 = some p.2 := by
  have hn := hw.nodup
  unfold kind?
  unfold ids at hn
  generalize g.nodes = l at hp hn
  induction l with
  | nil => simp at hp
  | cons q l ih =>
    simp only [List.map_cons, List.nodup_cons] at hn
    rcases List.mem_cons.1 hp with rfl | hp
    · simp
    · have hne : q.1 ≠ p.1 := fun h => hn.1 (h ▸ List.mem_map.2 ⟨p, hp, rfl⟩)
      rw [List.find?_cons_of_neg (by simpa using hne)]
      exact ih hp hn.2

/-- The new distribution of a leaf that is conditioned in place. -/
noncomputable def newLeaf (E : SimpleEvent) (d : Leaf) : Leaf :=
  match E.get d.var with
  | .ok A => match d.condInPlace A with
    | .ok (.one d' _) => d'
    | _ => d
  | .error _ => d

variable {g : Circuit} {r : Node} {E : SimpleEvent} {B : Var → Set ℝ} {P : Node → ℝ}

/-- Every leaf can be conditioned and does not fall into several pieces. -/
def Unsplit (g : Circuit) (E : SimpleEvent) (B : Var → Set ℝ) : Prop :=
  ∀ n d, g.kind? n = some (.leaf d) → ∃ A c, E.get d.var = .ok A ∧ d.condInPlace A = .ok c ∧
    CondSpec d (B d.var) c ∧ ∀ ps, c ≠ .several ps

theorem Unsplit.newLeaf (hU : Unsplit g E B) {n : Node} {d : Leaf} (hk : g.kind? n = some (.leaf d))
    (hpos : (leafLaw d).real (B d.var) ≠ 0) : ∃ p, CondSpec d (B d.var) (.one (newLeaf E d) p) := by
  obtain ⟨A, c, h1, h2, h3, h4⟩ := hU n d hk
  cases c with
  | impossible => exact absurd h3 hpos
  | several ps => exact absurd rfl (h4 ps)
  | one d' p =>
    refine ⟨p, ?_⟩
    have : Graph.newLeaf E d = d' := by simp [Graph.newLeaf, h1, h2]
    rw [this]; exact h3

theorem Unsplit.newLeaf_zero (hU : Unsplit g E B) {n : Node} {d : Leaf} (hk : g.kind? n = some (.leaf d))
    (h0 : (leafLaw d).real (B d.var) = 0) : Graph.newLeaf E d = d := by
  obtain ⟨A, c, h1, h2, h3, h4⟩ := hU n d hk
  cases c with
  | impossible => simp [Graph.newLeaf, h1, h2]
  | several ps => exact absurd rfl (h4 ps)
  | one d' p => exact absurd h0 h3.2.1.ne'

theorem unsplitFold (hL : Layered g r) (hne : ∀ n, g.kind? n = some .sum → g.succ n ≠ [])
    (hP : CircuitValue g (fun d => (leafLaw d).real (B d.var)) P) (hU : Unsplit g E B) (m : Mem LogP) :
    ∃ m', (g.bottomUp r).foldlM (conditionUnit E) (g, m) = .ok (g.mapLeavesOn (newLeaf E) (fun _ => true), m') ∧
      ∀ n ∈ g.ids, ∃ p, m' n = some p ∧ p.exp = P n := by
  classical
  obtain ⟨depth, hd⟩ := id hL.graded
  obtain ⟨hnd, hsort⟩ := bottomUp_order hL hd
  have hcongr : ∀ S T : Node → Bool, (∀ n ∈ g.ids, S n = T n) →
      g.mapLeavesOn (newLeaf E) S = g.mapLeavesOn (newLeaf E) T := by
    intro S T h
    unfold mapLeavesOn
    congr 1
    apply List.map_congr_left
    intro p hp
    rw [h p.1 (List.mem_map.2 ⟨p, hp, rfl⟩)]
  have key : ∀ (todo : List Node) (m : Mem LogP), todo.Nodup → todo.Pairwise (fun a b => depth b ≤ depth a) →
      (∀ n ∈ todo, n ∈ g.ids) → (∀ n ∈ g.ids, n ∉ todo → ∃ p, m n = some p ∧ p.exp = P n) →
      ∃ m', todo.foldlM (conditionUnit E) (g.mapLeavesOn (newLeaf E) (fun n => decide (n ∉ todo)), m)
        = .ok (g.mapLeavesOn (newLeaf E) (fun _ => true), m') ∧ ∀ n ∈ g.ids, ∃ p, m' n = some p ∧ p.exp = P n := by
    intro todo
    induction todo with
    | nil =>
      intro m _ _ _ h
      refine ⟨m, ?_, fun n hn => h n hn (by simp)⟩
      simp
      rfl
    | cons n todo ih =>
      intro m h1 h2 h3 h4
      obtain ⟨h1a, h1b⟩ := List.nodup_cons.1 h1
      obtain ⟨h2a, h2b⟩ := List.pairwise_cons.1 h2
      have hn := h3 n (by simp)
      obtain ⟨k, hk⟩ := exists_kind? hn
      set h := g.mapLeavesOn (newLeaf E) (fun c => decide (c ∉ n :: todo)) with hh
      have hkh : h.kind? n = some k := by
        rw [hh, kind?_mapLeavesOn, hk]; simp
      have hch : ∀ c ∈ g.succ n, c ≠ n ∧ c ∉ todo := by
        intro c hc
        obtain ⟨e, he, hes, rfl⟩ := mem_succ.1 hc
        have := hd e he
        refine ⟨fun h => ?_, fun h => ?_⟩
        · rw [← h] at hes; rw [hes] at this; omega
        · have := h2a _ h; rw [hes] at *; omega
      have hstep : ∃ p, p.exp = P n ∧ conditionUnit E (h, m) n
          = .ok (g.mapLeavesOn (newLeaf E) (fun c => decide (c ∉ todo)), m.set n p) := by
        have hinner : (∀ d, k ≠ .leaf d) → ∃ p, p.exp = P n ∧ h.evalUnit logForwardAlg m n = .ok p ∧
            g.mapLeavesOn (newLeaf E) (fun c => decide (c ∉ todo)) = h := by
          intro hkl
          obtain ⟨v, hv, hve⟩ := evalUnit_forward (h := h) (rep := id) (m := m) hP hL.weighted hne hk hkl hkh
            (.of_eq (by simp; rfl)) (by
              intro e he
              have hc := dst_mem_succ he
              obtain ⟨a, b⟩ := hch _ hc
              exact h4 _ (succ_mem_ids hL.wf hc) (by simp [a, b]))
          refine ⟨v, hve, hv, ?_⟩
          rw [hh]
          unfold mapLeavesOn
          congr 1
          apply List.map_congr_left
          intro p hp
          by_cases hpn : p.1 = n
          · have := kind?_of_mem_nodes hL.wf hp
            rw [hpn, hk] at this
            have hp2 : p.2 = k := (Option.some.inj this).symm
            rw [hp2]
            cases k with
            | leaf d => exact absurd rfl (hkl d)
            | sum => simp [Kind.mapLeaf]
            | prod => simp [Kind.mapLeaf]
          · simp [hpn]
        cases k with
        | sum =>
          obtain ⟨p, hp, he, heq⟩ := hinner (by simp)
          refine ⟨p, hp, ?_⟩
          simp only [conditionUnit, hkh, he, heq]; rfl
        | prod =>
          obtain ⟨p, hp, he, heq⟩ := hinner (by simp)
          refine ⟨p, hp, ?_⟩
          simp only [conditionUnit, hkh, he, heq]; rfl
        | leaf d =>
          obtain ⟨A, c, hA, hc, hcs, hns⟩ := hU n d hk
          have hPn : P n = (leafLaw d).real (B d.var) := hP.leaf n d hk
          have hmap : h.setLeaf n (newLeaf E d) = g.mapLeavesOn (newLeaf E) (fun c => decide (c ∉ todo)) := by
            rw [hh]
            unfold setLeaf mapLeavesOn
            simp only [List.map_map]
            congr 1
            apply List.map_congr_left
            intro p hp
            simp only [Function.comp]
            by_cases hpn : p.1 = n
            · have := kind?_of_mem_nodes hL.wf hp
              rw [hpn, hk] at this
              have hp2 : p.2 = .leaf d := (Option.some.inj this).symm
              simp [hpn, hp2, h1a, Kind.mapLeaf]
            · simp only [beq_eq_false_iff_ne.2 hpn, List.mem_cons, hpn, false_or]
              rfl
          cases c with
          | several ps => exact absurd rfl (hns ps)
          | impossible =>
            refine ⟨.negInf, ?_, ?_⟩
            · rw [hPn]; simpa using (show (leafLaw d).real (B d.var) = 0 from hcs).symm
            · have hsame : h = g.mapLeavesOn (newLeaf E) (fun c => decide (c ∉ todo)) := by
                rw [← hmap, hU.newLeaf_zero hk hcs, hh]
                unfold setLeaf mapLeavesOn
                simp only [List.map_map]
                congr 1
                apply List.map_congr_left
                intro p hp
                simp only [Function.comp]
                by_cases hpn : p.1 = n
                · have := kind?_of_mem_nodes hL.wf hp
                  rw [hpn, hk] at this
                  have hp2 : p.2 = .leaf d := (Option.some.inj this).symm
                  simp [hpn, hp2]
                · simp only [beq_eq_false_iff_ne.2 hpn]
                  rfl
              simp only [conditionUnit, hkh, hA]
              show (do let c ← d.condInPlace A; _ : Except PyErr _) = _
              rw [hc, ← hsame]; rfl
          | one d' p =>
            refine ⟨p, by rw [hPn]; exact hcs.1, ?_⟩
            have hd' : newLeaf E d = d' := by simp [newLeaf, hA, hc]
            rw [← hmap, hd']
            simp only [conditionUnit, hkh, hA]
            show (do let c ← d.condInPlace A; _ : Except PyErr _) = _
            rw [hc]; rfl
      obtain ⟨p, hp, hs⟩ := hstep
      obtain ⟨m', hm', hall⟩ := ih (m.set n p) h1b h2b (fun c hc => h3 c (by simp [hc])) (by
        intro c hc hct
        by_cases hcn : c = n
        · subst hcn; exact ⟨p, Mem.set_same _ _ _, hp⟩
        · rw [Mem.set_other _ _ hcn]; exact h4 c hc (by simp [hcn, hct]))
      refine ⟨m', ?_, hall⟩
      rw [List.foldlM_cons, hs]
      exact hm'
  obtain ⟨m', h1, h2⟩ := key (g.bottomUp r) m hnd hsort (fun n hn => (bottomUp_mem hL).1 hn)
    (fun n hn h => absurd ((bottomUp_mem hL).2 hn) h)
  refine ⟨m', ?_, h2⟩
  rw [← h1]
  congr 2
  have : g.mapLeavesOn (newLeaf E) (fun _ => false) = g := by
    unfold mapLeavesOn
    simp
  conv_lhs => rw [← this]
  apply hcongr
  intro n hn
  simp [(bottomUp_mem hL).2 hn]

/-! ### The surviving part -/

theorem circuitValue_mono {ℓ ℓ' : Leaf → ℝ} {f f' : Node → ℝ} (ha : g.Acyclic) (hw : g.WF) (hf : CircuitValue g ℓ f)
    (hf' : CircuitValue g ℓ' f') (h0 : ∀ n d, g.kind? n = some (.leaf d) → 0 ≤ ℓ d)
    (hle : ∀ n d, g.kind? n = some (.leaf d) → ℓ d ≤ ℓ' d) : ∀ n ∈ g.ids, 0 ≤ f n ∧ f n ≤ f' n := by
  refine ha.induct (P := fun n => n ∈ g.ids → 0 ≤ f n ∧ f n ≤ f' n) ?_
  intro n ih hn
  obtain ⟨k, hk⟩ := exists_kind? hn
  have ih' : ∀ e ∈ g.outEdges n, 0 ≤ f e.dst ∧ f e.dst ≤ f' e.dst := fun e he =>
    ih _ (dst_mem_succ he) (succ_mem_ids hw (dst_mem_succ he))
  cases k with
  | leaf d => rw [hf.leaf n d hk, hf'.leaf n d hk]; exact ⟨h0 n d hk, hle n d hk⟩
  | sum =>
    rw [hf.sum n hk, hf'.sum n hk]
    refine ⟨List.sum_nonneg ?_, List.sum_le_sum ?_⟩
    · intro x hx
      obtain ⟨e, he, rfl⟩ := List.mem_map.1 hx
      exact mul_nonneg (linWeight_nonneg e) (ih' e he).1
    · intro e he
      exact mul_le_mul_of_nonneg_left (ih' e he).2 (linWeight_nonneg e)
  | prod =>
    rw [hf.prod n hk, hf'.prod n hk]
    clear hk ih
    revert ih'
    generalize g.outEdges n = l
    intro ih'
    induction l with
    | nil => simp
    | cons e l ihl =>
      have h1 := ih' e (by simp)
      have h2 := ihl fun e he => ih' e (by simp [he])
      simp only [List.map_cons, List.prod_cons]
      exact ⟨mul_nonneg h1.1 h2.1, mul_le_mul h1.2 h2.2 h2.1 (h1.1.trans h1.2)⟩

/-- The units that remain: those that are reached from the root through possible units. -/
structure Survivors (g : Circuit) (P : Node → ℝ) (r : Node) (keep : Node → Bool) : Prop where
  root : keep r = true
  alive : ∀ n ∈ g.ids, keep n = true → P n ≠ 0
  closed : ∀ e ∈ g.edges, keep e.src = true → P e.dst ≠ 0 → keep e.dst = true
  parent : ∀ n ∈ g.ids, keep n = true → n ≠ r → ∃ e ∈ g.edges, e.dst = n ∧ keep e.src = true

theorem WF.mapLeavesOn (hw : g.WF) (f : Leaf → Leaf) (S : Node → Bool) : (g.mapLeavesOn f S).WF := by
  refine ⟨?_, hw.edgeNodup, ?_, ?_⟩
  · rw [ids_mapLeavesOn]; exact hw.nodup
  · rw [ids_mapLeavesOn]; exact hw.srcMem
  · rw [ids_mapLeavesOn]; exact hw.dstMem

theorem bfsLoop_congr {D : Type} {g g' : Graph D} (h : g.edges = g'.edges) :
    ∀ (k : Nat) (a b : List Node), g.bfsLoop k a b = g'.bfsLoop k a b := by
  have hs : ∀ n, g.succ n = g'.succ n := fun n => by unfold succ outEdges; rw [h]
  intro k
  induction k with
  | zero => intro a b; rfl
  | succ k ih =>
    intro a b
    cases b with
    | nil => rfl
    | cons x b => simp only [bfsLoop, bfsNext, funext hs, ih]

theorem conditionSimple_unsplit (hL : Layered g r) (hne : ∀ n, g.kind? n = some .sum → g.succ n ≠ [])
    (hP : CircuitValue g (fun d => (leafLaw d).real (B d.var)) P) (hU : Unsplit g E B) (hpos : P r ≠ 0) (m : Mem LogP) :
    ∃ keep m' p, Survivors g P r keep ∧ p.exp = P r ∧ m' r = some p ∧ (∀ n ∈ g.ids, ∃ q, m' n = some q ∧ q.exp = P n) ∧
      g.conditionSimple m E = (do
      let g3 ← ((g.mapLeavesOn (newLeaf E) fun _ => true).induced keep).simplify
      let g4 ← g3.normalize
      .ok (some (g4, m'), p)) := by
  obtain ⟨m', hfold, hm'⟩ := unsplitFold hL hne hP hU m
  set g1 := g.mapLeavesOn (newLeaf E) (fun _ => true) with hg1
  have hid : g1.ids = g.ids := ids_mapLeavesOn _ _ _
  have hw1 : g1.WF := hL.wf.mapLeavesOn _ _
  have hr1 : g1.root = .ok r := by
    have := hL.root
    unfold root at this ⊢
    rw [hid]; exact this
  have hbu : g1.bottomUp r = g.bottomUp r := by
    unfold bottomUp layersFrom
    have hlen : g1.nodes.length = g.nodes.length := by simp [hg1, Graph.mapLeavesOn]
    rw [hlen, bfsLoop_congr (show g1.edges = g.edges from rfl)]
  have hrm := (root_mem hL.root).1
  obtain ⟨p, hp, hpe⟩ := hm' r hrm
  have himp : ∀ n ∈ g.ids, (impossibleIn m' n = true ↔ P n = 0) := by
    intro n hn
    obtain ⟨q, hq, hqe⟩ := hm' n hn
    rw [← hqe, LogP.exp_eq_zero]
    unfold impossibleIn
    rw [hq]
    cases q <;> simp
  set dead := (g1.bottomUp r).filter (impossibleIn m') with hdead
  have hmd : ∀ n ∈ g.ids, (n ∈ dead ↔ P n = 0) := by
    intro n hn
    rw [hdead, List.mem_filter, hbu, bottomUp_mem hL, himp n hn]
    simp [hn]
  set ga := g1.induced (fun n => decide (n ∉ dead)) with hga
  have hgrade1 : g1.Graded := hL.graded
  have hwa : ga.WF := hw1.induced _
  have hgra : ga.Graded := hgrade1.induced _
  have hra : r ∈ ga.ids := mem_ids_induced.2 ⟨by rw [hid]; exact hrm, by simp [hmd r hrm, hpos]⟩
  refine ⟨fun n => decide (n ∉ dead) && decide (n ∈ (ga.layersFrom r).flatten), m', p, ?_, hpe, hp, hm', ?_⟩
  · have hreach : ∀ n, n ∈ (ga.layersFrom r).flatten ↔ ga.Reachable r n := fun n =>
      mem_layersFrom_iff hwa hgra hra
    refine ⟨?_, ?_, ?_, ?_⟩
    · simp only [Bool.and_eq_true, decide_eq_true_eq, hreach]
      exact ⟨by simp [hmd r hrm, hpos], .refl⟩
    · intro n hn h
      simp only [Bool.and_eq_true, decide_eq_true_eq] at h
      exact fun h0 => h.1 ((hmd n hn).2 h0)
    · intro e he h h0
      simp only [Bool.and_eq_true, decide_eq_true_eq, hreach] at h ⊢
      have hd : e.dst ∉ dead := fun hx => h0 ((hmd _ (hL.wf.dstMem e he)).1 hx)
      refine ⟨hd, h.2.tail ?_⟩
      exact mem_succ.2 ⟨e, mem_edges_induced.2 ⟨he, by simpa using h.1, by simpa using hd⟩, rfl, rfl⟩
    · intro n hn h hnr
      simp only [Bool.and_eq_true, decide_eq_true_eq, hreach] at h
      rcases Relation.ReflTransGen.cases_tail h.2 with h' | ⟨k, hk, hkn⟩
      · exact absurd h' hnr
      · obtain ⟨e, he, hes, hed⟩ := mem_succ.1 hkn
        obtain ⟨he1, he2, he3⟩ := mem_edges_induced.1 he
        refine ⟨e, he1, hed, ?_⟩
        simp only [Bool.and_eq_true, decide_eq_true_eq, hreach, hes]
        exact ⟨by rw [← hes]; simpa using he2, hk⟩
  · unfold conditionSimple
    rw [hL.root]
    change (do let s ← (g.bottomUp r).foldlM (conditionUnit E) (g, m); _ : Except PyErr _) = _
    rw [hfold]
    change (do let r1 ← g1.root; _ : Except PyErr _) = _
    rw [hr1]
    have hnd : r ∉ (g1.bottomUp r).filter (impossibleIn m') := by rw [← hdead, hmd r hrm]; exact hpos
    simp only [bind, Except.bind]
    rw [if_neg hnd]
    have hind : (g1.induced fun n => decide (n ∉ dead)).removeUnreachable r
        = g1.induced (fun n => decide (n ∉ dead) && decide (n ∈ (ga.layersFrom r).flatten)) := by
      unfold removeUnreachable
      rw [induced_induced]
    rw [← hdead, hind]
    simp only [readResult, hp]


end Graph
end PM
