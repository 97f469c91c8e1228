import Verif.Heap.Sim

/-! Helper lemmas: `copy`, `conditional` and `marginal` of circuits on a heap. -/

namespace PM.Graph

open Spec Heap

variable {h : Heap} {Q : ℕ → Prop}

theorem natural_ok {op : {D : Type} → Graph D → Graph D}
    (hop : ∀ {D D' : Type} (f : D → D') (g : Graph D), op (g.mapLeaf f) = (op g).mapLeaf f) (g : RefCircuit) :
    ∀ r ∈ refs (op g), r ∈ refs g := by
  obtain ⟨g0, hg0⟩ := exists_lift (P := (· ∈ refs g)) (g := g) fun r hr => hr
  intro r hr
  rw [hg0, hop] at hr
  exact refs_mapLeaf (op g0) r hr

/-- The references of a unit exist since `n`. -/
def unitSince (n : ℕ) (h : Heap) (p : Node × Kind ℕ) : Prop := ∀ r, p.2 = .leaf r → Since n h r

theorem runs_copy (hw : h.WF) {g : RefCircuit} (hg : ∀ r ∈ refs g, r < h.nextObj) {n : ℕ} (hn : n ≤ h.nextObj) :
    Runs noOld h (OnHeap.copy g) (Sim (Owns (n ≤ ·)) (fun h g => g.view h) (.ok (g.view h).copy)) := by
  have h1 := Runs.mapSim (S := noOld) (f := OnHeap.copyUnit) (k := fun p => .ok (p.1, p.2.map h.read)) (V := unitSince n)
    (den := fun h p => (p.1, p.2.map h.read)) (h0 := h) ?_ g.nodes h (Ext.refl _ _) ?_
  · have h2 : g.nodes.mapM (fun p : Node × Kind ℕ => (Except.ok (p.1, p.2.map h.read) : Except PyErr (Node × Kind Leaf))) =
        .ok (g.nodes.map fun p => (p.1, p.2.map h.read)) := by
      clear h1
      induction g.nodes with
      | nil => rfl
      | cons a l ih => rw [List.mapM_cons, ih]; rfl
    rw [h2] at h1
    refine h1.bind (f := fun ns => HM.ret (Graph.copy { g with nodes := ns })) ?_ ?_
    · rintro h' ns he ⟨hv, hy⟩
      refine Runs.ret ⟨?_, ?_⟩
      · intro r hr
        obtain ⟨m, hm⟩ := mem_refs.1 hr
        obtain ⟨p, hp, hpm⟩ := List.mem_map.1 hm
        have := hv p hp r (Prod.mk.inj hpm).2
        exact ⟨this.2, this.1⟩
      · injection hy with hy
        congr 1
        show _ = mapLeaf _ (copyAt _ 0)
        rw [← mapLeaf_copyAt]
        show copyAt _ 0 = _
        congr 1
        unfold view mapLeaf
        simp only [hy]
    · rintro h' e hy
      exact absurd (show Except.ok _ = Except.error e from hy) (by simp)
  · intro h1 h2 p he1 he2 hv
    refine ⟨fun r hr => (hv r hr).ext he2, ?_⟩
    obtain ⟨m, k⟩ := p
    cases k with
    | leaf r => simp only [Kind.map]; rw [he2.read (he1.wf hw) (hv r rfl).2 id]
    | sum => rfl
    | prod => rfl
  · rintro ⟨m, k⟩ hp h' he
    cases k with
    | leaf r =>
      have hr : r < h.nextObj := hg r (mem_refs.2 ⟨m, hp⟩)
      have := runs_copyDist (S := noOld) (he.wf hw) (hr.trans_le he.objs) (hn.trans he.objs)
      rw [he.read hw hr id] at this
      exact this.bindSim (V' := unitSince n) (den' := fun h p => (p.1, p.2.map h.read))
        (k := fun d => .ok (m, Kind.leaf d)) (f := fun r' => HM.ret (m, Kind.leaf r')) fun h'' r' he' hv =>
        Runs.ret ⟨fun r'' hr'' => by injection hr'' with hr''; rw [← hr'']; exact hv, rfl⟩
    | sum => exact Runs.ret ⟨fun r hr => absurd hr (by simp), rfl⟩
    | prod => exact Runs.ret ⟨fun r hr => absurd hr (by simp), rfl⟩

theorem refs_setLeaf {g : RefCircuit} {n : Node} {r' : ℕ} : ∀ r ∈ refs (g.setLeaf n r'), r ∈ refs g ∨ r = r' := by
  intro r hr
  obtain ⟨m, hm⟩ := mem_refs.1 hr
  obtain ⟨p, hp, hpm⟩ := List.mem_map.1 hm
  by_cases h : p.1 == n
  · rw [if_pos h] at hpm
    have := (Prod.mk.inj hpm).2
    injection this with this
    exact Or.inr this.symm
  · rw [if_neg h] at hpm
    exact Or.inl (mem_refs.2 ⟨m, hpm ▸ hp⟩)

theorem refs_expandLeaf {g g' : RefCircuit} {n : Node} {ps : List (ℕ × LogP)} (he : g.expandLeaf n ps = .ok g') :
    ∀ r ∈ refs g', r ∈ refs g ∨ r ∈ ps.map Prod.fst := by
  have hl : ∀ l : List (ℕ × LogP), (∀ q ∈ l, q.1 ∈ refs g ∨ q.1 ∈ ps.map Prod.fst) →
      ∃ l0 : List ({r // r ∈ refs g ∨ r ∈ ps.map Prod.fst} × LogP), l = l0.map fun q => (q.1.1, q.2) := by
    intro l
    induction l with
    | nil => intro _; exact ⟨[], rfl⟩
    | cons q l ih =>
      intro hq
      obtain ⟨l0, rfl⟩ := ih fun q hq' => hq q (List.mem_cons_of_mem _ hq')
      exact ⟨(⟨q.1, hq q (by simp)⟩, q.2) :: l0, rfl⟩
  obtain ⟨l0, hl0⟩ := hl ps fun q hq => Or.inr (List.mem_map.2 ⟨q, hq, rfl⟩)
  obtain ⟨g0, hg0⟩ := exists_lift (P := fun r => r ∈ refs g ∨ r ∈ ps.map Prod.fst) (g := g) fun r hr => Or.inl hr
  have h2 : g.expandLeaf n ps = (g0.mapLeaf Subtype.val).expandLeaf n (l0.map fun q => (q.1.1, q.2)) := by
    rw [← hg0, ← hl0]
  rw [h2, mapLeaf_expandLeaf Subtype.val g0 n l0] at he
  cases h0 : g0.expandLeaf n l0 with
  | error e => rw [h0] at he; exact absurd he (by simp [Except.map])
  | ok g1 =>
    rw [h0] at he
    injection he with he
    subst he
    exact refs_mapLeaf g1

/-- The last part of `conditionUnit` at a leaf. -/
noncomputable def afterLeaf (s : Circuit × Mem LogP) (n : Node) : LeafCond → Except PyErr (Circuit × Mem LogP)
  | .impossible => .ok (s.1, s.2.set n .negInf)
  | .one d' p => .ok (s.1.setLeaf n d', s.2.set n p)
  | .several ps => do
    let g' ← s.1.expandLeaf n ps
    .ok (g', fun k =>
      if k = s.1.fresh then some (LogP.log (ps.map fun q => q.2.exp).sum)
      else if s.1.fresh < k then none else s.2 k)

theorem conditionUnit_leaf {E : SimpleEvent} {s : Circuit × Mem LogP} {n : Node} {d : Leaf} (hk : s.1.kind? n = some (.leaf d)) :
    conditionUnit E s n = (E.get d.var >>= fun A => d.condInPlace A >>= afterLeaf s n) := by
  unfold conditionUnit
  rw [hk]
  simp only
  cases E.get d.var with
  | error e => rfl
  | ok A =>
    show (d.condInPlace A >>= _) = (d.condInPlace A >>= _)
    cases d.condInPlace A with
    | error e => rfl
    | ok c => cases c <;> rfl

theorem runs_conditionUnit (hw : h.WF) (E : SimpleEvent) {s : RefCircuit × Mem LogP} (n : Node) (hs : Owns Q h s.1)
    (hQ : ∀ r, h.nextObj ≤ r → Q r) :
    Runs noOld h (OnHeap.conditionUnit E s n)
      (Sim (fun h s => Owns Q h s.1) (fun h s => (s.1.view h, s.2)) (conditionUnit E (s.1.view h, s.2) n)) := by
  obtain ⟨g, m⟩ := s
  cases hk : g.kind? n with
  | none =>
    have : OnHeap.conditionUnit E (g, m) n = HM.raise .networkXError := by unfold OnHeap.conditionUnit; rw [hk]
    rw [this]
    refine ⟨Ext.refl _ _, ?_⟩
    show conditionUnit E (g.view h, m) n = _
    unfold conditionUnit
    simp only [view, mapLeaf_kind?, hk, Option.map_none]
  | some k =>
    cases k with
    | leaf r =>
      have hk' : (g.view h).kind? n = some (.leaf (h.read r)) := by rw [view, mapLeaf_kind?, hk]; rfl
      rw [conditionUnit_leaf (s := (g.view h, m)) hk']
      have hdef : ∀ h, OnHeap.conditionUnit E (g, m) n h = HM.bind (HM.lift (E.get (h.read r).var)) (fun A =>
          HM.bind (condInPlace r A) (OnHeap.afterLeaf (g, m) n)) h := by
        intro h
        simp only [OnHeap.conditionUnit, hk]
      have hruns : Runs noOld h (HM.bind (HM.lift (E.get (h.read r).var)) (fun A =>
          HM.bind (condInPlace r A) (OnHeap.afterLeaf (g, m) n)))
          (Sim (fun h s => Owns Q h s.1) (fun h s => (s.1.view h, s.2))
            (E.get (h.read r).var >>= fun A => (h.read r).condInPlace A >>= afterLeaf (g.view h, m) n)) := by
        refine (Runs.liftSim (V := fun h' _ => h' = h) (den := fun _ a => a) (by cases E.get (h.read r).var <;> rfl)
          (fun _ _ => rfl)).bindSim ?_
        rintro h' A he rfl
        refine (runs_condInPlace hw r A (le_refl _)).bindSim ?_
        intro h2 c he2 hc
        cases c with
        | impossible =>
          exact Runs.ret ⟨Owns.ext hs he2, by simp only [CondRef.den, afterLeaf]; rw [Owns.view_ext hs hw he2]⟩
        | one r' p =>
          refine Runs.ret ⟨?_, ?_⟩
          · intro q hq
            rcases refs_setLeaf q hq with hq | rfl
            · exact Owns.ext hs he2 q hq
            · exact ⟨hc.2, hQ _ hc.1⟩
          · simp only [CondRef.den, afterLeaf]
            rw [← Owns.view_ext hs hw he2, view, mapLeaf_setLeaf]
            rfl
        | several ps =>
          simp only [CondRef.den, afterLeaf]
          rw [← Owns.view_ext hs hw he2, view, mapLeaf_expandLeaf]
          refine (Runs.liftSim (V := fun h3 g' => Owns Q h3 g' ∧ h3 = h2) (den := fun _ g' => g'.mapLeaf h2.read) rfl ?_).bindSim ?_
          · intro g' hg'
            refine ⟨fun q hq => ?_, rfl⟩
            rcases refs_expandLeaf hg' q hq with hq | hq
            · exact Owns.ext hs he2 q hq
            · obtain ⟨q', hq', rfl⟩ := List.mem_map.1 hq
              exact ⟨(hc q' hq').2, hQ _ (hc q' hq').1⟩
          · rintro h3 g' he3 ⟨ho, rfl⟩
            refine Runs.ret ⟨ho, ?_⟩
            simp only [mapLeaf_fresh, List.map_map]
            rfl
      exact ⟨by rw [hdef]; exact hruns.ext, by rw [hdef]; exact hruns.post⟩
    | sum =>
      have h1 : OnHeap.conditionUnit E (g, m) n = HM.bind (HM.lift (g.evalUnit logForwardAlg m n)) fun v => HM.ret (g, m.set n v) := by
        simp only [OnHeap.conditionUnit, hk]
      have h2 : conditionUnit E (g.view h, m) n = ((g.view h).evalUnit logForwardAlg m n >>= fun v => .ok (g.view h, m.set n v)) := by
        have hk' : (g.view h).kind? n = some .sum := by rw [view, mapLeaf_kind?, hk]; rfl
        simp only [conditionUnit, hk']
      rw [h1, h2, view, mapLeaf_evalInner h.read g m n (by rw [hk]; simp)]
      refine (Runs.liftSim (V := fun h' _ => h' = h) (den := fun _ a => a) (by cases g.evalUnit logForwardAlg m n <;> rfl)
          (fun _ _ => rfl)).bindSim ?_
      rintro h' v he rfl
      exact Runs.ret ⟨hs, rfl⟩
    | prod =>
      have h1 : OnHeap.conditionUnit E (g, m) n = HM.bind (HM.lift (g.evalUnit logForwardAlg m n)) fun v => HM.ret (g, m.set n v) := by
        simp only [OnHeap.conditionUnit, hk]
      have h2 : conditionUnit E (g.view h, m) n = ((g.view h).evalUnit logForwardAlg m n >>= fun v => .ok (g.view h, m.set n v)) := by
        have hk' : (g.view h).kind? n = some .prod := by rw [view, mapLeaf_kind?, hk]; rfl
        simp only [conditionUnit, hk']
      rw [h1, h2, view, mapLeaf_evalInner h.read g m n (by rw [hk]; simp)]
      refine (Runs.liftSim (V := fun h' _ => h' = h) (den := fun _ a => a) (by cases g.evalUnit logForwardAlg m n <;> rfl)
          (fun _ _ => rfl)).bindSim ?_
      rintro h' v he rfl
      exact Runs.ret ⟨hs, rfl⟩

/-- `OnHeap.cleanUp` for any representation of the distributions. -/
noncomputable def cleanUpG {D : Type} (s : Graph D × Mem LogP) : Except PyErr (Option (Graph D × Mem LogP) × LogP) := do
  let r1 ← s.1.root
  let dead := (s.1.bottomUp r1).filter (impossibleIn s.2)
  if r1 ∈ dead then .ok (none, .negInf)
  else do
    let g2 := (s.1.induced fun n => decide (n ∉ dead)).removeUnreachable r1
    let g3 ← g2.simplify
    let g4 ← g3.normalize
    let p ← readResult s.2 r1
    .ok (some (g4, s.2), p)

theorem mapLeaf_cleanUp {D D' : Type} (f : D → D') (g : Graph D) (m : Mem LogP) :
    cleanUpG (g.mapLeaf f, m) = (cleanUpG (g, m)).map fun q => (q.1.map fun s => (s.1.mapLeaf f, s.2), q.2) := by
  unfold cleanUpG
  simp only
  rw [mapLeaf_root]
  cases g.root with
  | error e => rfl
  | ok r =>
    simp only [bind, Except.bind, mapLeaf_bottomUp]
    by_cases hr : r ∈ (g.bottomUp r).filter (impossibleIn m)
    · rw [if_pos hr, if_pos hr]; rfl
    · rw [if_neg hr, if_neg hr, mapLeaf_induced, mapLeaf_removeUnreachable, mapLeaf_simplify]
      cases simplify _ with
      | error e => rfl
      | ok g3 =>
        simp only [Except.map]
        rw [mapLeaf_normalize]
        cases normalize _ with
        | error e => rfl
        | ok g4 =>
          simp only [Except.map]
          cases readResult m r <;> rfl

/-- What holds for the circuit, if there is one. -/
def OptOwns (Q : ℕ → Prop) (h : Heap) (q : Option (RefCircuit × Mem LogP) × LogP) : Prop := ∀ s, q.1 = some s → Owns Q h s.1

/-- The circuit seen by the user, if there is one. -/
def optView (h : Heap) (q : Option (RefCircuit × Mem LogP) × LogP) : Option (Circuit × Mem LogP) × LogP :=
  (q.1.map fun s => (s.1.view h, s.2), q.2)

theorem refs_cleanUp {s : RefCircuit × Mem LogP} {q : Option (RefCircuit × Mem LogP) × LogP} (hq : cleanUpG s = .ok q) :
    ∀ t, q.1 = some t → ∀ r ∈ refs t.1, r ∈ refs s.1 := by
  obtain ⟨g, m⟩ := s
  obtain ⟨g0, hg0⟩ := exists_lift (P := (· ∈ refs g)) (g := g) fun r hr => hr
  have h2 := mapLeaf_cleanUp Subtype.val g0 m
  rw [← hg0, hq] at h2
  cases h0 : cleanUpG (g0, m) with
  | error e => rw [h0] at h2; exact absurd h2 (by simp [Except.map])
  | ok q0 =>
    rw [h0] at h2
    injection h2 with h2
    subst h2
    obtain ⟨o, p⟩ := q0
    intro t ht
    cases o with
    | none => exact absurd ht (by simp)
    | some t0 =>
      simp only [Option.map_some, Option.some.injEq] at ht
      subst ht
      exact refs_mapLeaf t0.1

theorem runs_conditionSimple (hw : h.WF) (E : SimpleEvent) {g : RefCircuit} (m : Mem LogP) (hg : Owns Q h g)
    (hQ : ∀ r, h.nextObj ≤ r → Q r) :
    Runs noOld h (OnHeap.conditionSimple g m E) (Sim (OptOwns Q) optView ((g.view h).conditionSimple m E)) := by
  have hy : (g.view h).conditionSimple m E = ((g.view h).root >>= fun r =>
      ((g.view h).bottomUp r).foldlM (conditionUnit E) (g.view h, m) >>= cleanUpG) := by
    unfold conditionSimple
    rfl
  rw [hy, view, mapLeaf_root]
  refine (Runs.liftSim (V := fun h' _ => h' = h) (den := fun _ a => a) (by cases g.root <;> rfl) (fun _ _ => rfl)).bindSim ?_
  rintro h' r he rfl
  rw [mapLeaf_bottomUp]
  refine (Runs.foldlSim (f := OnHeap.conditionUnit E) (k := conditionUnit E) (V := fun h s => Owns Q h s.1)
    (den := fun h s => (s.1.view h, s.2)) (h0 := h') ?_ (g.bottomUp r) h' (g, m) (Ext.refl _ _) hg).bindSim ?_
  · intro h2 s n he hs
    exact runs_conditionUnit (he.wf hw) E n hs fun r hr => hQ r (he.objs.trans hr)
  · rintro h2 ⟨g2, m2⟩ he hs
    refine Runs.liftSim ?_ ?_
    · exact mapLeaf_cleanUp h2.read g2 m2
    · intro q hq t ht r hr
      exact hs r (refs_cleanUp hq t ht r hr)

/-- `OnHeap.mix` for any representation of the distributions. -/
noncomputable def mixG {D : Type} (all : List (Option (Graph D × Mem LogP) × LogP)) : Except PyErr (Option (Graph D) × LogP) :=
  match possible all with
  | [] => .ok (none, .negInf)
  | l => do
    let (g', cs) ← mountAll l (⟨[(0, .sum)], []⟩, [])
    let p ← mixtureForward cs
    let g'' ← g'.normalizeUnit 0
    .ok (some g'', p)

theorem mix_eq (all : List (Option (RefCircuit × Mem LogP) × LogP)) : OnHeap.mix all = mixG all := by
  unfold OnHeap.mix mixG
  cases possible all <;> rfl

theorem mapLeaf_mix {D D' : Type} (f : D → D') (all : List (Option (Graph D × Mem LogP) × LogP)) :
    mixG (all.map fun q => (q.1.map fun s => (s.1.mapLeaf f, s.2), q.2)) = (mixG all).map fun q => (q.1.map (mapLeaf f), q.2) := by
  unfold mixG
  rw [mapLeaf_possible]
  cases possible all with
  | nil => rfl
  | cons a l =>
    have h1 := mapLeaf_mountAll f (a :: l) (⟨[(0, .sum)], []⟩, [])
    have h2 : ((⟨[(0, .sum)], []⟩ : Graph D), ([] : List (LogP × Option LogP))).1.mapLeaf f = ⟨[(0, .sum)], []⟩ := rfl
    simp only [h2] at h1
    rw [List.map_cons] at h1 ⊢
    simp only [bind, Except.bind]
    rw [h1]
    cases mountAll (a :: l) (⟨[(0, .sum)], []⟩, []) with
    | error e => rfl
    | ok q =>
      simp only [Except.map]
      cases mixtureForward q.2 with
      | error e => rfl
      | ok p =>
        simp only
        rw [mapLeaf_normalizeUnit]
        cases normalizeUnit q.1 0 <;> rfl

theorem refs_mix {all : List (Option (RefCircuit × Mem LogP) × LogP)} {q : Option RefCircuit × LogP} (hq : mixG all = .ok q)
    {P : ℕ → Prop} (hP : ∀ a ∈ all, ∀ s, a.1 = some s → ∀ r ∈ refs s.1, P r) : ∀ g, q.1 = some g → ∀ r ∈ refs g, P r := by
  have hl : ∀ l : List (Option (RefCircuit × Mem LogP) × LogP), (∀ a ∈ l, ∀ s, a.1 = some s → ∀ r ∈ refs s.1, P r) →
      ∃ l0 : List (Option (Graph {r // P r} × Mem LogP) × LogP),
        l = l0.map fun q => (q.1.map fun s => (s.1.mapLeaf Subtype.val, s.2), q.2) := by
    intro l
    induction l with
    | nil => intro _; exact ⟨[], rfl⟩
    | cons a l ih =>
      intro h
      obtain ⟨l0, rfl⟩ := ih fun b hb => h b (List.mem_cons_of_mem _ hb)
      obtain ⟨o, p⟩ := a
      cases o with
      | none => exact ⟨(none, p) :: l0, rfl⟩
      | some s =>
        obtain ⟨g0, hg0⟩ := exists_lift (P := P) (g := s.1) (h (some s, p) (by simp) s rfl)
        exact ⟨(some (g0, s.2), p) :: l0, by simp [← hg0]⟩
  obtain ⟨l0, hl0⟩ := hl all hP
  rw [hl0, mapLeaf_mix] at hq
  cases h0 : mixG l0 with
  | error e => rw [h0] at hq; exact absurd hq (by simp [Except.map])
  | ok q0 =>
    rw [h0] at hq
    injection hq with hq
    subst hq
    intro g hg
    obtain ⟨o, p⟩ := q0
    cases o with
    | none => exact absurd hg (by simp)
    | some g0 =>
      simp only [Option.map_some, Option.some.injEq] at hg
      subst hg
      exact refs_mapLeaf g0

theorem runs_logConditionalInPlace (hw : h.WF) (Es : Event) {g : RefCircuit} (m : Mem LogP) (hg : Owns Q h g)
    (hQ : ∀ r, h.nextObj ≤ r → Q r) :
    Runs noOld h (OnHeap.logConditionalInPlace g m Es)
      (Sim (fun h q => ∀ g', q.1 = some g' → Owns Q h g') (fun h q => (q.1.map (view h), q.2))
        ((g.view h).logConditionalInPlace m Es)) := by
  rcases Es with - | ⟨E, - | ⟨E', Es⟩⟩
  · exact Runs.ret ⟨by simp, rfl⟩
  · show Runs noOld h (HM.bind (OnHeap.conditionSimple g m E) fun q => HM.ret (q.1.map Prod.fst, q.2)) (Sim _ _
      ((g.view h).conditionSimple m E >>= fun q => .ok (q.1.map Prod.fst, q.2)))
    refine (runs_conditionSimple hw E m hg hQ).bindSim ?_
    rintro h' ⟨o, p⟩ he hv
    refine Runs.ret ⟨?_, ?_⟩
    · intro g' hg'
      cases o with
      | none => exact absurd hg' (by simp)
      | some s =>
        simp only [Option.map_some, Option.some.injEq] at hg'
        exact hg' ▸ hv s rfl
    · cases o <;> rfl
  · have hy : (g.view h).logConditionalInPlace m (E :: E' :: Es) =
        ((E :: E' :: Es).mapM (fun E => (g.view h).copy.conditionSimple freshMem E) >>= mixG) := by
      show (List.mapM _ _ >>= _) = _
      congr 1
      funext all
      unfold mixG
      cases possible all <;> rfl
    rw [hy]
    refine (Runs.mapSim (S := noOld) (V := OptOwns Q) (den := optView) (h0 := h) ?_ _ h (Ext.refl _ _) ?_).bindSim ?_
    · intro h1 h2 q he1 he2 hv
      refine ⟨fun s hs => Owns.ext (hv s hs) he2, ?_⟩
      obtain ⟨o, p⟩ := q
      cases o with
      | none => rfl
      | some s =>
        unfold optView
        simp only [Option.map_some]
        rw [Owns.view_ext (hv s rfl) (he1.wf hw) he2]
    · intro E _ h1 he1
      have hc := runs_copy (he1.wf hw) (g := g) (fun r hr => (hg r hr).1.trans_le he1.objs) (le_refl _)
      rw [Owns.view_ext hg hw he1] at hc
      refine hc.bindSim (k := fun g' => g'.conditionSimple freshMem E) ?_
      intro h2 g' he2 hv
      exact runs_conditionSimple ((he1.trans he2).wf hw) E freshMem
        (fun r hr => ⟨(hv r hr).1, hQ r (he1.objs.trans (hv r hr).2)⟩) fun r hr => hQ r ((he1.trans he2).objs.trans hr)
    · intro h1 all he1 hv
      rw [mix_eq]
      refine Runs.liftSim ?_ ?_
      · exact mapLeaf_mix h1.read all
      · intro q hq g' hg' r hr
        exact refs_mix hq (P := fun r => r < h1.nextObj ∧ Q r) (fun a ha s hs r hr => hv a ha s hs r hr) g' hg' r hr

theorem runs_marginalUnit (vs : Finset Var) {s : RefCircuit × Bool} (n : Node) (hs : Owns Q h s.1) :
    Runs noOld h (OnHeap.marginalUnit vs s n)
      (Sim (fun h s => Owns Q h s.1) (fun h s => (s.1.view h, s.2)) (marginalUnit vs (s.1.view h, s.2) n)) := by
  obtain ⟨g, b⟩ := s
  have hrem : Owns Q h (g.removeNode n) := fun r hr => hs r (natural_ok (op := fun g => g.removeNode n)
    (fun f g => mapLeaf_removeNode f g n) g r hr)
  have hval : ∀ {x y}, OnHeap.marginalUnit vs (g, b) n h = (h, x) → marginalUnit vs (g.view h, b) n = y →
      Sim (fun h (s : RefCircuit × Bool) => Owns Q h s.1) (fun h s => (s.1.view h, s.2)) y h x →
      Runs noOld h (OnHeap.marginalUnit vs (g, b) n)
      (Sim (fun h s => Owns Q h s.1) (fun h s => (s.1.view h, s.2)) (marginalUnit vs (g.view h, b) n)) := by
    intro x y h1 h2 h3
    exact ⟨by rw [h1]; exact Ext.refl _ _, by rw [h1, h2]; exact h3⟩
  have hremv : (g.view h).removeNode n = (g.removeNode n).view h := mapLeaf_removeNode _ _ _
  cases hk : g.kind? n with
  | none =>
    refine hval (x := .error .networkXError) (y := .error .networkXError) ?_ ?_ rfl
    · simp only [OnHeap.marginalUnit, hk]
    · simp only [marginalUnit, view, mapLeaf_kind?, hk, Option.map_none]
  | some k =>
    have hk' : (g.view h).kind? n = some (k.map h.read) := by rw [view, mapLeaf_kind?, hk]; rfl
    cases k with
    | leaf r =>
      simp only [Kind.map] at hk'
      by_cases hv : (h.read r).var ∈ vs
      · refine hval (x := .ok (g, true)) (y := .ok (g.view h, true)) ?_ ?_ ⟨hs, rfl⟩
        · simp only [OnHeap.marginalUnit, hk, hv, if_true]
        · simp only [marginalUnit, hk', hv, if_true]
      · refine hval (x := .ok (g.removeNode n, false)) (y := .ok ((g.view h).removeNode n, false)) ?_ ?_
          ⟨hrem, by rw [hremv]⟩
        · simp only [OnHeap.marginalUnit, hk, hv, if_false]
        · simp only [marginalUnit, hk', hv, if_false]
    | sum =>
      simp only [Kind.map] at hk'
      by_cases hv : g.succ n = []
      · refine hval (x := .ok (g.removeNode n, false)) (y := .ok ((g.view h).removeNode n, false)) ?_ ?_
          ⟨hrem, by rw [hremv]⟩
        · simp only [OnHeap.marginalUnit, hk, hv, if_true]
        · have : (g.view h).succ n = [] := hv
          simp only [marginalUnit, hk', this, if_true]
      · refine hval (x := .ok (g, true)) (y := .ok (g.view h, true)) ?_ ?_ ⟨hs, rfl⟩
        · simp only [OnHeap.marginalUnit, hk, hv, if_false]
        · have : ¬ (g.view h).succ n = [] := hv
          simp only [marginalUnit, hk', this, if_false]
    | prod =>
      simp only [Kind.map] at hk'
      by_cases hv : g.succ n = []
      · refine hval (x := .ok (g.removeNode n, false)) (y := .ok ((g.view h).removeNode n, false)) ?_ ?_
          ⟨hrem, by rw [hremv]⟩
        · simp only [OnHeap.marginalUnit, hk, hv, if_true]
        · have : (g.view h).succ n = [] := hv
          simp only [marginalUnit, hk', this, if_true]
      · refine hval (x := .ok (g, true)) (y := .ok (g.view h, true)) ?_ ?_ ⟨hs, rfl⟩
        · simp only [OnHeap.marginalUnit, hk, hv, if_false]
        · have : ¬ (g.view h).succ n = [] := hv
          simp only [marginalUnit, hk', this, if_false]

theorem runs_marginalInPlace (vs : Finset Var) {g : RefCircuit} (hg : Owns Q h g) :
    Runs noOld h (OnHeap.marginalInPlace g vs)
      (Sim (fun h q => ∀ g', q = some g' → Owns Q h g') (fun h q => q.map (view h)) ((g.view h).marginalInPlace vs)) := by
  have hy : (g.view h).marginalInPlace vs = ((g.view h).root >>= fun r =>
      ((g.view h).bottomUp r).foldlM (marginalUnit vs) (g.view h, false) >>= fun s =>
        if s.2 then ((s.1.removeUnreachable r).simplify >>= fun g'' => .ok (some g'')) else .ok none) := rfl
  rw [hy, view, mapLeaf_root]
  refine (Runs.liftSim (V := fun h' _ => h' = h) (den := fun _ a => a) (by cases g.root <;> rfl) (fun _ _ => rfl)).bindSim ?_
  rintro h' r he rfl
  rw [mapLeaf_bottomUp]
  refine (Runs.foldlSim (f := OnHeap.marginalUnit vs) (k := marginalUnit vs) (V := fun h s => Owns Q h s.1)
    (den := fun h s => (s.1.view h, s.2)) (h0 := h') ?_ (g.bottomUp r) h' (g, false) (Ext.refl _ _) hg).bindSim ?_
  · intro h2 s n he hs
    exact runs_marginalUnit vs n hs
  · rintro h2 ⟨g2, b⟩ he hs
    cases b with
    | false => exact Runs.ret ⟨by simp, rfl⟩
    | true =>
      simp only [if_true]
      rw [view, mapLeaf_removeUnreachable, mapLeaf_simplify]
      refine (Runs.liftSim (V := fun h3 g' => Owns Q h3 g' ∧ h3 = h2) (den := fun _ g' => g'.mapLeaf h2.read) rfl ?_).bindSim ?_
      · intro g' hg'
        refine ⟨fun q hq => hs q ?_, rfl⟩
        exact refs_natural (op := fun g => (g.removeUnreachable r).simplify)
          (fun f g => by rw [mapLeaf_removeUnreachable, mapLeaf_simplify]) hg' q hq
      · rintro h3 g' he3 ⟨ho, rfl⟩
        exact Runs.ret ⟨fun g'' hg'' => by injection hg'' with hg''; exact hg'' ▸ ho, rfl⟩

end PM.Graph
