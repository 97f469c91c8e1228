import Verif.Circuit.CondPass

/-! Helper lemmas: the invariant of the conditioning pass on arbitrary layered circuits. -/

namespace PM

open Spec MeasureTheory

namespace Graph

/-- The state of the pass: `rep n` is the unit that stands for the unit `n` of the original circuit. -/
structure CInv (g : Circuit) (P : Node → ℝ) (r : Node) (todo : List Node) (h : Circuit) (m : Mem LogP)
    (rep : Node → Node) : Prop where
  wf : h.WF
  below : ∀ c ∈ g.ids, c < h.fresh
  repMem : ∀ c ∈ g.ids, rep c ∈ h.ids
  repId : ∀ c ∈ g.ids, rep c = c ∨ rep c ∉ g.ids
  kindTodo : ∀ c ∈ todo, h.kind? c = g.kind? c ∧ rep c = c
  inner : ∀ c k, g.kind? c = some k → (∀ d, k ≠ .leaf d) → h.kind? c = some k ∧ rep c = c ∧
    (h.outEdges c).Perm ((g.outEdges c).map fun e => { e with dst := rep e.dst })
  done : ∀ c ∈ g.ids, c ∉ todo → ∃ p, m (rep c) = some p ∧ p.exp = P c
  root : ∀ e ∈ h.edges, e.dst ≠ rep r

/-- The local rule of `log_forward` on a unit whose out-edges are a renamed permutation of those of `g`. -/
theorem evalUnit_forward {g h : Circuit} {P : Node → ℝ} {ℓ : Leaf → ℝ} (hP : CircuitValue g ℓ P) (hwt : Weighted g)
    (hne : ∀ n, g.kind? n = some .sum → g.succ n ≠ []) {rep : Node → Node} {m : Mem LogP} {n : Node} {k : Kind Leaf}
    (hk : g.kind? n = some k) (hkl : ∀ d, k ≠ .leaf d) (hk' : h.kind? n = some k)
    (hperm : (h.outEdges n).Perm ((g.outEdges n).map fun e => { e with dst := rep e.dst }))
    (hch : ∀ e ∈ g.outEdges n, ∃ p, m (rep e.dst) = some p ∧ p.exp = P e.dst) :
    ∃ v, h.evalUnit logForwardAlg m n = .ok v ∧ v.exp = P n := by
  set val : Node → LogP := fun c => (m c).getD 0 with hval
  have hm : ∀ c ∈ h.succ n, m c = some (val c) := by
    intro c hc
    obtain ⟨e, he, rfl⟩ := List.mem_map.1 hc
    obtain ⟨e0, he0, rfl⟩ := List.mem_map.1 (hperm.mem_iff.1 he)
    obtain ⟨p, hp, _⟩ := hch e0 he0
    simp only [hval, hp, Option.getD_some]
  have hexp : ∀ e ∈ g.outEdges n, (val (rep e.dst)).exp = P e.dst := by
    intro e he
    obtain ⟨p, hp, hpe⟩ := hch e he
    simp only [hval, hp, Option.getD_some, hpe]
  cases k with
  | leaf d => exact absurd rfl (hkl d)
  | sum =>
    have hw' : ∀ e ∈ h.outEdges n, e.weight.isSome := by
      intro e he
      obtain ⟨e0, he0, rfl⟩ := List.mem_map.1 (hperm.mem_iff.1 he)
      exact hwt n hk e0 he0
    have hnil : h.outEdges n ≠ [] := by
      intro h0
      rw [h0] at hperm
      have := hperm.nil_eq
      apply hne n hk
      unfold succ
      have h1 : g.outEdges n = [] := by simpa using this.symm
      rw [h1]; rfl
    simp only [evalUnit, hk']
    rw [mapM_readWeight_ok hw', mapM_readResult_ok hm]
    refine ⟨LogP.logsumexp (((h.outEdges n).map fun e => (e.weight.getD 0, val e.dst)).map fun wv => wv.1 + wv.2), ?_, ?_⟩
    · show (logForwardAlg (D := Leaf)).sum (((h.outEdges n).map fun e => e.weight.getD 0).zip ((h.succ n).map val)) = _
      rw [zip_map_out]
      simp only [logForwardAlg]
      rw [if_neg (by simpa using hnil)]
    · rw [LogP.exp_logsumexp, List.map_map, List.map_map, hP.sum n hk]
      rw [(hperm.map _).sum_eq, List.map_map]
      congr 1
      apply List.map_congr_left
      intro e he
      simp only [Function.comp, LogP.exp_add]
      rw [log_exp_getD (hwt n hk e he), hexp e he]
  | prod =>
    simp only [evalUnit, hk']
    rw [mapM_readResult_ok hm]
    refine ⟨((h.succ n).map val).foldr (· + ·) 0, rfl, ?_⟩
    rw [exp_foldr_add, hP.prod n hk, succ, List.map_map, List.map_map, (hperm.map _).prod_eq, List.map_map]
    congr 1
    apply List.map_congr_left
    intro e he
    exact hexp e he

variable {g : Circuit} {r : Node} {E : SimpleEvent} {B : Var → Set ℝ} {P : Node → ℝ}

theorem conditionUnit_step (hL : Layered g r) (hne : ∀ n, g.kind? n = some .sum → g.succ n ≠ [])
    (hP : CircuitValue g (fun d => (leafLaw d).real (B d.var)) P)
    (hleaf : ∀ n d, g.kind? n = some (.leaf d) → ∃ A c, E.get d.var = .ok A ∧ d.condInPlace A = .ok c ∧
      CondSpec d (B d.var) c)
    {n : Node} {todo : List Node} (hnt : n ∉ todo) (htodo : ∀ c ∈ todo, c ∈ g.ids) (hn : n ∈ g.ids)
    (hch : ∀ c ∈ g.succ n, c ≠ n ∧ c ∉ todo) {h : Circuit} {m : Mem LogP} {rep : Node → Node}
    (hI : CInv g P r (n :: todo) h m rep) :
    ∃ h' m' rep', conditionUnit E (h, m) n = .ok (h', m') ∧ CInv g P r todo h' m' rep' := by
  obtain ⟨k, hk⟩ := exists_kind? hn
  obtain ⟨hkh, hrn⟩ := hI.kindTodo n (by simp)
  have hrepn : ∀ c ∈ g.ids, c ≠ n → rep c ≠ n := by
    intro c hc hcn h'
    rcases hI.repId c hc with h1 | h1
    · exact hcn (h1.symm.trans h')
    · rw [h'] at h1; exact h1 hn
  -- setting the result of `n` and possibly its distribution
  have simple : ∀ (p : LogP), p.exp = P n → ∀ h', h'.edges = h.edges → h'.ids = h.ids → h'.WF →
      (∀ c, c ≠ n → h'.kind? c = h.kind? c) → ((∀ d, k ≠ .leaf d) → h'.kind? n = h.kind? n) →
      CInv g P r todo h' (m.set n p) rep := by
    intro p hp h' he hi hw' hk1 hk2
    have hout : ∀ c, h'.outEdges c = h.outEdges c := fun c => by unfold outEdges; rw [he]
    refine ⟨hw', fun c hc => by rw [fresh_eq_of_ids hi]; exact hI.below c hc, fun c hc => by rw [hi]; exact hI.repMem c hc,
      hI.repId, ?_, ?_, ?_, by rw [he]; exact hI.root⟩
    · intro c hc
      have hcn : c ≠ n := fun h => hnt (h ▸ hc)
      rw [hk1 c hcn]
      exact hI.kindTodo c (by simp [hc])
    · intro c k' hk' hkl
      obtain ⟨h1, h2, h3⟩ := hI.inner c k' hk' hkl
      refine ⟨?_, h2, by rw [hout]; exact h3⟩
      by_cases hcn : c = n
      · subst hcn
        rw [hk] at hk'
        cases hk'
        rw [hk2 hkl]; exact h1
      · rw [hk1 c hcn]; exact h1
    · intro c hc hct
      by_cases hcn : c = n
      · subst hcn
        exact ⟨p, by rw [hrn, Mem.set_same], hp⟩
      · rw [Mem.set_other _ _ (hrepn c hc hcn)]
        exact hI.done c hc (by simp [hcn, hct])
  have inner : (∀ d, k ≠ .leaf d) → ∃ v, h.evalUnit logForwardAlg m n = .ok v ∧ v.exp = P n := by
    intro hkl
    obtain ⟨h1, h2, h3⟩ := hI.inner n k hk hkl
    refine evalUnit_forward hP hL.weighted hne hk hkl h1 h3 ?_
    intro e he
    have hc := dst_mem_succ he
    obtain ⟨a, b⟩ := hch _ hc
    exact hI.done _ (succ_mem_ids hL.wf hc) (by simp [a, b])
  have hkn : h.kind? n = some k := by rw [hkh, hk]
  cases k with
  | sum =>
    obtain ⟨v, hv, hve⟩ := inner (by simp)
    refine ⟨h, m.set n v, rep, ?_, simple v hve h rfl rfl hI.wf (fun _ _ => rfl) (fun _ => rfl)⟩
    simp only [conditionUnit, hkn, hv]
    rfl
  | prod =>
    obtain ⟨v, hv, hve⟩ := inner (by simp)
    refine ⟨h, m.set n v, rep, ?_, simple v hve h rfl rfl hI.wf (fun _ _ => rfl) (fun _ => rfl)⟩
    simp only [conditionUnit, hkn, hv]
    rfl
  | leaf d =>
    obtain ⟨A, c, hA, hc, hcs⟩ := hleaf n d hk
    have hPn : P n = (leafLaw d).real (B d.var) := hP.leaf n d hk
    have hnh : n ∈ h.ids := by rw [← hrn]; exact hI.repMem n hn
    cases c with
    | impossible =>
      refine ⟨h, m.set n .negInf, rep, ?_, simple _ ?_ h rfl rfl hI.wf (fun _ _ => rfl) (fun _ => rfl)⟩
      · simp only [conditionUnit, hkn, hA]
        show (do let c ← d.condInPlace A; _ : Except PyErr _) = _
        rw [hc]; rfl
      · rw [hPn]; simpa using (show (leafLaw d).real (B d.var) = 0 from hcs).symm
    | one d' p =>
      refine ⟨h.setLeaf n d', m.set n p, rep, ?_, simple p ?_ _ rfl (ids_setLeaf _ _ _) (hI.wf.setLeaf _ _) ?_ ?_⟩
      · simp only [conditionUnit, hkn, hA]
        show (do let c ← d.condInPlace A; _ : Except PyErr _) = _
        rw [hc]; rfl
      · rw [hPn]; exact hcs.1
      · intro c hcn
        rw [kind?_setLeaf hnh, if_neg hcn]
      · intro h'; exact absurd rfl (h' d)
    | several ps =>
      obtain ⟨hps, hsum, hpos⟩ := hcs
      obtain ⟨h', hh', hX⟩ := expandLeaf_spec hI.wf hnh hps
      refine ⟨h', fun k => if k = h.fresh then some (LogP.log (ps.map fun q => q.2.exp).sum)
        else if h.fresh < k then none else m k, fun c => if c = n then h.fresh else rep c, ?_, ?_⟩
      · simp only [conditionUnit, hkn, hA]
        show (do let c ← d.condInPlace A; _ : Except PyErr _) = _
        rw [hc]
        show (do let g' ← h.expandLeaf n ps; _ : Except PyErr _) = _
        rw [hh']; rfl
      refine ⟨hX.wf, ?_, ?_, ?_, ?_, ?_, ?_, ?_⟩
      · intro c hc
        exact (hI.below c hc).trans (lt_fresh hX.freshMem)
      · intro c hc
        by_cases hcn : c = n
        · simp only [hcn, if_true]; exact hX.freshMem
        · simp only [hcn, if_false]
          exact hX.mem _ (hI.repMem c hc) (hrepn c hc hcn)
      · intro c hc
        by_cases hcn : c = n
        · simp only [hcn, if_true]
          right; intro hf
          have := hI.below _ hf
          nomega
        · simp only [hcn, if_false]; exact hI.repId c hc
      · intro c hc
        have hcn : c ≠ n := fun h => hnt (h ▸ hc)
        obtain ⟨h1, h2⟩ := hI.kindTodo c (by simp [hc])
        simp only [hcn, if_false]
        refine ⟨?_, h2⟩
        have hch : c ∈ h.ids := by rw [← h2]; exact hI.repMem c (htodo c hc)
        rw [hX.kind c hch hcn, h1]
      · intro c k' hk' hkl
        have hcn : c ≠ n := by
          rintro rfl
          rw [hk] at hk'; cases hk'; exact hkl d rfl
        obtain ⟨h1, h2, h3⟩ := hI.inner c k' hk' hkl
        have hch : c ∈ h.ids := mem_ids_of_kind? h1
        refine ⟨by rw [hX.kind c hch hcn]; exact h1, by simp only [hcn, if_false]; exact h2, ?_⟩
        refine (hX.out c hch hcn).trans ((h3.map _).trans ?_)
        rw [List.map_map]
        apply List.Perm.of_eq
        apply List.map_congr_left
        intro e he
        simp only [Function.comp]
        have hed : e.dst ∈ g.ids := succ_mem_ids hL.wf (dst_mem_succ he)
        by_cases hen : e.dst = n
        · rw [hen, hrn]; simp
        · have := hrepn _ hed hen
          simp [hen, this]
      · intro c hc hct
        by_cases hcn : c = n
        · simp only [hcn, if_true]
          refine ⟨_, rfl, ?_⟩
          rw [hsum, LogP.exp_log hpos.le, ← hPn]
        · simp only [hcn, if_false]
          have h1 := hI.done c hc (by simp [hcn, hct])
          have h2 := lt_fresh (hI.repMem c hc)
          have h3 : rep c ≠ h.fresh := by nomega
          have h4 : ¬ h.fresh < rep c := by nomega
          simp only [h3, h4, if_false]
          exact h1
      · have hrg := (root_mem hL.root).1
        have hrr := hI.root
        intro e he
        by_cases hrn' : r = n
        · simp only [hrn', if_true]
          rcases hX.dst e he with ⟨e', he', h1, h2⟩ | h1 | ⟨h1, e', he', h2⟩
          · have := lt_fresh (hI.wf.dstMem e' he'); nomega
          · nomega
          · have := hrr e' he'
            rw [hrn', hrn] at this
            exact absurd h2 this
        · simp only [hrn', if_false]
          have hlt := lt_fresh (hI.repMem r hrg)
          rcases hX.dst e he with ⟨e', he', h1, h2⟩ | h1 | ⟨h1, e', he', h2⟩
          · rw [← h1]; exact hrr e' he'
          · nomega
          · nomega

theorem conditionFold (hL : Layered g r) (hne : ∀ n, g.kind? n = some .sum → g.succ n ≠ [])
    (hP : CircuitValue g (fun d => (leafLaw d).real (B d.var)) P)
    (hleaf : ∀ n d, g.kind? n = some (.leaf d) → ∃ A c, E.get d.var = .ok A ∧ d.condInPlace A = .ok c ∧
      CondSpec d (B d.var) c) (m : Mem LogP) :
    ∃ h m' rep, (g.bottomUp r).foldlM (conditionUnit E) (g, m) = .ok (h, m') ∧ CInv g P r [] h m' rep := by
  obtain ⟨depth, hd⟩ := id hL.graded
  obtain ⟨hnd, hsort⟩ := bottomUp_order hL hd
  have hmem : ∀ n ∈ g.bottomUp r, n ∈ g.ids := fun n hn => (bottomUp_mem hL).1 hn
  have key : ∀ (todo : List Node) (h : Circuit) (m : Mem LogP) (rep : Node → Node), todo.Nodup →
      todo.Pairwise (fun a b => depth b ≤ depth a) → (∀ n ∈ todo, n ∈ g.ids) → CInv g P r todo h m rep →
      ∃ h' m' rep', todo.foldlM (conditionUnit E) (h, m) = .ok (h', m') ∧ CInv g P r [] h' m' rep' := by
    intro todo
    induction todo with
    | nil => intro h m rep _ _ _ hI; exact ⟨h, m, rep, rfl, hI⟩
    | cons n todo ih =>
      intro h m rep h1 h2 h3 hI
      obtain ⟨h1a, h1b⟩ := List.nodup_cons.1 h1
      obtain ⟨h2a, h2b⟩ := List.pairwise_cons.1 h2
      obtain ⟨h', m', rep', hs, hI'⟩ := conditionUnit_step hL hne hP hleaf h1a (fun c hc => h3 c (by simp [hc]))
        (h3 n (by simp)) (by
          intro c hc
          obtain ⟨e, he, hes, rfl⟩ := mem_succ.1 hc
          have := hd e he
          refine ⟨fun h => ?_, fun h => ?_⟩
          · rw [← h] at hes; rw [hes] at this; omega
          · have := h2a _ h; rw [hes] at *; omega) hI
      obtain ⟨h'', m'', rep'', hs', hI''⟩ := ih h' m' rep' h1b h2b (fun c hc => h3 c (by simp [hc])) hI'
      refine ⟨h'', m'', rep'', ?_, hI''⟩
      rw [List.foldlM_cons, hs]
      exact hs'
  refine key _ g m id hnd hsort hmem ⟨hL.wf, fun c hc => lt_fresh hc, fun c hc => hc, fun c _ => .inl rfl,
    fun c _ => ⟨rfl, rfl⟩, fun c k hk _ => ⟨hk, rfl, by simp⟩, fun c hc hct => absurd ((bottomUp_mem hL).2 hc) hct, ?_⟩
  intro e he h0
  have := (root_mem hL.root).2
  exact inEdges_eq_nil.1 this e he h0

/-- The answer of `log_conditional_of_simple_event_in_place`, if it does not raise. -/
theorem conditionSimple_sound (hL : Layered g r) (hne : ∀ n, g.kind? n = some .sum → g.succ n ≠ [])
    (hP : CircuitValue g (fun d => (leafLaw d).real (B d.var)) P)
    (hleaf : ∀ n d, g.kind? n = some (.leaf d) → ∃ A c, E.get d.var = .ok A ∧ d.condInPlace A = .ok c ∧
      CondSpec d (B d.var) c) {m : Mem LogP} {res : Option (Circuit × Mem LogP)} {p : LogP}
    (h : g.conditionSimple m E = .ok (res, p)) : p.exp = P r ∧ (res = none ↔ P r = 0) := by
  obtain ⟨h1, m1, rep, hfold, hI⟩ := conditionFold hL hne hP hleaf m
  unfold conditionSimple at h
  rw [hL.root] at h
  change (do let s ← (g.bottomUp r).foldlM (conditionUnit E) (g, m); _ : Except PyErr _) = _ at h
  rw [hfold] at h
  change (do let r1 ← h1.root; _ : Except PyErr _) = _ at h
  have hrg := (root_mem hL.root).1
  obtain ⟨q, hq, hqe⟩ := hI.done r hrg (by simp)
  cases hr1 : h1.root with
  | error e => rw [hr1] at h; cases h
  | ok r1 =>
    have hrr : r1 = rep r := by
      unfold Graph.root at hr1
      have : rep r ∈ h1.ids.filter (fun n => h1.inDegree n == 0) := by
        rw [List.mem_filter]
        refine ⟨hI.repMem r hrg, ?_⟩
        have : h1.inEdges (rep r) = [] := inEdges_eq_nil.2 hI.root
        simp [inDegree, this]
      cases hf : h1.ids.filter (fun n => h1.inDegree n == 0) with
      | nil => rw [hf] at this; simp at this
      | cons a l =>
        rw [hf] at hr1 this
        cases l with
        | nil => simp only [Except.ok.injEq] at hr1; rw [← hr1]; exact (List.mem_singleton.1 this).symm
        | cons b l => cases hr1
    rw [hr1] at h
    have hmem : r1 ∈ h1.bottomUp r1 := List.mem_of_getLast? (bottomUp_getLast (root_mem hr1).1)
    have hm1 : m1 r1 = some q := by rw [hrr]; exact hq
    simp only [bind, Except.bind] at h
    by_cases hz : q = .negInf
    · have hdead : r1 ∈ (h1.bottomUp r1).filter (impossibleIn m1) := by
        rw [List.mem_filter]; exact ⟨hmem, by simp [impossibleIn, hm1, hz]⟩
      rw [if_pos hdead] at h
      simp only [Except.ok.injEq, Prod.mk.injEq] at h
      obtain ⟨ha, hb⟩ := h
      have : P r = 0 := by rw [← hqe, hz]; rfl
      rw [← ha, ← hb, this]
      simp
    · have hdead : r1 ∉ (h1.bottomUp r1).filter (impossibleIn m1) := by
        rw [List.mem_filter]
        rintro ⟨_, hi⟩
        apply hz
        unfold impossibleIn at hi
        rw [hm1] at hi
        cases q with
        | negInf => rfl
        | fin x => simp at hi
      rw [if_neg hdead] at h
      split at h
      · cases h
      · split at h
        · cases h
        · simp only [readResult, hm1, Except.ok.injEq, Prod.mk.injEq] at h
          obtain ⟨ha, hb⟩ := h
          have hp0 : P r ≠ 0 := by rw [← hqe]; exact fun h0 => hz (LogP.exp_eq_zero.1 h0)
          refine ⟨by rw [← hb, hqe], ?_⟩
          rw [← ha]
          simp [hp0]

end Graph
end PM
