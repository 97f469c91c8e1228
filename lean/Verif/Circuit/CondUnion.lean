import Verif.Circuit.CondPruned
import Verif.Circuit.Neat
import Verif.Circuit.InteractionLemmas

/-!
Helper lemmas: what conditioning a tree on several simple events computes.
-/

namespace PM.Graph

open Spec MeasureTheory

/-- If no leaf falls into pieces and the event is impossible, conditioning returns `None`. -/
theorem conditionSimple_dead {g : Circuit} {r : Node} {E : SimpleEvent} {B : Var → Set ℝ} {P : Node → ℝ} (hL : Layered g r)
    (hne : ∀ n, g.kind? n = some .sum → g.succ n ≠ [])
    (hP : CircuitValue g (fun d => (leafLaw d).real (B d.var)) P) (hU : Unsplit g E B) (h0 : P r = 0) (m : Mem LogP) :
    g.conditionSimple m E = .ok (none, .negInf) := by
  obtain ⟨m', hfold, hm'⟩ := unsplitFold hL hne hP hU m
  set g1 := g.mapLeavesOn (newLeaf E) (fun _ => true) with hg1
  have hid : g1.ids = g.ids := ids_mapLeavesOn _ _ _
  have hr1 : g1.root = .ok r := by
    have := hL.root
    unfold root at this ⊢
    rw [hid]; exact this
  have hbu : g1.bottomUp r = g.bottomUp r := by
    unfold bottomUp layersFrom
    have hlen : g1.nodes.length = g.nodes.length := by simp [hg1, Graph.mapLeavesOn]
    rw [hlen, bfsLoop_congr (show g1.edges = g.edges from rfl)]
  have hrm := (root_mem hL.root).1
  obtain ⟨p, hp, hpe⟩ := hm' r hrm
  unfold conditionSimple
  rw [hL.root]
  change (do let s ← (g.bottomUp r).foldlM (conditionUnit E) (g, m); _ : Except PyErr _) = _
  rw [hfold]
  change (do let r1 ← g1.root; _ : Except PyErr _) = _
  rw [hr1]
  have hd : r ∈ (g1.bottomUp r).filter (impossibleIn m') := by
    rw [List.mem_filter, hbu, bottomUp_mem hL]
    refine ⟨hrm, ?_⟩
    have : p = .negInf := LogP.exp_eq_zero.1 (hpe.trans h0)
    unfold impossibleIn
    rw [hp, this]
  simp only [bind, Except.bind]
  rw [if_pos hd]

/-! ### Mounting conditional circuits below a new sum unit -/

section mounting

variable {g h : Circuit} {r u o : Node} {W : LogP}

/-- What one step of the loop in `log_conditional_in_place` builds. -/
theorem layered_mountBelow (hg : Layered g r) (hh : Layered h o) (hu : u ∈ g.ids) (hk : g.kind? u = some .sum) :
    Layered (g.mountBelow u h o W) r ∧
      (∀ n, n ∈ (g.mountBelow u h o W).ids ↔ n ∈ g.ids ∨ n ∈ (h.copyAt g.fresh).ids) ∧
      (∀ n ∈ g.ids, (g.mountBelow u h o W).kind? n = g.kind? n) ∧
      (∀ n ∈ (h.copyAt g.fresh).ids, (g.mountBelow u h o W).kind? n = (h.copyAt g.fresh).kind? n) ∧
      (∀ n ∈ g.ids, n ≠ u → (g.mountBelow u h o W).outEdges n = g.outEdges n) ∧
      (∀ n ∈ (h.copyAt g.fresh).ids, (g.mountBelow u h o W).outEdges n = (h.copyAt g.fresh).outEdges n) ∧
      (g.mountBelow u h o W).outEdges u = g.outEdges u ++ [⟨u, g.fresh + o, some W⟩] := by
  have hh' := Layered.copyAt hh g.fresh
  have hd : DisjointIds g (h.copyAt g.fresh) := by
    intro n hn hn'
    obtain ⟨m, _, hm⟩ := exists_of_mem_copyAt hn'
    have := lt_fresh hn
    nomega
  have heq : g.mountBelow u h o W = ⟨g.nodes ++ (h.copyAt g.fresh).nodes, g.edges ++ (h.copyAt g.fresh).edges ++
      [⟨u, g.fresh + o, some W⟩]⟩ := by
    unfold mountBelow
    rw [removeUnreachable_eq hh.wf hh.graded hh.root]
  generalize h.copyAt g.fresh = h' at hh' hd heq ⊢
  generalize g.fresh + o = o' at hh' heq ⊢
  rw [heq]
  clear heq
  set k : Circuit := ⟨g.nodes ++ h'.nodes, g.edges ++ h'.edges ++ [⟨u, o', some W⟩]⟩ with hkdef
  have ho := (root_mem hh'.root).1
  have hidl : k.ids = g.ids ++ h'.ids := by simp [hkdef, ids]
  have hids : ∀ n, n ∈ k.ids ↔ n ∈ g.ids ∨ n ∈ h'.ids := by intro n; rw [hidl, List.mem_append]
  have hkl : ∀ n ∈ g.ids, k.kind? n = g.kind? n := by
    intro n hn
    obtain ⟨K, hK⟩ := exists_kind? hn
    rw [hK]
    unfold kind? at hK ⊢
    simp only [hkdef, List.find?_append]
    cases hf : g.nodes.find? (fun p => p.1 == n) with
    | none => rw [hf] at hK; cases hK
    | some x => rw [hf] at hK; simpa using hK
  have hkr : ∀ n ∈ h'.ids, k.kind? n = h'.kind? n := by
    intro n hn
    have hn' : n ∉ g.ids := fun hc => hd n hc hn
    unfold kind?
    simp only [hkdef, List.find?_append]
    have : g.nodes.find? (fun p => p.1 == n) = none := by
      rw [List.find?_eq_none]
      intro x hx hxn
      exact hn' (List.mem_map.2 ⟨x, hx, by simpa using hxn⟩)
    rw [this, Option.none_or]
  have hnil : ∀ (k : Circuit), k.WF → ∀ n, n ∉ k.ids → k.edges.filter (fun e => e.src == n) = [] := by
    intro k hw n hn
    rw [List.filter_eq_nil_iff]
    intro e he hs
    exact hn (by rw [← beq_iff_eq.1 hs]; exact hw.srcMem e he)
  have hol : ∀ n ∈ g.ids, n ≠ u → k.outEdges n = g.outEdges n := by
    intro n hn hne
    simp only [outEdges, hkdef, List.filter_append]
    rw [hnil h' hh'.wf n (hd n hn)]
    simp [Ne.symm hne]
  have hor : ∀ n ∈ h'.ids, k.outEdges n = h'.outEdges n := by
    intro n hn
    simp only [outEdges, hkdef, List.filter_append]
    rw [hnil g hg.wf n (fun hc => hd n hc hn)]
    have hne : u ≠ n := fun h => hd u hu (h ▸ hn)
    simp [hne]
  have hos : k.outEdges u = g.outEdges u ++ [⟨u, o', some W⟩] := by
    simp only [outEdges, hkdef, List.filter_append]
    rw [hnil h' hh'.wf u (hd u hu)]
    simp
  have hwf : k.WF := by
    refine ⟨?_, ?_, ?_, ?_⟩
    · rw [hidl, List.nodup_append]
      exact ⟨hg.wf.nodup, hh'.wf.nodup, fun a ha b hb hab => hd a ha (hab ▸ hb)⟩
    · simp only [hkdef, List.map_append, List.map_cons, List.map_nil]
      rw [List.append_assoc, List.nodup_append, List.nodup_append]
      refine ⟨hg.wf.edgeNodup, ⟨hh'.wf.edgeNodup, by simp, ?_⟩, ?_⟩
      · intro a ha b hb hab
        obtain ⟨e, he, rfl⟩ := List.mem_map.1 ha
        simp only [List.mem_singleton] at hb
        subst hb
        simp only [Prod.mk.injEq] at hab
        exact hd u hu (hab.1 ▸ hh'.wf.srcMem e he)
      · intro a ha b hb hab
        obtain ⟨e, he, rfl⟩ := List.mem_map.1 ha
        rcases List.mem_append.1 hb with hb | hb
        · obtain ⟨e', he', rfl⟩ := List.mem_map.1 hb
          simp only [Prod.mk.injEq] at hab
          exact hd e.src (hg.wf.srcMem e he) (hab.1 ▸ hh'.wf.srcMem e' he')
        · simp only [List.mem_singleton] at hb
          subst hb
          simp only [Prod.mk.injEq] at hab
          exact hd e.dst (hg.wf.dstMem e he) (hab.2 ▸ ho)
    · intro e he
      rw [hids]
      simp only [hkdef, List.mem_append, List.mem_singleton] at he
      rcases he with (he | he) | rfl
      · exact .inl (hg.wf.srcMem e he)
      · exact .inr (hh'.wf.srcMem e he)
      · exact .inl hu
    · intro e he
      rw [hids]
      simp only [hkdef, List.mem_append, List.mem_singleton] at he
      rcases he with (he | he) | rfl
      · exact .inl (hg.wf.dstMem e he)
      · exact .inr (hh'.wf.dstMem e he)
      · exact .inr ho
  exact ⟨layered_join hg hh' hd hu (by intro d; rw [hk]; simp) (fun _ => rfl) hwf hids hkl hkr hol hor hos, hids, hkl, hkr, hol, hor, hos⟩

variable {ι : Type} {G : ι → Circuit} {o : ι → Node} {W : ι → LogP}

/-- What the loop in `log_conditional_in_place` builds. -/
theorem assembled_mountFold {u r : Node} : ∀ (is : List ι) {g : Circuit}, Layered g r → u ∈ g.ids → g.kind? u = some .sum →
    (∀ i ∈ is, Layered (G i) (o i)) → ∃ offs : List ℕ, offs.length = is.length ∧
      Assembled g u (partsOf (fun p : ι × ℕ => (G p.1).copyAt p.2) (fun p => p.2 + o p.1) (fun p => some (W p.1)) (is.zip offs))
        (is.foldl (fun g i => g.mountBelow u (G i) (o i) (W i)) g) r ∧
      (∀ off ∈ offs, ∀ n ∈ g.ids, n < off) ∧
      (is.zip offs).Pairwise fun p q => DisjointIds ((G p.1).copyAt p.2) ((G q.1).copyAt q.2) := by
  intro is
  induction is with
  | nil =>
    intro g hg _ _ _
    exact ⟨[], rfl, ⟨hg, by simp [partsOf], fun _ _ => rfl, by simp [partsOf], fun _ _ _ => rfl, by simp [partsOf], by simp [partsOf]⟩,
      by simp, by simp⟩
  | cons i is ih =>
    intro g hg hu hk hl
    obtain ⟨h1, h2, h3, h4, h5, h6, h7⟩ := layered_mountBelow (W := W i) hg (hl i (by simp)) hu hk
    obtain ⟨offs, hlen, hA, hoff, hp⟩ := ih h1 ((h2 u).2 (.inl hu)) (by rw [h3 u hu]; exact hk) (fun j hj => hl j (by simp [hj]))
    have hux : u ∉ ((G i).copyAt g.fresh).ids := by
      intro hc
      obtain ⟨m, _, hm⟩ := exists_of_mem_copyAt hc
      have := lt_fresh hu
      nomega
    refine ⟨g.fresh :: offs, by simp [hlen], ⟨hA.layered, ?_, ?_, ?_, ?_, ?_, ?_⟩, ?_, ?_⟩
    · intro n
      have := hA.ids n
      rw [h2] at this
      simp only [List.foldl_cons, List.zip_cons_cons, partsOf, List.map_cons, List.mem_cons, exists_eq_or_imp] at this ⊢
      rw [this, or_assoc]
    · intro n hn
      exact (hA.kindL n ((h2 n).2 (.inl hn))).trans (h3 n hn)
    · intro y hy n hn
      simp only [List.zip_cons_cons, partsOf, List.map_cons, List.mem_cons] at hy
      rcases hy with rfl | hy
      · exact (hA.kindL n ((h2 n).2 (.inr hn))).trans (h4 n hn)
      · exact hA.kindR y hy n hn
    · intro n hn hne
      exact (hA.outL n ((h2 n).2 (.inl hn)) hne).trans (h5 n hn hne)
    · intro y hy n hn
      simp only [List.zip_cons_cons, partsOf, List.map_cons, List.mem_cons] at hy
      rcases hy with rfl | hy
      · exact (hA.outL n ((h2 n).2 (.inr hn)) (fun h => hux (h ▸ hn))).trans (h6 n hn)
      · exact hA.outR y hy n hn
    · have := hA.outU
      rw [h7] at this
      simp only [List.foldl_cons, List.zip_cons_cons, partsOf, List.map_cons] at this ⊢
      rw [this]
      simp
    · intro off ho n hn
      rcases List.mem_cons.1 ho with rfl | ho
      · exact lt_fresh hn
      · exact hoff off ho n ((h2 n).2 (.inl hn))
    · rw [List.zip_cons_cons, List.pairwise_cons]
      refine ⟨?_, hp⟩
      intro q hq n hn hn'
      have h5 := hoff q.2 (List.of_mem_zip hq).2 n ((h2 n).2 (.inr hn))
      obtain ⟨m, _, rfl⟩ := exists_of_mem_copyAt hn'
      nomega

theorem mountAll_eq : ∀ (l : List (Circuit × Mem LogP × LogP)) (root : Circuit × Mem LogP × LogP → Node)
    (acc : Circuit × List (LogP × Option LogP)), (∀ x ∈ l, x.1.root = .ok (root x)) →
    mountAll l acc = .ok (l.foldl (fun g x => g.mountBelow 0 x.1 (root x) x.2.2) acc.1, acc.2 ++ l.map fun x => (x.2.2, x.2.1 (root x)))
  | [], _, acc, _ => by simp [mountAll]
  | (h, m, w) :: l, root, acc, hr => by
    have h0 := hr _ (List.mem_cons_self ..)
    simp only at h0
    unfold mountAll
    rw [h0]
    simp only [bind, Except.bind]
    rw [mountAll_eq l root _ fun x hx => hr x (List.mem_cons_of_mem _ hx)]
    simp

/-- Normalizing the new sum unit changes nothing but its weights. -/
theorem assembled_normalize {u : Node} {is : List ι} {g : Circuit} (hne : is ≠ []) (hu : ∀ i ∈ is, u ∉ (G i).ids)
    (hA : Assembled (newUnit u .sum) u (partsOf G o (fun i => some (W i)) is) g u) :
    ∃ g', g.normalizeUnit u = .ok g' ∧
      Assembled (newUnit u .sum) u (partsOf G o (fun i => some (W i - LogP.logsumexp (is.map W))) is) g' u := by
  have hout : g.outEdges u = is.map fun i => ⟨u, o i, some (W i)⟩ := out_assembled hA
  obtain ⟨g', h1, h2, h3, h4, h5⟩ := normalizeUnit_view hA.layered.wf (s := u) (by rw [hout]; simpa using hne)
    (by rw [hout]; intro e he; obtain ⟨i, _, rfl⟩ := List.mem_map.1 he; rfl)
  have hid : g'.ids = g.ids := by unfold ids; rw [h3]
  have hkind : ∀ n, g'.kind? n = g.kind? n := by intro n; unfold kind?; rw [h3]
  rw [hout, List.map_map, List.map_map] at h5
  have h5' : g'.outEdges u = is.map fun i => ⟨u, o i, some (W i - LogP.logsumexp (is.map W))⟩ := h5
  have hsucc : ∀ n, g'.succ n = g.succ n := by
    intro n
    unfold succ
    by_cases hn : n = u
    · subst hn; rw [h5', hout, List.map_map, List.map_map]; rfl
    · rw [h4 n hn]
  have hedge : ∀ e ∈ g'.edges, ∃ e' ∈ g.edges, e'.src = e.src ∧ e'.dst = e.dst := by
    intro e he
    have : e.dst ∈ g.succ e.src := by rw [← hsucc]; exact mem_succ.2 ⟨e, he, rfl, rfl⟩
    obtain ⟨e', h1, h2, h3⟩ := mem_succ.1 this
    exact ⟨e', h1, h2, h3⟩
  have hedge' : ∀ e ∈ g.edges, ∃ e' ∈ g'.edges, e'.src = e.src ∧ e'.dst = e.dst := by
    intro e he
    have : e.dst ∈ g'.succ e.src := by rw [hsucc]; exact mem_succ.2 ⟨e, he, rfl, rfl⟩
    obtain ⟨e', h1, h2, h3⟩ := mem_succ.1 this
    exact ⟨e', h1, h2, h3⟩
  have hL : Layered g' u := by
    refine ⟨h2, ?_, ?_, ?_, ?_⟩
    · obtain ⟨dep, hdep⟩ := hA.layered.graded
      refine ⟨dep, fun e he => ?_⟩
      obtain ⟨e', h1, h2, h3⟩ := hedge e he
      rw [← h2, ← h3]
      exact hdep e' h1
    · intro n d hk
      rw [hsucc]
      exact hA.layered.leaves n d (by rw [← hkind]; exact hk)
    · intro n hk e he
      by_cases hn : n = u
      · subst hn
        rw [h5'] at he
        obtain ⟨i, _, rfl⟩ := List.mem_map.1 he
        rfl
      · rw [h4 n hn] at he
        exact hA.layered.weighted n (by rw [← hkind]; exact hk) e he
    · have hin : ∀ (k : Circuit) n, k.inEdges n = [] ↔ ∀ e ∈ k.edges, e.dst ≠ n := by
        intro k n
        unfold inEdges
        rw [List.filter_eq_nil_iff]
        simp
      obtain ⟨hr1, hr2⟩ := root_mem hA.layered.root
      refine root_of h2 (by rw [hid]; exact hr1) ((hin g' u).2 ?_) ?_
      · intro e he
        obtain ⟨e', h1, _, h3⟩ := hedge e he
        rw [← h3]
        exact (hin g u).1 hr2 e' h1
      · intro n hn h0
        refine root_unique hA.layered.root (by rw [← hid]; exact hn) ((hin g n).2 ?_)
        intro e he
        obtain ⟨e', h1, _, h3⟩ := hedge' e he
        rw [← h3]
        exact (hin g' n).1 h0 e' h1
  refine ⟨g', h1, ⟨hL, ?_, ?_, ?_, ?_, ?_, ?_⟩⟩
  · intro n
    rw [hid, hA.ids n]
    simp [partsOf]
  · intro n hn; rw [hkind]; exact hA.kindL n hn
  · intro x hx n hn
    obtain ⟨i, hi, rfl⟩ := List.mem_map.1 hx
    rw [hkind]
    exact hA.kindR _ (List.mem_map.2 ⟨i, hi, rfl⟩) n hn
  · intro n hn hne'; rw [h4 n hne']; exact hA.outL n hn hne'
  · intro x hx n hn
    obtain ⟨i, hi, rfl⟩ := List.mem_map.1 hx
    have hR := hA.outR _ (List.mem_map.2 ⟨i, hi, rfl⟩) n hn
    have hnu : n ≠ u := fun h => hu i hi (h ▸ hn)
    rw [h4 n hnu]
    exact hR
  · rw [h5']
    simp [partsOf]

theorem denotes_assembled_sum {u : Node} {w : ι → Option LogP} {is : List ι} {F : ι → (Leaf → ℝ) → ℝ} {U : Finset Var} {g : Circuit}
    (hA : Assembled (newUnit u .sum) u (partsOf G o w is) g u) (hne : is ≠ []) (hd : ∀ i ∈ is, Denotes (G i) (o i) U (F i))
    (hu : ∀ i ∈ is, u ∉ (G i).ids) (hp : is.Pairwise fun i j => DisjointIds (G i) (G j)) :
    Denotes g u U (fun ℓ => (is.map fun i => linWeight ⟨u, o i, w i⟩ * F i ℓ).sum) := by
  classical
  refine ⟨hA.layered, ?_, ?_, ?_⟩
  · have hsc : ∃ sc : ι → Node → Finset Var, ∀ i ∈ is, Scoped (G i) (sc i) ∧ Decomposable (G i) (sc i) ∧ sc i (o i) = U := by
      refine ⟨fun i => if hi : i ∈ is then (hd i hi).scope.choose else fun _ => ∅, fun i hi => ?_⟩
      simp only [hi, dif_pos]
      exact (hd i hi).scope.choose_spec
    obtain ⟨sc, hsc⟩ := hsc
    obtain ⟨s, hsu, hs⟩ := exists_scope U sc hu hp
    obtain ⟨h1, h2⟩ := scoped_assembled (by simp) hA (fun i hi => (hd i hi).layered.wf) hs (fun i hi => (hsc i hi).1)
      (fun i hi => (hsc i hi).2.1) (fun _ => hne)
      (fun _ i hi => by rw [hs i hi _ (root_mem (hd i hi).layered.root).1, (hsc i hi).2.2, hsu])
      (fun h => by cases h)
    exact ⟨s, h1, h2, hsu⟩
  · exact valid_assembled (by simp) hA fun i hi => (hd i hi).valid
  · intro ℓ f hf
    rw [hf.sum u (kind_assembled hA), out_assembled hA, List.map_map]
    congr 1
    apply List.map_congr_left
    intro i hi
    simp only [Function.comp]
    rw [(hd i hi).value ℓ f (value_assembled hA hf hi)]

end mounting

/-! ### Several simple events -/

section union

variable {ι : Type} {φ : ι → SimpleEvent} {g : Circuit} {G : ι → Circuit} {M : ι → Mem LogP} {p q : ι → LogP} {o : ι → Node}
  {F : ι → (Leaf → ℝ) → ℝ} {V : Finset Var}

/-- The answer for a possible simple event. -/
structure Piece (g G : Circuit) (M : Mem LogP) (p q : LogP) (o : Node) (V : Finset Var) (F : (Leaf → ℝ) → ℝ) (E : SimpleEvent) : Prop where
  answer : g.conditionSimple freshMem E = .ok (some (G, M), p)
  possible : p ≠ .negInf
  denotes : Denotes G o V F
  neat : Neat G
  stored : M o = some q

theorem possible_answers (live : ι → Bool) : ∀ Es : List ι, (∀ E ∈ Es, live E = true → p E ≠ .negInf) →
    possible (Es.map fun E => if live E then (some (G E, M E), p E) else (none, .negInf))
      = (Es.filter live).map fun E => (G E, M E, p E)
  | [], _ => rfl
  | E :: Es, h => by
    have ih := possible_answers live Es fun E hE => h E (by simp [hE])
    rw [List.map_cons]
    by_cases hE : live E = true
    · rw [List.filter_cons_of_pos hE, List.map_cons, ← ih]
      simp only [hE, if_true, possible]
      cases hp : p E with
      | negInf => exact absurd hp (h E (by simp) hE)
      | fin x => simp
    · rw [List.filter_cons_of_neg hE, ← ih]
      simp only [hE, Bool.false_eq_true, if_false, possible]

theorem mapM_ok_of {α β : Type} {f : α → Except PyErr β} {φ : α → β} : ∀ l : List α, (∀ x ∈ l, f x = .ok (φ x)) → l.mapM f = .ok (l.map φ)
  | [], _ => rfl
  | x :: l, h => by
    rw [List.mapM_cons, h x (by simp), mapM_ok_of l fun y hy => h y (by simp [hy])]
    rfl

theorem mapM_map_ok {α β γ : Type} {ψ : α → γ} {f : γ → Except PyErr β} {χ : α → β} : ∀ l : List α, (∀ x ∈ l, f (ψ x) = .ok (χ x)) →
    (l.map ψ).mapM f = .ok (l.map χ)
  | [], _ => rfl
  | x :: l, h => by
    rw [List.map_cons, List.mapM_cons, h x (by simp), mapM_map_ok l fun y hy => h y (by simp [hy])]
    rfl

theorem logConditionalInPlace_cases {Es : Event} (hlen : 2 ≤ Es.length) {all : List (Option (Circuit × Mem LogP) × LogP)}
    (hall : (Es.mapM fun E => g.copy.conditionSimple freshMem E) = .ok all) (m : Mem LogP) :
    (possible all = [] → g.logConditionalInPlace m Es = .ok (none, .negInf)) ∧
    (possible all ≠ [] → g.logConditionalInPlace m Es = (do
      let (g', cs) ← mountAll (possible all) (⟨[(0, .sum)], []⟩, [])
      let P ← mixtureForward cs
      let g'' ← g'.normalizeUnit 0
      .ok (some g'', P))) := by
  match Es, hlen with
  | E₁ :: E₂ :: l, _ =>
    unfold logConditionalInPlace
    simp only
    rw [hall]
    simp only [bind, Except.bind]
    cases possible all with
    | nil => simp
    | cons a l => simp

/-- What `log_conditional_in_place` returns for several simple events: the mixture of the answers for the possible ones. -/
theorem logConditional_union (live : ι → Bool) {Es : List ι} (hlen : 2 ≤ Es.length)
    (hlive : ∀ E ∈ Es, live E = true → Piece g.copy (G E) (M E) (p E) (q E) (o E) V (F E) (φ E))
    (hdead : ∀ E ∈ Es, live E = false → g.copy.conditionSimple freshMem (φ E) = .ok (none, .negInf)) (m : Mem LogP) :
    (Es.filter live = [] → g.logConditionalInPlace m (Es.map φ) = .ok (none, .negInf)) ∧
    (Es.filter live ≠ [] → ∃ g' P, g.logConditionalInPlace m (Es.map φ) = .ok (some g', P) ∧
      P.exp = ((Es.filter live).map fun E => (p E).exp * (q E).exp).sum ∧
      Denotes g' 0 V (fun ℓ => ((Es.filter live).map fun E => (p E).exp * F E ℓ).sum / ((Es.filter live).map fun E => (p E).exp).sum) ∧
      Neat g' ∧ ∀ Q : Leaf → Prop, (∀ E ∈ Es.filter live, ∀ n d, (G E).kind? n = some (.leaf d) → Q d) →
        ∀ n d, g'.kind? n = some (.leaf d) → Q d) := by
  have hall : ((Es.map φ).mapM fun E => g.copy.conditionSimple freshMem E) =
      .ok (Es.map fun E => if live E then (some (G E, M E), p E) else (none, .negInf)) := by
    refine mapM_map_ok Es fun E hE => ?_
    by_cases h : live E = true
    · rw [(hlive E hE h).answer]
      simp [h]
    · rw [hdead E hE (by simpa using h)]
      simp [h]
  have hposs := possible_answers (G := G) (M := M) (p := p) live Es fun E hE h => (hlive E hE h).possible
  obtain ⟨hnil, hcons⟩ := logConditionalInPlace_cases (by simpa using hlen) hall m
  rw [hposs] at hnil hcons
  have hl : ∀ E ∈ Es.filter live, Piece g.copy (G E) (M E) (p E) (q E) (o E) V (F E) (φ E) := fun E hE =>
    hlive E (List.mem_filter.1 hE).1 (List.mem_filter.1 hE).2
  generalize Es.filter live = is at hl hnil hcons
  refine ⟨fun h => hnil (by rw [h]; rfl), fun hne => ?_⟩
  rw [hcons (by simpa using hne)]
  classical
  have hroot : ∃ root : Circuit × Mem LogP × LogP → Node, ∀ E ∈ is, root (G E, M E, p E) = o E := by
    refine ⟨fun x => match x.1.root with | .ok r => r | .error _ => 0, fun E hE => ?_⟩
    simp only
    rw [(hl E hE).denotes.layered.root]
  obtain ⟨root, hroot⟩ := hroot
  rw [mountAll_eq _ root _ (by
    intro x hx
    obtain ⟨E, hE, rfl⟩ := List.mem_map.1 hx
    rw [hroot E hE]
    exact (hl E hE).denotes.layered.root)]
  have hfold : ∀ (is : List ι) (k : Circuit), (∀ E ∈ is, root (G E, M E, p E) = o E) →
      (is.map fun E => (G E, M E, p E)).foldl (fun g x => g.mountBelow 0 x.1 (root x) x.2.2) k
      = is.foldl (fun g E => g.mountBelow 0 (G E) (o E) (p E)) k := by
    intro is
    induction is with
    | nil => intro k _; rfl
    | cons E is ih =>
      intro k h
      simp only [List.map_cons, List.foldl_cons]
      rw [ih _ fun E hE => h E (by simp [hE]), h E (by simp)]
  have hcs : ((is.map fun E => (G E, M E, p E)).map fun x => (x.2.2, x.2.1 (root x))) = is.map fun E => (p E, some (q E)) := by
    rw [List.map_map]
    refine List.map_congr_left fun E hE => ?_
    simp only [Function.comp]
    rw [hroot E hE, (hl E hE).stored]
  simp only [List.nil_append]
  rw [hcs]
  change ∃ g' P, (do
    let P ← mixtureForward (is.map fun E => (p E, some (q E)))
    let g'' ← ((is.map fun E => (G E, M E, p E)).foldl (fun g x => g.mountBelow 0 x.1 (root x) x.2.2) (newUnit 0 .sum)).normalizeUnit 0
    .ok (some g'', P) : Except PyErr (Option Circuit × LogP)) = _ ∧ _
  rw [hfold is _ hroot]
  have hfw : mixtureForward (is.map fun E => (p E, some (q E))) = .ok (LogP.logsumexp (is.map fun E => p E + q E)) := by
    unfold mixtureForward
    rw [mapM_ok_of (φ := fun x : LogP × Option LogP => x.1 + x.2.getD 0) _ (by
      intro x hx
      obtain ⟨E, _, rfl⟩ := List.mem_map.1 hx
      rfl), List.map_map]
    rfl
  rw [hfw]
  obtain ⟨offs, h1, hA, h3, h4⟩ := assembled_mountFold (W := p) (u := 0) (r := 0) is (layered_newUnit 0 .sum) (by simp)
    (kind?_newUnit 0 .sum) fun E hE => (hl E hE).denotes.layered
  have hu : ∀ x ∈ is.zip offs, 0 ∉ ((G x.1).copyAt x.2).ids := by
    intro x hx hn
    have := h3 x.2 (List.of_mem_zip hx).2 0 (by simp)
    obtain ⟨m, _, hm⟩ := exists_of_mem_copyAt hn
    nomega
  have hne' : is.zip offs ≠ [] := by
    intro h0
    apply hne
    have := congrArg List.length h0
    rw [List.length_zip, h1, min_self] at this
    exact List.length_eq_zero_iff.1 this
  obtain ⟨g', hg', hA'⟩ := assembled_normalize (W := fun x : ι × ℕ => p x.1) hne' hu hA
  have hd' : ∀ x ∈ is.zip offs, Denotes ((G x.1).copyAt x.2) (x.2 + o x.1) V (F x.1) := fun x hx =>
    (hl x.1 (List.of_mem_zip hx).1).denotes.copyAt x.2
  have hzip : ∀ {β : Type} (ψ : ι → β), (is.zip offs).map (fun x => ψ x.1) = is.map ψ := by
    intro β ψ
    conv_rhs => rw [← List.map_fst_zip (l₁ := is) (l₂ := offs) h1.ge, List.map_map]
    rfl
  have hZ : LogP.logsumexp (is.map p) ≠ .negInf := by
    rw [← LogP.exp_pos, LogP.exp_logsumexp, List.map_map]
    refine List.sum_pos _ ?_ (by simpa using hne)
    intro x hx
    obtain ⟨E, hE, rfl⟩ := List.mem_map.1 hx
    exact LogP.exp_pos.2 (hl E hE).possible
  have hZe : (LogP.logsumexp (is.map p)).exp = (is.map fun E => (p E).exp).sum := by
    rw [LogP.exp_logsumexp, List.map_map]
    rfl
  have hD := denotes_assembled_sum hA' hne' hd' hu h4
  refine ⟨g', LogP.logsumexp (is.map fun E => p E + q E), by simp only [bind, Except.bind]; rw [hg'], ?_, hD.congr fun ℓ => ?_, ?_, ?_⟩
  · rw [LogP.exp_logsumexp, List.map_map]
    congr 1
    exact List.map_congr_left fun E _ => LogP.exp_add _ _
  · rw [hzip p]
    simp only [linWeight]
    rw [hzip fun E => (p E - LogP.logsumexp (is.map p)).exp * F E ℓ, ← hZe]
    rw [sum_map_quot]
    congr 1
    refine List.map_congr_left fun E _ => ?_
    rw [LogP.exp_sub hZ]
    ring
  · refine neat_assembled hA' hu h4 (fun x hx => (hd' x hx).layered) (fun x hx =>
      (hl x.1 (List.of_mem_zip hx).1).neat.copyAt (hl x.1 (List.of_mem_zip hx).1).denotes.layered.wf x.2) fun _ => ⟨?_, ?_⟩
    · intro x hx
      have h5 := (hl x.1 (List.of_mem_zip hx).1).possible
      rw [hzip p]
      cases h6 : p x.1 with
      | negInf => exact absurd h6 h5
      | fin y =>
        cases h7 : LogP.logsumexp (is.map p) with
        | negInf => exact absurd h7 hZ
        | fin z => exact ⟨y - z, by simp⟩
    · rw [hzip p]
      simp only [linWeight]
      rw [hzip fun E => (p E - LogP.logsumexp (is.map p)).exp]
      have h8 : (is.map fun E => (p E - LogP.logsumexp (is.map p)).exp) = is.map fun E => (p E).exp / (LogP.logsumexp (is.map p)).exp :=
        List.map_congr_left fun E _ => LogP.exp_sub hZ
      rw [h8, ← sum_map_quot, ← hZe, div_self (LogP.exp_pos.2 hZ).ne']
  · intro Q hQ
    refine valid_assembled (by simp) hA' fun x hx n d hk => ?_
    obtain ⟨n', _, hk'⟩ := exists_of_kind?_copyAt hk
    exact hQ x.1 (List.of_mem_zip hx).1 _ _ hk'

end union

end PM.Graph
