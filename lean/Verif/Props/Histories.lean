import Verif.Spec.Histories
import Verif.Props.Evidence
import Verif.Props.Marginal
import Verif.Props.Copies
import Verif.Props.Probability
import Verif.Props.EvidenceOrder
import Verif.Props.ConditionalExamples
import Verif.Circuit.BatchLemmas

/-!
# C106: whatever is done with a model, it stays a distribution
-/

namespace PM.Props

open Spec Graph MeasureTheory

variable {g g' : Circuit} {r r' : Node} {sc sc' : Node → Finset Var} {dom : Var → VSet} {E : SimpleEvent}

/-- The leaves of `g'` are leaves of `g`. -/
def LeavesFrom (g g' : Circuit) : Prop := ∀ n d, g'.kind? n = some (.leaf d) → ∃ k, g.kind? k = some (.leaf d)

/-- Every unit of `g` has a variable. -/
def Occupied (g : Circuit) (sc : Node → Finset Var) : Prop := ∀ n ∈ g.ids, (sc n).Nonempty

theorem LeavesFrom.event (h : LeavesFrom g g') {V : Finset Var} {F : SimpleEvent} (hF : EventFor g V F) : EventFor g' V F :=
  ⟨hF.nodup, hF.keys, hF.disjoint, fun p hp n d hk hv => by
    obtain ⟨k, hk'⟩ := h n d hk
    exact hF.fits p hp k d hk' hv⟩

theorem LeavesFrom.evidence (h : LeavesFrom g g') {V : Finset Var} {F : SimpleEvent} (hF : EvidenceFor g V F) : EvidenceFor g' V F :=
  ⟨h.event hF.event, fun p hp n d hk hv => by
    obtain ⟨k, hk'⟩ := h n d hk
    exact hF.opens p hp k d hk' hv⟩

theorem LeavesFrom.leavesIn (h : LeavesFrom g g') {F : SimpleEvent} (hF : LeavesIn g F) : LeavesIn g' F := fun n d hk => by
  obtain ⟨k, hk'⟩ := h n d hk
  exact hF k d hk'

theorem LeavesFrom.model (h : LeavesFrom g g') (hM : EvidenceModel g r sc dom) (hL : Layered g' r') (hs : Scoped g' sc')
    (hd : Decomposable g' sc') (hp : PositiveWeights g') (hn : NormalizedSums g') (ht : TreeShaped g') : EvidenceModel g' r' sc' dom where
  layered := hL
  smooth := hs
  decomposable := hd
  valid n d hk := by
    obtain ⟨k, hk'⟩ := h n d hk
    exact hM.valid k d hk'
  positive := hp
  normalized := hn
  leaves n d hk := by
    obtain ⟨k, hk'⟩ := h n d hk
    exact hM.leaves k d hk'
  tree := ht
  domain := ⟨hM.domain.disjoint, fun n d hk => by
    obtain ⟨k, hk'⟩ := h n d hk
    exact hM.domain.fits k d hk', fun n d hk => by
    obtain ⟨k, hk'⟩ := h n d hk
    exact hM.domain.covers k d hk'⟩
  noDirac n d hk := by
    obtain ⟨k, hk'⟩ := h n d hk
    exact hM.noDirac k d hk'
  line n d hk := by
    obtain ⟨k, hk'⟩ := h n d hk
    exact hM.line k d hk'

/-- `g'` is a model over some of the variables of `g` with the same joint law of them. -/
structure SameLaw (g g' : Circuit) (r r' : Node) (sc sc' : Node → Finset Var) (dom : Var → VSet) : Prop where
  model : EvidenceModel g' r' sc' dom
  from' : LeavesFrom g g'
  value : ∀ ℓ : Leaf → ℝ, (∀ n d, g.kind? n = some (.leaf d) → d.var ∉ sc' r' → ℓ d = 1) →
    ∀ f, CircuitValue g ℓ f → ∃ f', CircuitValue g' ℓ f' ∧ f' r' = f r
  prob : ∀ Es : Event, (∀ E ∈ Es, EventFor g (sc' r') E) → ∀ m m', (g'.probability m dom Es).2 = (g.probability m' dom Es).2
  occupied : Occupied g sc → Occupied g' sc'

theorem EventFor.widen {V W : Finset Var} (h : V ⊆ W) {F : SimpleEvent} (hF : EventFor g V F) : EventFor g W F :=
  ⟨hF.nodup, fun v hv => h (hF.keys v hv), hF.disjoint, hF.fits⟩

theorem EvidenceFor.widen {V W : Finset Var} (h : V ⊆ W) {F : SimpleEvent} (hF : EvidenceFor g V F) : EvidenceFor g W F :=
  ⟨EventFor.widen h hF.event, hF.opens⟩

theorem sameLaw_of (hM : EvidenceModel g r sc dom) (hM' : EvidenceModel g' r' sc' dom) (hfrom : LeavesFrom g g') (hsub : sc' r' ⊆ sc r)
    (hocc : Occupied g sc → Occupied g' sc')
    (hval : ∀ ℓ : Leaf → ℝ, (∀ n d, g.kind? n = some (.leaf d) → d.var ∉ sc' r' → ℓ d = 1) →
      ∀ f, CircuitValue g ℓ f → ∃ f', CircuitValue g' ℓ f' ∧ f' r' = f r) : SameLaw g g' r r' sc sc' dom := by
  refine ⟨hM', hfrom, hval, fun Es hE m m' => ?_, hocc⟩
  choose p hp using fun E : SimpleEvent => exists_probValue hM.layered E
  choose q hq using fun E : SimpleEvent => exists_probValue hM'.layered E
  rw [probability_eq hM.layered hM.smooth hM.valid hM.domain (fun E h => EventFor.widen hsub (hE E h)) (fun E _ => hp E) m',
    probability_eq hM'.layered hM'.smooth hM'.valid hM'.domain (fun E h => hfrom.event (hE E h)) (fun E _ => hq E) m]
  congr 2
  apply List.map_congr_left
  intro E hm
  obtain ⟨f', h1, h2⟩ := hval _ (fun n d hk hd => by
    rw [allowed_of_not_mem (fun h => hd ((hE E hm).keys _ h)), measureReal_def, leafLaw_univ (hM.valid n d hk) (hM.leaves n d hk)]
    simp) _ (hp E)
  rw [← h2]
  exact circuitValue_unique hM'.layered.wf hM'.layered.graded.acyclic (hq E) h1 _ (root_mem hM'.layered.root).1

theorem renamed_edgeNodup {φ : Node → Node} (hw : g.WF) (h : Renamed g g' φ) : (g'.edges.map fun e => (e.src, e.dst)).Nodup := by
  rw [List.nodup_iff_count_le_one]
  rintro ⟨s, t⟩
  by_cases hs : s ∈ g'.ids
  · rw [Renamed.ids h, List.mem_map] at hs
    obtain ⟨n, hn, rfl⟩ := hs
    have hcount : (g'.edges.map fun e => (e.src, e.dst)).count (φ n, t) = ((g'.outEdges (φ n)).map fun e => (e.src, e.dst)).count (φ n, t) := by
      unfold outEdges
      induction g'.edges with
      | nil => rfl
      | cons e es ih =>
        by_cases he : e.src = φ n
        · simp [he, List.count_cons, ih]
        · simp [he, ih]
    rw [hcount, h.out n hn, List.map_map]
    refine List.nodup_iff_count_le_one.1 ?_ _
    have hsub : ((g.outEdges n).map fun e => (e.src, e.dst)).Nodup := hw.edgeNodup.sublist (List.filter_sublist.map _)
    have := hsub.map_on (f := fun p : Node × Node => (φ p.1, φ p.2)) fun a ha b hb hab => by
      obtain ⟨e, he, rfl⟩ := List.mem_map.1 ha
      obtain ⟨e', he', rfl⟩ := List.mem_map.1 hb
      have he := (mem_outEdges.1 he).1
      have he' := (mem_outEdges.1 he').1
      exact Prod.ext (h.inj _ (hw.srcMem e he) _ (hw.srcMem e' he') (congrArg Prod.fst hab))
        (h.inj _ (hw.dstMem e he) _ (hw.dstMem e' he') (congrArg Prod.snd hab))
    rw [List.map_map] at this
    exact this
  · rw [List.count_eq_zero_of_not_mem]
    · exact Nat.zero_le _
    · intro hm
      obtain ⟨e, he, hx⟩ := List.mem_map.1 hm
      obtain rfl : e.src = s := congrArg Prod.fst hx
      exact hs (h.src e he)

/-- A circuit with other unit identities. -/
theorem sameLaw_renamed (hM : EvidenceModel g r sc dom) {φ : Node → Node} (h : Renamed g g' φ) :
    ∃ sc', sc' (φ r) = sc r ∧ SameLaw g g' r (φ r) sc sc' dom := by
  classical
  have hw := hM.layered.wf
  have hψ : ∃ ψ : Node → Node, ∀ n ∈ g.ids, ψ (φ n) = n := by
    refine ⟨fun k => if hk : ∃ n ∈ g.ids, φ n = k then hk.choose else k, fun n hn => ?_⟩
    have hk : ∃ a ∈ g.ids, φ a = φ n := ⟨n, hn, rfl⟩
    simp only [dif_pos hk]
    exact h.inj _ hk.choose_spec.1 _ hn hk.choose_spec.2
  obtain ⟨ψ, hψ⟩ := hψ
  have hr := (root_mem hM.layered.root).1
  have hof : ∀ k κ, g'.kind? k = some κ → ∃ n ∈ g.ids, k = φ n ∧ g.kind? n = some κ := by
    intro k κ hk
    have := mem_ids_of_kind? hk
    rw [Renamed.ids h, List.mem_map] at this
    obtain ⟨n, hn, rfl⟩ := this
    exact ⟨n, hn, rfl, by rw [← Renamed.kind? h hn, hk]⟩
  have hdst : ∀ n ∈ g.ids, ∀ e ∈ g.outEdges n, e.dst ∈ g.ids := fun n _ e he => hw.dstMem e (mem_outEdges.1 he).1
  have hsuccm : ∀ n ∈ g.ids, ∀ c ∈ g.succ n, c ∈ g.ids := by
    intro n hn c hc
    obtain ⟨e, he, rfl⟩ := List.mem_map.1 hc
    exact hdst n hn e he
  have hfrom : LeavesFrom g g' := fun k d hk => by
    obtain ⟨n, _, _, hn⟩ := hof k _ hk
    exact ⟨n, hn⟩
  have hL : Layered g' (φ r) := by
    refine ⟨⟨?_, ?_, h.src, ?_⟩, ?_, ?_, ?_, ?_⟩
    · rw [Renamed.ids h]
      exact List.Nodup.map_on (fun a ha b hb => h.inj a ha b hb) hw.nodup
    · exact renamed_edgeNodup hw h
    · intro e he
      obtain ⟨e', he', rfl⟩ := (Renamed.edge hw h).1 he
      rw [Renamed.ids h]
      exact List.mem_map.2 ⟨_, hw.dstMem e' he', rfl⟩
    · obtain ⟨depth, hd⟩ := hM.layered.graded
      refine ⟨fun k => depth (ψ k), fun e he => ?_⟩
      obtain ⟨e', he', rfl⟩ := (Renamed.edge hw h).1 he
      simp only [hψ _ (hw.dstMem e' he'), hψ _ (hw.srcMem e' he')]
      exact hd e' he'
    · intro k d hk
      obtain ⟨n, hn, rfl, hkn⟩ := hof k _ hk
      rw [Renamed.succ h hn, hM.layered.leaves n d hkn]
      rfl
    · intro k hk e he
      obtain ⟨n, hn, rfl, hkn⟩ := hof k _ hk
      rw [h.out n hn] at he
      obtain ⟨e', he', rfl⟩ := List.mem_map.1 he
      exact hM.layered.weighted n hkn e' he'
    · rw [Renamed.root hw h, hM.layered.root]
      rfl
  refine ⟨fun k => sc (ψ k), by simp only [hψ r hr], sameLaw_of hM (hfrom.model hM hL ?_ ?_ ?_ ?_ ?_) hfrom ?_ ?_ ?_⟩
  · refine ⟨?_, ?_, ?_, ?_⟩
    · intro k d hk
      obtain ⟨n, hn, rfl, hkn⟩ := hof k _ hk
      rw [hψ n hn]
      exact hM.smooth.leaf n d hkn
    · intro k hk
      obtain ⟨n, hn, rfl, hkn⟩ := hof k _ hk
      rw [Renamed.succ h hn]
      simpa using hM.smooth.sumNe n hkn
    · intro k hk c hc
      obtain ⟨n, hn, rfl, hkn⟩ := hof k _ hk
      rw [Renamed.succ h hn] at hc
      obtain ⟨c', hc', rfl⟩ := List.mem_map.1 hc
      rw [hψ n hn, hψ c' (hsuccm n hn c' hc')]
      exact hM.smooth.sum n hkn c' hc'
    · intro k hk v
      obtain ⟨n, hn, rfl, hkn⟩ := hof k _ hk
      rw [hψ n hn, hM.smooth.prod n hkn v, Renamed.succ h hn]
      constructor
      · rintro ⟨c, hc, hv⟩
        exact ⟨φ c, List.mem_map.2 ⟨c, hc, rfl⟩, by rwa [hψ c (hsuccm n hn c hc)]⟩
      · rintro ⟨c, hc, hv⟩
        obtain ⟨c', hc', rfl⟩ := List.mem_map.1 hc
        exact ⟨c', hc', by rwa [hψ c' (hsuccm n hn c' hc')] at hv⟩
  · intro k hk
    obtain ⟨n, hn, rfl, hkn⟩ := hof k _ hk
    rw [Renamed.succ h hn, List.pairwise_map]
    refine (hM.decomposable n hkn).imp_of_mem fun {a b} ha hb hab => ?_
    show Disjoint (sc (ψ (φ a))) (sc (ψ (φ b)))
    rwa [hψ a (hsuccm n hn a ha), hψ b (hsuccm n hn b hb)]
  · intro k hk e he
    obtain ⟨n, hn, rfl, hkn⟩ := hof k _ hk
    rw [h.out n hn] at he
    obtain ⟨e', he', rfl⟩ := List.mem_map.1 he
    exact hM.positive n hkn e' he'
  · intro k hk
    obtain ⟨n, hn, rfl, hkn⟩ := hof k _ hk
    rw [h.out n hn, List.map_map]
    exact hM.normalized n hkn
  · intro e he e' he' hd
    obtain ⟨a, ha, rfl⟩ := (Renamed.edge hw h).1 he
    obtain ⟨b, hb, rfl⟩ := (Renamed.edge hw h).1 he'
    have := h.inj _ (hw.dstMem a ha) _ (hw.dstMem b hb) hd
    simp only [hM.tree a ha b hb this]
  · simp only [hψ r hr]
    exact subset_rfl
  · intro ho k hk
    rw [Renamed.ids h] at hk
    obtain ⟨n, hn, rfl⟩ := List.mem_map.1 hk
    show (sc (ψ (φ n))).Nonempty
    rw [hψ n hn]
    exact ho n hn
  · intro ℓ _ f hf
    refine ⟨fun k => f (ψ k), ⟨?_, ?_, ?_⟩, by simp only [hψ r hr]⟩
    · intro k d hk
      obtain ⟨n, hn, rfl, hkn⟩ := hof k _ hk
      simp only [hψ n hn]
      exact hf.leaf n d hkn
    · intro k hk
      obtain ⟨n, hn, rfl, hkn⟩ := hof k _ hk
      simp only [hψ n hn]
      rw [hf.sum n hkn, h.out n hn, List.map_map]
      congr 1
      apply List.map_congr_left
      intro e he
      simp only [Function.comp, hψ _ (hdst n hn e he)]
      rfl
    · intro k hk
      obtain ⟨n, hn, rfl, hkn⟩ := hof k _ hk
      simp only [hψ n hn]
      rw [hf.prod n hkn, h.out n hn, List.map_map]
      congr 1
      apply List.map_congr_left
      intro e he
      simp only [Function.comp, hψ _ (hdst n hn e he)]

theorem sameLaw_simplify (hM : EvidenceModel g r sc dom) :
    ∃ g' r', g.simplify = .ok g' ∧ sc r' = sc r ∧ SameLaw g g' r r' sc sc dom := by
  obtain ⟨g', r', depth, h1, h2, h3, h4⟩ := simplify_safe hM.layered hM.tree.safeSharing hM.positive hM.normalized
  obtain ⟨h5, h6, h7⟩ := h3.scope _ hM.smooth hM.decomposable
  have ht := h3.tree hM.tree
  have hL : Layered g' r' := ⟨h2.wf, treeShaped_graded ht h2.desc, h2.leaves, fun n hk e he => by
    obtain ⟨x, hx⟩ := h2.pos n hk e he; simp [hx], h3.root⟩
  have hfrom : LeavesFrom g g' := fun n d hk => ⟨n, h3.kind n _ hk⟩
  exact ⟨g', r', h1, h7, sameLaw_of hM (hfrom.model hM hL h5 h6 h2.pos h4 ht) hfrom h7.subset (fun ho n hn => by
    obtain ⟨k, hk⟩ := exists_kind? hn
    exact ho n (mem_ids_of_kind? (h3.kind n _ hk))) fun E _ f hf =>
    ⟨f, h3.value _ f hf⟩⟩

theorem sameLaw_marginal (hM : EvidenceModel g r sc dom) {W : Finset Var} (hW : ¬ Disjoint (sc r) W) :
    ∃ g' r', g.marginalInPlace W = .ok (some g') ∧ sc r' ∩ W = sc r ∩ W ∧ SameLaw g g' r r' sc (fun n => sc n ∩ W) dom := by
  have hL := hM.layered
  have hs := hM.smooth
  have hk := keeps_iff_not_disjoint.2 hW
  have ht' : TreeShaped (g.induced (keeps sc W)) := restrict_tree hM.tree
  obtain ⟨g', r', depth, h1, h2, h3, h4⟩ := simplify_safe (restrict_layered hL hs hk) ht'.safeSharing (restrict_positive hs hM.positive)
    (restrict_normalized hs hM.normalized)
  obtain ⟨h5, h6, h7⟩ := h3.scope _ (restrict_scoped (vs := W) hs) (restrict_decomposable hM.decomposable)
  have ht := h3.tree ht'
  have hL' : Layered g' r' := ⟨h2.wf, treeShaped_graded ht h2.desc, h2.leaves, fun n hk e he => by
    obtain ⟨x, hx⟩ := h2.pos n hk e he; simp [hx], h3.root⟩
  have hfrom : LeavesFrom g g' := fun n d hk => ⟨n, (kind?_of_induced (h3.kind n _ hk)).1⟩
  refine ⟨g', r', ?_, h7, sameLaw_of hM (hfrom.model hM hL' h5 h6 h2.pos h4 ht) hfrom (h7.subset.trans Finset.inter_subset_left) (fun _ n hn => by
    obtain ⟨k, hk⟩ := exists_kind? hn
    have := keeps_iff_not_disjoint.1 (kind?_of_induced (h3.kind n _ hk)).2
    exact Finset.nonempty_iff_ne_empty.2 fun h => this (Finset.disjoint_iff_inter_eq_empty.2 h)) fun ℓ hℓ f hf =>
    ⟨f, h3.value _ f (restrict_value hL hs hM.normalized hf fun n d hkd hd => hℓ n d hkd fun h => hd (Finset.mem_inter.1 h).2)⟩⟩
  rw [marginal_eq hL hs, if_pos hk]
  show Except.map some (Graph.simplify (g.induced (keeps sc W))) = _
  rw [h1]; rfl

theorem SameLaw.trans {g₁ : Circuit} {r₁ : Node} {sc₁ : Node → Finset Var} (h : SameLaw g g₁ r r₁ sc sc₁ dom)
    (h' : SameLaw g₁ g' r₁ r' sc₁ sc' dom) (hsub : sc' r' ⊆ sc₁ r₁) : SameLaw g g' r r' sc sc' dom where
  model := h'.model
  from' n d hk := by
    obtain ⟨k, hk⟩ := h'.from' n d hk
    exact h.from' k d hk
  value ℓ hℓ f hf := by
    obtain ⟨f₁, h1, h2⟩ := h.value ℓ (fun n d hk hd => hℓ n d hk fun h => hd (hsub h)) f hf
    obtain ⟨f', h3, h4⟩ := h'.value ℓ (fun n d hk hd => by
      obtain ⟨k, hk'⟩ := h.from' n d hk
      exact hℓ k d hk' hd) f₁ h1
    exact ⟨f', h3, h4.trans h2⟩
  prob Es hE m m' := (h'.prob Es (fun E hm => h.from'.event (hE E hm)) m freshMem).trans
    (h.prob Es (fun E hm => EventFor.widen hsub (hE E hm)) freshMem m')
  occupied ho := h'.occupied (h.occupied ho)

theorem sameLaw_refl (hM : EvidenceModel g r sc dom) : SameLaw g g r r sc sc dom :=
  sameLaw_of hM hM (fun n _ hk => ⟨n, hk⟩) subset_rfl id fun _ _ f hf => ⟨f, hf, rfl⟩

theorem sameLaw_copy (hM : EvidenceModel g r sc dom) : ∃ r' sc', sc' r' = sc r ∧ SameLaw g g.copy r r' sc sc' dom := by
  obtain ⟨sc', h1, h2⟩ := sameLaw_renamed hM (copyAt_renamed hM.layered.wf 0)
  exact ⟨_, sc', h1, h2⟩

theorem sameLaw_reload (hM : EvidenceModel g r sc dom) (base : Nat) :
    ∃ g' r' sc', Graph.fromJson base g.toJson = .ok g' ∧ sc' r' = sc r ∧ SameLaw g g' r r' sc sc' dom := by
  obtain ⟨g', φ, h1, h2, _⟩ := C19_json_round_trip hM.layered.wf (fun n v probs hk => by
    rcases hk with hk | hk
    · exact (hM.valid n _ hk).2
    · exact (hM.valid n _ hk).2) base
  obtain ⟨sc', h3, h4⟩ := sameLaw_renamed hM h2
  exact ⟨g', _, sc', h1, h3, h4⟩

/-- Calls that enter no evidence. -/
theorem plain_step (hM : EvidenceModel g r sc dom) (hne : (sc r).Nonempty) (op : Op) (hop : observations [op] = []) :
    (op.apply dom g = .ok none ∧ variablesAfter (sc r) [op] = ∅) ∨
      ∃ g' r' sc', op.apply dom g = .ok (some g') ∧ sc' r' = variablesAfter (sc r) [op] ∧ (sc' r').Nonempty ∧ sc' r' ⊆ sc r ∧
        SameLaw g g' r r' sc sc' dom := by
  cases op with
  | given E => simp [observations] at hop
  | onto W =>
    obtain ⟨r₁, sc₁, h1, h2⟩ := sameLaw_copy hM
    by_cases hW : Disjoint (sc r) W
    · exact .inl ⟨(C10_none h2.model.layered h2.model.smooth W).2 (h1 ▸ hW), Finset.disjoint_iff_inter_eq_empty.1 hW⟩
    · obtain ⟨g', r', h3, h4, h5⟩ := sameLaw_marginal h2.model (W := W) (h1 ▸ hW)
      refine .inr ⟨g', r', _, h3, h4.trans (by rw [h1]; rfl), ?_, ?_, h2.trans h5 ?_⟩
      · show (sc₁ r' ∩ W).Nonempty
        rw [h4, h1]
        exact Finset.nonempty_iff_ne_empty.2 fun h => hW (Finset.disjoint_iff_inter_eq_empty.2 h)
      · show sc₁ r' ∩ W ⊆ _
        rw [h4, h1]
        exact Finset.inter_subset_left
      · show sc₁ r' ∩ W ⊆ _
        rw [h4]
        exact Finset.inter_subset_left
  | simplify =>
    obtain ⟨g', r', h1, h2, h3⟩ := sameLaw_simplify hM
    exact .inr ⟨g', r', sc, by simp [Op.apply, h1, Except.map], h2, h2 ▸ hne, h2.subset, h3⟩
  | normalize =>
    have := normalize_id hM.layered.wf hM.layered.weighted hM.normalized
    exact .inr ⟨g, r, sc, by simp [Op.apply, this, Except.map], rfl, hne, subset_rfl, sameLaw_refl hM⟩
  | copy =>
    obtain ⟨r', sc', h1, h2⟩ := sameLaw_copy hM
    exact .inr ⟨g.copy, r', sc', rfl, h1, h1 ▸ hne, h1.subset, h2⟩
  | reload base =>
    obtain ⟨g', r', sc', h1, h2, h3⟩ := sameLaw_reload hM base
    exact .inr ⟨g', r', sc', by simp [Op.apply, h1, Except.map], h2, h2 ▸ hne, h2.subset, h3⟩

theorem variablesAfter_subset : ∀ (V : Finset Var) (ops : List Op), variablesAfter V ops ⊆ V
  | _, [] => subset_rfl
  | V, op :: ops => by
    cases op with
    | onto W => exact (variablesAfter_subset (V ∩ W) ops).trans Finset.inter_subset_left
    | _ => exact variablesAfter_subset V ops

theorem variablesAfter_cons (V : Finset Var) (op : Op) (ops : List Op) :
    variablesAfter V (op :: ops) = variablesAfter (variablesAfter V [op]) ops := by
  cases op <;> rfl

theorem observations_cons (op : Op) (ops : List Op) : observations (op :: ops) = observations [op] ++ observations ops := by
  cases op <;> rfl

theorem sensible_cons {V : Finset Var} {op : Op} {ops : List Op} (h : Sensible g V (op :: ops)) :
    (∀ E ∈ observations [op], EvidenceFor g V E) ∧ Sensible g (variablesAfter V [op]) ops := by
  cases op with
  | given E => exact ⟨by simpa [observations] using h.1, h.2⟩
  | _ => exact ⟨by simp [observations], h⟩

theorem sensible_observations : ∀ {V : Finset Var} {ops : List Op}, Sensible g V ops → ∀ E ∈ observations ops, EvidenceFor g V E
  | _, [], _ => by simp [observations]
  | V, op :: ops, h => by
    obtain ⟨h1, h2⟩ := sensible_cons h
    intro E hE
    rw [observations_cons, List.mem_append] at hE
    rcases hE with hE | hE
    · exact h1 E hE
    · exact EvidenceFor.widen (variablesAfter_subset V [op]) (sensible_observations h2 E hE)

theorem sensible_transfer {U : Finset Var} (ht : ∀ V, V ⊆ U → ∀ F, EvidenceFor g V F → EvidenceFor g' V F) :
    ∀ {V : Finset Var} {ops : List Op}, V ⊆ U → Sensible g V ops → Sensible g' V ops
  | _, [], _, _ => trivial
  | V, op :: ops, hV, h => by
    cases op with
    | given E => exact ⟨ht V hV E h.1, sensible_transfer (ops := ops) ht hV h.2⟩
    | onto W => exact sensible_transfer (V := V ∩ W) (ops := ops) ht (Finset.inter_subset_left.trans hV) h
    | simplify => exact sensible_transfer (V := V) (ops := ops) ht hV h
    | normalize => exact sensible_transfer (V := V) (ops := ops) ht hV h
    | copy => exact sensible_transfer (V := V) (ops := ops) ht hV h
    | reload base => exact sensible_transfer (V := V) (ops := ops) ht hV h

theorem EvidenceFor.narrow {V W : Finset Var} {F : SimpleEvent} (hF : EvidenceFor g V F) (hk : ∀ v ∈ F.keys, v ∈ W) : EvidenceFor g W F :=
  ⟨⟨hF.event.nodup, hk, hF.event.disjoint, hF.event.fits⟩, hF.opens⟩

theorem EventFor.narrow {V W : Finset Var} {F : SimpleEvent} (hF : EventFor g V F) (hk : ∀ v ∈ F.keys, v ∈ W) : EventFor g W F :=
  ⟨hF.nodup, hk, hF.disjoint, hF.fits⟩

theorem keys_together {v : Var} {F : SimpleEvent} : ∀ {Es : List SimpleEvent}, v ∈ (together Es F).keys →
    (∃ E ∈ Es, v ∈ E.keys) ∨ v ∈ F.keys
  | [], h => .inr h
  | E :: Es, h => by
    have h : v ∈ (E.inter (together Es F)).keys := h
    rw [SimpleEvent.keys_inter, List.mem_append, List.mem_filter] at h
    rcases h with h | ⟨h, _⟩
    · exact .inl ⟨E, by simp, h⟩
    · rcases keys_together h with ⟨E', h1, h2⟩ | h
      · exact .inl ⟨E', by simp [h1], h2⟩
      · exact .inr h

theorem eventFor_together' (hM : EvidenceModel g r sc dom) {V : Finset Var} (hV : V ⊆ sc r) {F : SimpleEvent} (hF : EventFor g V F)
    {Es : List SimpleEvent} (hE : ∀ E ∈ Es, EventFor g V E) : EventFor g V (together Es F) := by
  refine EventFor.narrow (eventFor_together hM (EventFor.widen hV hF) Es fun E h => EventFor.widen hV (hE E h)) fun v hv => ?_
  rcases keys_together hv with ⟨E, h1, h2⟩ | h
  · exact (hE E h1).keys v h2
  · exact hF.keys v h

/-- What a history leaves of the model. -/
theorem history_spec : ∀ (ops : List Op) {g : Circuit} {r : Node} {sc : Node → Finset Var}, EvidenceModel g r sc dom → (sc r).Nonempty →
    Sensible g (sc r) ops → ∃ res, history dom g ops = .ok res ∧
      (∀ m p, (g.probability m dom [together (observations ops) []]).2 = .ok p → (res = none ↔ p = 0 ∨ variablesAfter (sc r) ops = ∅)) ∧
      ∀ g', res = some g' → ∃ r' sc', EvidenceModel g' r' sc' dom ∧ sc' r' = variablesAfter (sc r) ops ∧
        (∀ F, EventFor g (variablesAfter (sc r) ops) F → EventFor g' (variablesAfter (sc r) ops) F) ∧
        (∀ F, LeavesIn g F → LeavesIn g' F) ∧ (∀ E ∈ observations ops, LeavesIn g' E) ∧ (Occupied g sc → Occupied g' sc') ∧
        (NoNormal g → NoNormal g') ∧
        ∀ F, EventFor g (variablesAfter (sc r) ops) F → ∀ m m', ∃ q p, (g'.probability m dom [F]).2 = .ok q ∧
          (g.probability m' dom [together (observations ops) F]).2 = .ok p ∧ (q = 0 ↔ p = 0)
  | [], g, r, sc, hM, hne, _ => by
    refine ⟨some g, rfl, fun m p hp => ?_, fun g' hg' => ?_⟩
    · rw [show together (observations []) [] = [] from rfl, probability_one hM (eventFor_nil _) leavesIn_nil] at hp
      cases hp
      simp [variablesAfter, hne.ne_empty]
    · cases hg'
      refine ⟨r, sc, hM, rfl, fun _ h => h, fun _ h => h, by simp [observations], id, id, fun F hF m m' => ?_⟩
      obtain ⟨P, hP⟩ := exists_probValue hM.layered F
      have := fun m => probability_eq hM.layered hM.smooth hM.valid hM.domain (Es := [F])
        (by simpa using show EventFor g (sc r) F from hF) (p := fun _ => P) (by simpa using hP) m
      exact ⟨_, _, this m, this m', Iff.rfl⟩
  | op :: ops, g, r, sc, hM, hne, hS => by
    obtain ⟨hS1, hS2⟩ := sensible_cons hS
    have hsub := variablesAfter_subset (sc r) [op]
    have hobs := sensible_observations hS2
    by_cases hop : observations [op] = []
    · rw [variablesAfter_cons, observations_cons, hop, List.nil_append]
      rcases plain_step hM hne op hop with ⟨h1, h2⟩ | ⟨g₁, r₁, sc₁, h1, h2, h3, h4, h5⟩
      · refine ⟨none, by rw [history, h1], fun m p _ => ⟨fun _ => .inr ?_, fun _ => rfl⟩, fun g' hg' => by cases hg'⟩
        rw [h2]
        exact Finset.subset_empty.1 (variablesAfter_subset ∅ ops)
      · rw [← h2] at hS2 hobs ⊢
        have hT : ∀ F, EventFor g (sc₁ r₁) F → EventFor g (sc₁ r₁) (together (observations ops) F) := fun F hF =>
          eventFor_together' hM h4 hF fun E h => (hobs E h).event
        obtain ⟨res, i1, i2, i3⟩ := history_spec ops h5.model h3 (sensible_transfer (U := sc₁ r₁) (fun V _ F hF => h5.from'.evidence hF)
          subset_rfl hS2)
        refine ⟨res, by rw [history, h1]; exact i1, fun m p hp => i2 m p ?_, fun g' hg' => ?_⟩
        · rw [h5.prob _ (by simpa using hT [] (eventFor_nil _)) m m]
          exact hp
        · obtain ⟨r', sc', j1, j2, j3, j4, j5, jo, jn, j6⟩ := i3 g' hg'
          refine ⟨r', sc', j1, j2, fun F hF => j3 F (h5.from'.event hF), fun F hF => j4 F (h5.from'.leavesIn hF), j5,
            fun ho => jo (h5.occupied ho), fun hno => jn fun n d hk => (h5.from' n d hk).elim fun k hk' => hno k d hk', fun F hF m m' => ?_⟩
          rw [← h5.prob _ (by simpa using hT F (EventFor.widen (variablesAfter_subset _ _) hF)) m m']
          exact j6 F (h5.from'.event hF) m m
    · obtain ⟨E, rfl⟩ : ∃ E, op = .given E := by
        cases op with
        | given E => exact ⟨E, rfl⟩
        | _ => simp [observations] at hop
      have hE0 : EvidenceFor g (sc r) E := hS.1
      have hS2 : Sensible g (sc r) ops := hS.2
      have hEs : ∀ E ∈ observations ops, EventFor g (sc r) E := fun E h => (sensible_observations hS2 E h).event
      obtain ⟨P, hP⟩ := exists_probValue hM.layered E
      have hprob := fun m => probability_eq hM.layered hM.smooth hM.valid hM.domain (Es := [E]) (by simpa using hE0.event) (p := fun _ => P)
        (by simpa using hP) m
      simp only [List.map_cons, List.map_nil, List.sum_cons, List.sum_nil, add_zero] at hprob
      have hr := (root_mem hM.layered.root).1
      have hnn : 0 ≤ P r := circuitValue_nonneg hM.layered.wf hM.layered.graded.acyclic hP (fun _ _ _ => measureReal_nonneg) r hr
      rcases hnn.eq_or_lt with h0 | hpos
      · refine ⟨none, ?_, fun m p hp => ⟨fun _ => .inl ?_, fun _ => rfl⟩, fun g' hg' => by cases hg'⟩
        · rw [history, Op.apply, conditional_dead hM hE0 hP h0.symm]
          rfl
        · have hT := eventFor_together hM (eventFor_nil _) (observations ops) hEs
          obtain ⟨Q, hQ⟩ := exists_probValue hM.layered (together (E :: observations ops) [])
          rw [show observations (.given E :: ops) = E :: observations ops from rfl,
            probability_eq hM.layered hM.smooth hM.valid hM.domain (Es := [together (E :: observations ops) []])
            (by simpa [together] using eventFor_inter hM.layered hM.smooth hE0.event hT) (p := fun _ => Q) (by simpa using hQ)] at hp
          simp only [List.map_cons, List.map_nil, List.sum_cons, List.sum_nil, add_zero, Except.ok.injEq] at hp
          rw [← hp]
          refine circuitValue_null hM.layered hP hQ (fun _ _ _ => measureReal_nonneg) (fun n d hk hz => ?_) r hr h0.symm
          have hfin := finite_leafLaw (hM.valid n d hk)
          show (leafLaw d).real (allowed (E.inter (together (observations ops) [])) d.var) = 0
          rw [allowed_inter hT.nodup (compatible_of hM.layered hM.smooth hE0.event hT)]
          exact le_antisymm (hz ▸ measureReal_mono Set.inter_subset_left) measureReal_nonneg
      · obtain ⟨g₁, r₁, h1, hM1, hsc, hEv, hEF, hin, hkeep, hids, hnn'⟩ := evidence_step hM hE0 (hprob freshMem) hpos
        have hEF' : ∀ V, V ⊆ sc r → ∀ F, EventFor g V F → EventFor g₁ V F := fun V hV F hF =>
          EventFor.narrow (hEF F (EventFor.widen hV hF)) hF.keys
        obtain ⟨res, i1, i2, i3⟩ := history_spec ops hM1 (hsc ▸ hne) (sensible_transfer (U := sc r) (fun V hV F hF =>
          EvidenceFor.narrow (hEv F (EvidenceFor.widen hV hF)) hF.event.keys) hsc.subset (hsc ▸ hS2))
        rw [hsc] at i2 i3
        obtain ⟨g₂, r₂, c1, _, _, _, _, c2⟩ := C95_confined hM.layered hM.smooth hM.decomposable hM.valid hM.positive hM.tree hM.domain
          hE0.event (hM.proper hE0) (hM.one hE0) (hprob freshMem) hpos
        obtain rfl : g₁ = g₂ := by
          rw [h1] at c1
          simpa using Except.ok.inj c1
        have hh : history dom g (.given E :: ops) = .ok res := by
          rw [history, Op.apply, h1]
          exact i1
        refine ⟨res, hh, fun m p hp => ?_, fun g' hg' => ?_⟩
        · obtain ⟨q, p', hq, hp', _, hz, _⟩ := c2 [together (observations ops) []] (by
            simpa using eventFor_together hM (eventFor_nil _) _ hEs) m m
          have : (.ok p : Except PyErr ℝ) = .ok p' := hp.symm.trans hp'
          rw [i2 m q hq, hz, Except.ok.inj this]
          rfl
        · obtain ⟨r', sc', j1, j2, j3, j4, j5, jo, jn, j6⟩ := i3 g' hg'
          have hsub' := variablesAfter_subset (sc r) ops
          refine ⟨r', sc', j1, j2, fun F hF => j3 F (hEF' _ hsub' F hF), fun F hF => j4 F (hkeep F hF), ?_,
            fun ho => jo fun n hn => ho n (hids n hn), fun hno => jn (hnn' hno), fun F hF m m' => ?_⟩
          · intro F hF
            rcases List.mem_cons.1 hF with rfl | hF
            · exact j4 _ hin
            · exact j5 F hF
          · obtain ⟨q, p, k1, k2, k3⟩ := j6 F (hEF' _ hsub' F hF) m m'
            obtain ⟨q', p', l1, l2, _, l3, _⟩ := c2 [together (observations ops) F] (by
              simpa using eventFor_together hM (EventFor.widen hsub' hF) _ hEs) m' m'
            rw [k2] at l1
            cases l1
            exact ⟨q, p', k1, l2, k3.trans l3⟩

/-! ### The restriction of evidence to the variables that are left -/

theorem allowed_about {V : Finset Var} {v : Var} (hv : v ∈ V) (E : SimpleEvent) : allowed (about V E) v = allowed E v := by
  ext t
  simp only [allowed, about, List.mem_filter, decide_eq_true_eq, Set.mem_ofPred_eq]
  exact ⟨fun h p hp hpv => h p ⟨hp, hpv ▸ hv⟩ hpv, fun h p hp hpv => h p hp.1 hpv⟩

theorem eventFor_about {U : Finset Var} (hE : EventFor g U E) (V : Finset Var) : EventFor g V (about V E) where
  nodup := hE.nodup.sublist (List.filter_sublist.map _)
  keys v hv := by
    obtain ⟨p, hp, rfl⟩ := List.mem_map.1 hv
    simpa using (List.mem_filter.1 hp).2
  disjoint p hp := hE.disjoint p (List.mem_filter.1 hp).1
  fits p hp := hE.fits p (List.mem_filter.1 hp).1

theorem leavesIn_about (hM : EvidenceModel g r sc dom) (h : LeavesIn g E) : LeavesIn g (about (sc r) E) := fun n d hk => by
  rw [allowed_about (leaf_var_mem hM.layered hM.smooth hk)]
  exact h n d hk

/-- **C106**: histories of calls.  Take any finite sequence of `conditional` (on evidence about variables that are left), `marginal`,
`simplify`, `normalize`, `copy` and JSON round trips.  No call fails.  The sequence ends with `None` exactly if all the evidence together is
impossible in the original model or no variable is left.  Otherwise the model at the end is over exactly the variables that are left,
everything that was observed about them has probability one in it, and a simple event about them has probability zero exactly if it has
probability zero together with all the evidence in the original model. -/
theorem C106_history (hM : EvidenceModel g r sc dom) (hne : (sc r).Nonempty) {ops : List Op} (hS : Sensible g (sc r) ops) :
    ∃ res, history dom g ops = .ok res ∧
      (∀ m p, (g.probability m dom [together (observations ops) []]).2 = .ok p → (res = none ↔ p = 0 ∨ variablesAfter (sc r) ops = ∅)) ∧
      ∀ g', res = some g' → g'.circuitVars = .ok (variablesAfter (sc r) ops) ∧
        (∀ E ∈ observations ops, ∀ m, (g'.probability m dom [about (variablesAfter (sc r) ops) E]).2 = .ok 1) ∧
        ∀ F, EventFor g (variablesAfter (sc r) ops) F → ∀ m m', ∃ q p, (g'.probability m dom [F]).2 = .ok q ∧
          (g.probability m' dom [together (observations ops) F]).2 = .ok p ∧ (q = 0 ↔ p = 0) := by
  obtain ⟨res, h1, h2, h3⟩ := history_spec ops hM hne hS
  refine ⟨res, h1, h2, fun g' hg' => ?_⟩
  obtain ⟨r', sc', j1, j2, j3, j4, j5, _, _, j6⟩ := h3 g' hg'
  refine ⟨?_, fun E hE m => ?_, j6⟩
  · rw [circuitVars_eq j1.layered.wf j1.layered.graded.acyclic j1.smooth j1.layered.root, j2]
  · rw [← j2] at j3 ⊢
    exact probability_one j1 (j3 _ (eventFor_about (sensible_observations hS E hE).event _)) (leavesIn_about j1 (j5 E hE)) m

/-- After every history the model is still a probability distribution: the universal event has probability one, the probability of an event
lies between zero and one, and it does not depend on how the event is cut into simple events. -/
theorem C106_distribution (hM : EvidenceModel g r sc dom) (hne : (sc r).Nonempty) {ops : List Op} (hS : Sensible g (sc r) ops) {g' : Circuit}
    (h : history dom g ops = .ok (some g')) (m m' : Mem ℝ) :
    (∃ U, g'.universalSimpleEvent dom = .ok U ∧ (g'.probability m dom [U]).2 = .ok 1) ∧
      ∀ Es : Event, (∀ E ∈ Es, EventFor g (variablesAfter (sc r) ops) E) → DisjointFamily Es →
        (∃ p, (g'.probability m dom Es).2 = .ok p ∧ 0 ≤ p ∧ p ≤ 1) ∧
        ∀ Fs : Event, (∀ E ∈ Fs, EventFor g (variablesAfter (sc r) ops) E) → DisjointFamily Fs →
          (∀ x, (∃ E ∈ Es, E.Mem x) ↔ ∃ F ∈ Fs, F.Mem x) → (g'.probability m dom Es).2 = (g'.probability m' dom Fs).2 := by
  obtain ⟨res, h1, _, h3⟩ := history_spec ops hM hne hS
  rw [h] at h1
  obtain ⟨r', sc', j1, j2, j3, _⟩ := h3 g' (Except.ok.inj h1).symm
  rw [← j2] at j3 ⊢
  refine ⟨C05_universal j1.layered j1.smooth j1.valid j1.leaves j1.normalized j1.domain m, fun Es hE hd =>
    ⟨C05_bounds j1.layered j1.smooth j1.decomposable j1.valid j1.leaves j1.normalized j1.domain (fun E h => j3 E (hE E h)) hd m,
      fun Fs hF hd' hsame => ?_⟩⟩
  obtain ⟨p, hp, hq⟩ := C06_decomposition_independent j1.layered j1.smooth j1.decomposable j1.valid j1.domain (fun E h => j3 E (hE E h))
    (fun E h => j3 E (hF E h)) hd hd' hsame m m'
  rw [hp, hq]

/-- Without evidence nothing changes but the set of variables: every event about the variables that are left keeps its probability. -/
theorem C106_exact : ∀ {ops : List Op} {g : Circuit} {r : Node} {sc : Node → Finset Var}, EvidenceModel g r sc dom → (sc r).Nonempty →
    observations ops = [] → ∀ {g' : Circuit}, history dom g ops = .ok (some g') → ∀ Es : Event,
      (∀ E ∈ Es, EventFor g (variablesAfter (sc r) ops) E) → ∀ m m', (g'.probability m dom Es).2 = (g.probability m' dom Es).2
  | [], g, r, sc, hM, _, _, g', h, Es, hE, m, m' => by
    cases Option.some.inj (Except.ok.inj h)
    exact (sameLaw_refl hM).prob Es hE m m'
  | op :: ops, g, r, sc, hM, hne, hobs, g', h, Es, hE, m, m' => by
    rw [observations_cons, List.append_eq_nil_iff] at hobs
    rw [variablesAfter_cons] at hE
    rcases plain_step hM hne op hobs.1 with ⟨h1, _⟩ | ⟨g₁, r₁, sc₁, h1, h2, h3, h4, h5⟩
    · rw [history, h1] at h
      cases h
    · rw [history, h1] at h
      rw [← h2] at hE
      exact (C106_exact h5.model h3 hobs.2 h Es (fun E hm => h5.from'.event (hE E hm)) m freshMem).trans
        (h5.prob Es (fun E hm => EventFor.widen (variablesAfter_subset _ _) (hE E hm)) freshMem m')

/-- Samples after a history: with probability one `sample` succeeds, and every row is filled for exactly the variables that are left and
agrees with everything that was observed about them. -/
theorem C106_samples (hM : EvidenceModel g r sc dom) (hne : (sc r).Nonempty) {ops : List Op} (hS : Sensible g (sc r) ops) {g' : Circuit}
    (h : history dom g ops = .ok (some g')) (amount : ℕ) :
    chance (g'.sampleR amount) (fun log => ∀ ρ < amount, ∃ x : Var → ℝ, (∀ v ∈ variablesAfter (sc r) ops, cell log ρ v = some (x v)) ∧
      ∀ E ∈ observations ops, (about (variablesAfter (sc r) ops) E).Mem x) = 1 := by
  obtain ⟨res, h1, _, h3⟩ := history_spec ops hM hne hS
  rw [h] at h1
  obtain ⟨r', sc', j1, j2, j3, _, j5, _⟩ := h3 g' (Except.ok.inj h1).symm
  rw [← j2] at j3 ⊢
  have hev : ∀ E ∈ (observations ops).map (about (sc' r')), EventFor g' (sc' r') E ∧ LeavesIn g' E := by
    intro E' hE'
    obtain ⟨E, hE, rfl⟩ := List.mem_map.1 hE'
    exact ⟨j3 _ (eventFor_about (sensible_observations hS E hE).event _), leavesIn_about j1 (j5 E hE)⟩
  have hT := eventFor_together j1 (eventFor_nil _) _ fun E h => (hev E h).1
  have hin := leavesIn_together j1 (eventFor_nil _) leavesIn_nil _ hev
  have hvs := circuitVars_eq j1.layered.wf j1.layered.graded.acyclic j1.smooth j1.layered.root
  obtain ⟨p, hp, hc⟩ := C63_all_rows_partial j1.layered j1.smooth j1.decomposable j1.normalized j1.valid j1.leaves j1.domain hvs hT amount freshMem
  rw [probability_one j1 hT hin] at hp
  obtain rfl := Except.ok.inj hp
  rw [one_pow] at hc
  rw [← hc]
  congr 1
  funext log
  have hmem := mem_together j1 (eventFor_nil _) _ fun E h => (hev E h).1
  simp only [RowIn, hmem]
  simp [SimpleEvent.Mem]

/-! ### A history with two variables -/

theorem tree2_evidenceModel : EvidenceModel tree2 0 tree2Scope fun _ => realLine where
  layered := tree2_layered
  smooth := tree2_scoped
  decomposable := tree2_decomposable
  valid := tree2_valid
  positive := Ex.positive_of (by simp [tree2, outEdges, Ex.lw])
  normalized := tree2_normalized
  leaves := tree2_leaf trivial trivial trivial trivial
  tree := by simp [TreeShaped, tree2]
  domain := ⟨fun _ => realLine_disjoint, tree2_leaf (by simp [Fits, realLine]) (by simp [Fits, realLine]) (by simp [Fits, realLine])
    (by simp [Fits, realLine]), fun n d h => by simp [realLine_toSet]⟩
  noDirac := tree2_leaf (by simp) (by simp) (by simp) (by simp)
  line := fun _ _ _ _ => ⟨_, _, rfl⟩

/-- The observation that a variable lies between `a` and `b`. -/
noncomputable abbrev within (v : Var) (a b : ℝ) : SimpleEvent := [(v, .interval [⟨a, b, .opn, .opn⟩])]

theorem allowed_within (v w : Var) (a b : ℝ) : allowed (within v a b) w = if v = w then Set.Ioo a b else Set.univ := by
  ext t
  by_cases h : v = w <;> simp [h, allowed, within, VSet.Mem, SimpleInterval.Mem, SimpleInterval.leftOK, SimpleInterval.rightOK]

theorem tree2_evidenceFor (v : Var) {V : Finset Var} (hv : v ∈ V) {a b : ℝ} (h : a < b) :
    EvidenceFor tree2 V (within v a b) where
  event := ⟨by simp [SimpleEvent.keys], by simpa [SimpleEvent.keys] using hv, by
    simp [VSet.Disjoint, SimpleInterval.IsEmpty, h.le, h.ne], by
    intro p hp n d hk _
    simp only [List.mem_singleton] at hp
    subst hp
    exact tree2_leaf (Q := fun d => Fits d _) (by simp [Fits]) (by simp [Fits]) (by simp [Fits]) (by simp [Fits]) n d hk⟩
  opens := by
    intro p hp _ _ _ _ _
    simp only [List.mem_singleton] at hp
    subst hp
    exact ⟨_, _, rfl⟩

/-- Told that `x₀ < ½`, asked for the marginal of `x₁`, stored, loaded, told that `x₁ > 1`, simplified. -/
noncomputable def tree2History : List Op :=
  [.given (within 0 (-1) (1 / 2)), .onto {1}, .reload 7, .given (within 1 1 9), .simplify]

theorem tree2_sensible : Sensible tree2 (tree2Scope 0) tree2History :=
  ⟨tree2_evidenceFor 0 (by simp [tree2Scope]) (by norm_num), by
    show Sensible tree2 (tree2Scope 0 ∩ {1}) _
    exact ⟨tree2_evidenceFor 1 (by simp [tree2Scope]) (by norm_num), trivial⟩⟩

/-- The model is still there at the end, with `x₁` alone. -/
example : ∃ g', history (fun _ => realLine) tree2 tree2History = .ok (some g') ∧ g'.circuitVars = .ok {1} ∧
    ∀ m, (g'.probability m (fun _ => realLine) [within 1 1 9]).2 = .ok 1 := by
  have hM := tree2_evidenceModel
  have hvars : variablesAfter (tree2Scope 0) tree2History = {1} := by
    show tree2Scope 0 ∩ {1} = {1}
    simp [tree2Scope]
  obtain ⟨res, h1, h2, h3⟩ := C106_history hM (by simp [tree2Scope]) tree2_sensible
  have hobs := sensible_observations tree2_sensible
  have hall := fun v => allowed_together hM hobs v
  have hT := eventFor_together hM (eventFor_nil _) _ fun E h => (hobs E h).event
  have a0 : allowed (together (observations tree2History) []) 0 = Set.Ioo (-1) (1 / 2 : ℝ) := by
    rw [hall]
    ext t
    simp only [tree2History, observations, List.mem_cons, List.not_mem_nil, or_false, forall_eq_or_imp, forall_eq, allowed_within]
    simp
  have a1 : allowed (together (observations tree2History) []) 1 = Set.Ioo (1 : ℝ) 9 := by
    rw [hall]
    ext t
    simp only [tree2History, observations, List.mem_cons, List.not_mem_nil, or_false, forall_eq_or_imp, forall_eq, allowed_within]
    simp
  have hval : CircuitValue tree2 (fun d => (leafLaw d).real (allowed (together (observations tree2History) []) d.var)) (fun n =>
      if n = 0 then 1 / 16 else if n = 1 then 1 / 4 else if n = 3 then 1 / 2 else if n = 4 then 1 / 2 else if n = 6 then 3 / 4 else 0) := by
    have o0 : tree2.outEdges 0 = [⟨0, 1, Ex.lw (1 / 4)⟩, ⟨0, 2, Ex.lw (3 / 4)⟩] := rfl
    have o1 : tree2.outEdges 1 = [⟨1, 3, none⟩, ⟨1, 4, none⟩] := rfl
    have o2 : tree2.outEdges 2 = [⟨2, 5, none⟩, ⟨2, 6, none⟩] := rfl
    refine Ex.value_of ?_ ?_ ?_
    · simp only [tree2_nodes, List.mem_cons, List.not_mem_nil, or_false, forall_eq_or_imp, forall_eq, Kind.leaf.injEq, reduceCtorEq,
        false_implies, implies_true, true_and, forall_eq', Leaf.var, a0, a1]
      rw [uniform_open 0 (by norm_num), uniform_open 1 (by norm_num), uniform_open 0 (by norm_num), uniform_open 1 (by norm_num)]
      norm_num
    · simp (disch := norm_num) [tree2_nodes, o0, Ex.linWeight_lw, -one_div]
      norm_num
    · simp [tree2_nodes, o1, o2]
      norm_num
  have hp := h2 freshMem _ (probability_eq hM.layered hM.smooth hM.valid hM.domain (by simpa using hT) (p := fun _ => _)
    (by simpa using hval) freshMem)
  cases res with
  | none =>
    rw [hvars] at hp
    simp at hp
  | some g' =>
    obtain ⟨j1, j2, _⟩ := h3 g' rfl
    rw [hvars] at j1 j2
    have := j2 (within 1 1 9) (by simp [tree2History, observations])
    rw [show about {1} (within 1 1 9) = within 1 1 9 from by simp only [about, List.filter]; rfl] at this
    exact ⟨g', h1, j1, this⟩

end PM.Props
