import Verif.Props.Consistent
import Verif.Props.Independence
import Verif.Props.JptSupport

/-! # C122: the possible points after a program are the possible points before it that satisfy the evidence -/

namespace PM.Props
open Spec Graph Classical MeasureTheory

variable {g : Circuit} {r : Node} {sc : Node → Finset Var} {dom : Var → VSet} {x : Var → ℝ}

/-- A leaf has a possible value in the domain of its variable. -/
theorem leaf_possible {d : Leaf} (hv : d.Valid) (hn : d.Normalized) (hdir : ∀ v l c, d ≠ .dirac v l c) {A : Set ℝ} (hA : MeasurableSet A)
    (h0 : leafLaw d Aᶜ = 0) : ∃ t ∈ A, 0 < leafDensity d t := by
  by_contra hno
  push Not at hno
  have hb : HasBase (fun _ => if HasDensity d then true else false) d := by
    cases d with
    | dirac v l c => exact absurd rfl (hdir v l c)
    | _ => simp [HasBase, HasDensity]
  have hA0 : leafLaw d A = 0 := by
    rw [leafLaw_base hv hb, withDensity_apply _ hA, setLIntegral_congr_fun hA (g := fun _ => 0)
      fun t ht => ENNReal.ofReal_of_nonpos (hno t ht)]
    simp
  have h1 := leafLaw_univ hv hn
  have h2 : leafLaw d Set.univ ≤ leafLaw d A + leafLaw d Aᶜ := by
    rw [← Set.union_compl_self A]
    exact measure_union_le _ _
  rw [h0, hA0, h1] at h2
  simp at h2

/-- A point of positive density in some of the variables can be completed. -/
theorem exists_extension (hM : EvidenceModel g r sc dom) {V : Finset Var} {q : Node → ℝ}
    (hq : CircuitValue g (fun d => if d.var ∈ V then leafDensity d (x d.var) else 1) q) {F : (Var → ℝ) → Node → ℝ}
    (hF : ∀ y, CircuitValue g (fun d => leafDensity d (y d.var)) (F y)) :
    ∀ n, n ∈ g.ids → 0 < q n → ∃ y, (∀ v ∈ V, y v = x v) ∧ (∀ v ∈ sc n, v ∉ V → y v ∈ (dom v).toSet) ∧ 0 < F y n := by
  have hL := hM.layered
  have hnn : ∀ n d, g.kind? n = some (.leaf d) → (0 : ℝ) ≤ if d.var ∈ V then leafDensity d (x d.var) else 1 := fun n d hk => by
    split
    · exact leafDensity_nonneg (hM.valid n d hk) _
    · exact zero_le_one
  have hq0 := circuitValue_nonneg hL.wf hL.graded.acyclic hq hnn
  have hF0 : ∀ y n, n ∈ g.ids → 0 ≤ F y n := fun y =>
    circuitValue_nonneg hL.wf hL.graded.acyclic (hF y) fun n d hk => leafDensity_nonneg (hM.valid n d hk) _
  refine hL.graded.acyclic.induct ?_
  intro n ih hn hpos
  have hid : ∀ e ∈ g.outEdges n, e.dst ∈ g.ids := fun e he => hL.wf.dstMem e (mem_outEdges.1 he).1
  obtain ⟨K, hk⟩ := exists_kind? hn
  cases K with
  | leaf d =>
    rw [hq.leaf n d hk] at hpos
    by_cases hd : d.var ∈ V
    · rw [if_pos hd] at hpos
      refine ⟨x, fun _ _ => rfl, fun v hv hvV => ?_, ?_⟩
      · rw [hM.smooth.leaf n d hk, Finset.mem_singleton] at hv
        exact absurd (hv ▸ hd) hvV
      · rw [(hF x).leaf n d hk]
        exact hpos
    · obtain ⟨t, ht, hpt⟩ := leaf_possible (hM.valid n d hk) (hM.leaves n d hk) (hM.noDirac n d hk) (VSet.measurableSet_toSet _)
        (hM.domain.covers n d hk)
      refine ⟨Function.update x d.var t, fun v hv => ?_, fun v hv _ => ?_, ?_⟩
      · exact Function.update_of_ne (fun h => hd (by rwa [← h])) _ _
      · rw [hM.smooth.leaf n d hk, Finset.mem_singleton] at hv
        rw [hv, Function.update_self]
        exact ht
      · rw [(hF _).leaf n d hk, Function.update_self]
        exact hpt
  | sum =>
    rw [hq.sum n hk] at hpos
    obtain ⟨e, he, hepos⟩ : ∃ e ∈ g.outEdges n, 0 < q e.dst := by
      by_contra hno
      push Not at hno
      refine hpos.ne' (List.sum_eq_zero fun a ha => ?_)
      obtain ⟨e, he, rfl⟩ := List.mem_map.1 ha
      rw [le_antisymm (hno e he) (hq0 _ (hid e he)), mul_zero]
    obtain ⟨y, h1, h2, h3⟩ := ih _ (dst_mem_succ he) (hid e he) hepos
    refine ⟨y, h1, fun v hv => h2 v (by rwa [hM.smooth.sum n hk _ (dst_mem_succ he)]), ?_⟩
    rw [(hF y).sum n hk]
    refine lt_of_lt_of_le (mul_pos (linWeight_pos_of hM.positive hk he) h3)
      (List.single_le_sum (fun a ha => ?_) _ (List.mem_map.2 ⟨e, he, rfl⟩))
    obtain ⟨e', he', rfl⟩ := List.mem_map.1 ha
    exact mul_nonneg (linWeight_pos_of hM.positive hk he').le (hF0 y _ (hid e' he'))
  | prod =>
    rw [hq.prod n hk] at hpos
    have hch : ∀ c ∈ g.succ n, ∃ y, (∀ v ∈ V, y v = x v) ∧ (∀ v ∈ sc c, v ∉ V → y v ∈ (dom v).toSet) ∧ 0 < F y c := by
      intro c hc
      obtain ⟨e, he, rfl⟩ : ∃ e ∈ g.outEdges n, e.dst = c := by simpa [succ, List.mem_map] using hc
      refine ih _ hc (hid e he) (lt_of_le_of_ne (hq0 _ (hid e he)) fun h0 => hpos.ne' ?_)
      exact List.prod_eq_zero (List.mem_map.2 ⟨e, he, h0.symm⟩)
    choose! Y hY1 hY2 hY3 using hch
    let y : Var → ℝ := fun v => if h : ∃ c ∈ g.succ n, v ∈ sc c then Y h.choose v else x v
    have huniq : ∀ c ∈ g.succ n, ∀ c' ∈ g.succ n, ∀ v, v ∈ sc c → v ∈ sc c' → c = c' := by
      intro c hc c' hc' v hv hv'
      by_contra hne
      have hdis := hM.decomposable n hk
      exact Finset.disjoint_left.1 (hdis.forall hc hc' hne) hv hv'
    have hy : ∀ c ∈ g.succ n, ∀ v ∈ sc c, y v = Y c v := by
      intro c hc v hv
      have hex : ∃ c ∈ g.succ n, v ∈ sc c := ⟨c, hc, hv⟩
      have : hex.choose = c := huniq _ hex.choose_spec.1 _ hc v hex.choose_spec.2 hv
      simp only [y, dif_pos hex, this]
    refine ⟨y, fun v hv => ?_, fun v hv hvV => ?_, ?_⟩
    · by_cases hex : ∃ c ∈ g.succ n, v ∈ sc c
      · simp only [y, dif_pos hex]
        exact hY1 _ hex.choose_spec.1 v hv
      · simp only [y, dif_neg hex]
    · obtain ⟨c, hc, hvc⟩ := (hM.smooth.prod n hk v).1 hv
      rw [hy c hc v hvc]
      exact hY2 c hc v hvc hvV
    · rw [(hF y).prod n hk]
      refine List.prod_pos fun a ha => ?_
      obtain ⟨e, he, rfl⟩ := List.mem_map.1 ha
      have hc := dst_mem_succ he
      rw [value_congr hL hM.smooth (hF y) (hF (Y e.dst)) (A := fun v => v ∈ sc e.dst)
        (fun m d _ hd => by rw [hy _ hc _ hd]) e.dst (hid e he) fun v hv => hv]
      exact hY3 _ hc

theorem mem_of_keys {V : Finset Var} {E : SimpleEvent} (hk : ∀ v ∈ E.keys, v ∈ V) {y : Var → ℝ} (h : ∀ v ∈ V, y v = x v) (hE : E.Mem x) :
    E.Mem y := fun p hp => by
  rw [h p.1 (hk _ (List.mem_map_of_mem hp))]
  exact hE p hp

/-- A point that is possible after variables were dropped is part of a point that was possible before. -/
theorem plain_back {g' : Circuit} {r' : Node} {sc' : Node → Finset Var} (hM : EvidenceModel g r sc dom) (h : SameLaw g g' r r' sc sc' dom)
    {l' : ℝ} {m' : Mem LogP} (hl : g'.likelihood m' x = .ok l') (hpos : 0 < l') :
    ∃ y, (∀ v ∈ sc' r', y v = x v) ∧ (∀ v ∈ sc r, v ∉ sc' r' → y v ∈ (dom v).toSet) ∧
      ∃ l, 0 < l ∧ ∀ m, g.likelihood m y = .ok l := by
  obtain ⟨f, hf, hlik⟩ := exists_lik hM
  obtain ⟨f', hf', hlik'⟩ := exists_lik h.model
  rw [hlik'] at hl
  obtain rfl := Except.ok.inj hl
  obtain ⟨q, hq⟩ := exists_circuitValue hM.layered.graded.acyclic
    (fun d : Leaf => if d.var ∈ sc' r' then leafDensity d (x d.var) else 1)
  obtain ⟨q', hq', hqr⟩ := h.value _ (fun n d _ hd => if_neg hd) q hq
  have hL' := h.model.layered
  have hq'' : CircuitValue g' (fun d => leafDensity d (x d.var)) q' := by
    refine ⟨fun n d hk => ?_, hq'.sum, hq'.prod⟩
    rw [hq'.leaf n d hk]
    exact if_pos (leaf_var_mem hL' h.model.smooth hk)
  rw [circuitValue_unique hL'.wf hL'.graded.acyclic (hf' x) hq'' r' (root_mem hL'.root).1, hqr] at hpos
  obtain ⟨y, h1, h2, h3⟩ := exists_extension hM hq hf r (root_mem hM.layered.root).1 hpos
  exact ⟨y, h1, h2, _, h3, fun m => hlik y m⟩

theorem history_back : ∀ (ops : List Op) {g : Circuit} {r : Node} {sc : Node → Finset Var}, EvidenceModel g r sc dom → (sc r).Nonempty →
    Sensible g (sc r) ops → (∀ v ∈ variablesAfter (sc r) ops, x v ∈ (dom v).toSet) → ∀ {g' : Circuit}, history dom g ops = .ok (some g') →
    ∀ {l' : ℝ} {m' : Mem LogP}, g'.likelihood m' x = .ok l' → 0 < l' →
      ∃ y, (∀ v ∈ variablesAfter (sc r) ops, y v = x v) ∧ (∀ v ∈ sc r, y v ∈ (dom v).toSet) ∧ (∀ E ∈ observations ops, E.Mem y) ∧
        ∃ l, 0 < l ∧ ∀ m, g.likelihood m y = .ok l
  | [], g, r, sc, hM, _, _, hx, g', h, l', m', hl, hpos => by
    cases Option.some.inj (Except.ok.inj h)
    refine ⟨x, fun _ _ => rfl, hx, by simp [observations], l', hpos, fun m => ?_⟩
    obtain ⟨f, _, hlik⟩ := exists_lik hM
    rw [hlik] at hl ⊢
    exact hl
  | op :: ops, g, r, sc, hM, hne, hS, hx, g', h, l', m', hl, hpos => by
    obtain ⟨hS1, hS2⟩ := sensible_cons hS
    by_cases hop : observations [op] = []
    · rw [observations_cons, hop, List.nil_append, variablesAfter_cons]
      rw [variablesAfter_cons] at hx
      rcases plain_step hM hne op hop with ⟨h1, h2⟩ | ⟨g₁, r₁, sc₁, h1, h2, h3, h4, h5⟩
      · rw [history, h1] at h
        cases h
      · rw [← h2] at hS2 hx ⊢
        rw [history, h1] at h
        obtain ⟨y₁, i1, i2, i3, l₁, i4, i5⟩ := history_back ops h5.model h3
          (sensible_transfer (U := sc₁ r₁) (fun V _ F hF => h5.from'.evidence hF) subset_rfl hS2) hx h hl hpos
        obtain ⟨y, j1, j2, j3⟩ := plain_back hM h5 (i5 freshMem) i4
        refine ⟨y, fun v hv => ?_, fun v hv => ?_, fun E hE => ?_, j3⟩
        · rw [j1 v (variablesAfter_subset _ _ hv), i1 v hv]
        · by_cases hv' : v ∈ sc₁ r₁
          · rw [j1 v hv']
            exact i2 v hv'
          · exact j2 v hv hv'
        · exact mem_of_keys (sensible_observations hS2 E hE).event.keys j1 (i3 E hE)
    · obtain ⟨E, rfl⟩ : ∃ E, op = .given E := by
        cases op with
        | given E => exact ⟨E, rfl⟩
        | _ => simp [observations] at hop
      have hE0 : EvidenceFor g (sc r) E := hS.1
      have hS2 : Sensible g (sc r) ops := hS.2
      have hx : ∀ v ∈ variablesAfter (sc r) ops, x v ∈ (dom v).toSet := hx
      obtain ⟨P, hP⟩ := exists_probValue hM.layered E
      have hprob := fun m => probability_eq hM.layered hM.smooth hM.valid hM.domain (Es := [E]) (by simpa using hE0.event) (p := fun _ => P)
        (by simpa using hP) m
      simp only [List.map_cons, List.map_nil, List.sum_cons, List.sum_nil, add_zero] at hprob
      have hnn : 0 ≤ P r := circuitValue_nonneg hM.layered.wf hM.layered.graded.acyclic hP (fun _ _ _ => measureReal_nonneg) r
        (root_mem hM.layered.root).1
      rcases hnn.eq_or_lt with h0 | hp
      · rw [history, Op.apply, conditional_dead hM hE0 hP h0.symm] at h
        cases h
      obtain ⟨g₁, r₁, h1, hM1, hsc, hEv, _, _, _⟩ := evidence_step hM hE0 (hprob freshMem) hp
      obtain ⟨g₂, z, h2, h3⟩ := C97_support hM.layered hM.smooth hM.decomposable hM.valid hM.positive hM.tree hM.domain (Es := [E])
        ⟨by simpa using hE0.event, by simpa using hM.proper hE0, by simpa using hM.one hE0⟩ (hprob freshMem) hp
      rw [h1] at h2
      simp only [Except.ok.injEq, Prod.mk.injEq, Option.some.injEq] at h2
      obtain ⟨rfl, rfl⟩ := h2
      rw [history, Op.apply, h1] at h
      obtain ⟨y, i1, i2, i3, l₁, i4, i5⟩ := history_back ops hM1 (hsc ▸ hne) (sensible_transfer (U := sc r) (fun V hV F hF =>
          EvidenceFor.narrow (hEv F (EvidenceFor.widen hV hF)) hF.event.keys) hsc.subset (hsc ▸ hS2)) (hsc ▸ hx) h hl hpos
      rw [hsc] at i1 i2
      obtain ⟨f, _, hlik⟩ := exists_lik hM
      obtain ⟨q, p', hq, hp', _, hiff⟩ := h3 y (fun E _ v hv _ => i2 v hv) freshMem freshMem
      rw [i5] at hq
      obtain rfl := Except.ok.inj hq
      obtain ⟨k1, E', hE', k2⟩ := hiff.1 i4
      rw [List.mem_singleton] at hE'
      subst hE'
      refine ⟨y, i1, i2, fun F hF => ?_, p', k1, fun m => ?_⟩
      · rcases List.mem_cons.1 hF with rfl | hF
        · exact k2
        · exact i3 F hF
      · rw [hlik] at hp' ⊢
        exact hp'

/-- **C122**: whatever the order in which evidence is entered and variables are dropped, a point over the variables that are left is possible
in the model at the end exactly if it is part of a point that was possible in the model at the start and satisfies all the evidence. -/
theorem C122_possible (hM : EvidenceModel g r sc dom) {ops : List Op} (hS : Sensible g (sc r) ops) {g' : Circuit}
    (hg : history dom g ops = .ok (some g')) (hleft : (variablesAfter (sc r) ops).Nonempty)
    (hx : ∀ v ∈ variablesAfter (sc r) ops, x v ∈ (dom v).toSet) (m : Mem LogP) :
    ∃ l', g'.likelihood m x = .ok l' ∧ 0 ≤ l' ∧
      (0 < l' ↔ ∃ y, (∀ v ∈ variablesAfter (sc r) ops, y v = x v) ∧ (∀ v ∈ sc r, y v ∈ (dom v).toSet) ∧
        (∀ E ∈ observations ops, E.Mem y) ∧ ∃ l, 0 < l ∧ ∀ m, g.likelihood m y = .ok l) := by
  have hne : (sc r).Nonempty := hleft.mono (variablesAfter_subset _ _)
  obtain ⟨res, h1, _, h2⟩ := history_spec ops hM hne hS
  rw [hg] at h1
  obtain ⟨r', sc', hM', hsc, _⟩ := h2 g' (Except.ok.inj h1).symm
  obtain ⟨f, hf, hlik⟩ := exists_lik hM'
  refine ⟨f x r', hlik x m, circuitValue_nonneg hM'.layered.wf hM'.layered.graded.acyclic (hf x)
    (fun n d hk => leafDensity_nonneg (hM'.valid n d hk) _) r' (root_mem hM'.layered.root).1, fun hpos => ?_, ?_⟩
  · exact history_back ops hM hne hS hx hg (hlik x m) hpos
  · rintro ⟨y, i1, i2, i3, l, i4, i5⟩
    obtain ⟨g₂, j1, j2, _⟩ := C121_possible hM hS i2 i3 hleft (i5 freshMem) i4
    rw [hg] at j1
    cases Option.some.inj (Except.ok.inj j1)
    obtain ⟨l', k1, k2⟩ := j2 m
    rw [hlik] at k1
    rw [value_congr hM'.layered hM'.smooth (hf x) (hf y) (A := fun v => v ∈ sc' r') (fun n d _ hd => by rw [i1 _ (hsc ▸ hd)]) r'
      (root_mem hM'.layered.root).1 fun v hv => hv, Except.ok.inj k1]
    exact k2

/-! ### Learned trees -/

open Learn.Jpt

variable {S : Settings} {I : Impurity} {data : List Row}

/-- A symbolic leaf considers nothing outside of the domain possible. -/
theorem symbolic_in_domain {v : Var} {probs : List (ℤ × ℝ)} (hv : (Leaf.symbolic v probs).Valid) {A : Set ℝ}
    (h0 : leafLaw (.symbolic v probs) Aᶜ = 0) {t : ℝ} (ht : 0 < leafDensity (.symbolic v probs) t) : t ∈ A := by
  by_contra hno
  refine ht.ne' ?_
  have : leafDensity (.symbolic v probs) t = (leafLaw (.symbolic v probs)).real {t} := discrete_density_real probs hv.1 t
  rw [this, measureReal_def, measure_mono_null (Set.singleton_subset_iff.2 hno) h0, ENNReal.toReal_zero]

/-- Every variable of a possible point has a leaf that considers its value possible. -/
theorem possible_leaf (hM : EvidenceModel g r sc dom) {f : Node → ℝ} (hf : CircuitValue g (fun d => leafDensity d (x d.var)) f) {v : Var} :
    ∀ n, n ∈ g.ids → 0 < f n → v ∈ sc n → ∃ k d, g.kind? k = some (.leaf d) ∧ d.var = v ∧ 0 < leafDensity d (x v) := by
  have hL := hM.layered
  have hf0 := circuitValue_nonneg hL.wf hL.graded.acyclic hf fun n d hk => leafDensity_nonneg (hM.valid n d hk) _
  refine hL.graded.acyclic.induct ?_
  intro n ih hn hpos hv
  have hid : ∀ e ∈ g.outEdges n, e.dst ∈ g.ids := fun e he => hL.wf.dstMem e (mem_outEdges.1 he).1
  obtain ⟨K, hk⟩ := exists_kind? hn
  cases K with
  | leaf d =>
    rw [hM.smooth.leaf n d hk, Finset.mem_singleton] at hv
    subst hv
    rw [hf.leaf n d hk] at hpos
    exact ⟨n, d, hk, rfl, hpos⟩
  | sum =>
    rw [hf.sum n hk] at hpos
    obtain ⟨e, he, hepos⟩ : ∃ e ∈ g.outEdges n, 0 < f e.dst := by
      by_contra hno
      push Not at hno
      refine hpos.ne' (List.sum_eq_zero fun a ha => ?_)
      obtain ⟨e, he, rfl⟩ := List.mem_map.1 ha
      rw [le_antisymm (hno e he) (hf0 _ (hid e he)), mul_zero]
    exact ih _ (dst_mem_succ he) (hid e he) hepos (by rwa [hM.smooth.sum n hk _ (dst_mem_succ he)])
  | prod =>
    rw [hf.prod n hk] at hpos
    obtain ⟨c, hc, hvc⟩ := (hM.smooth.prod n hk v).1 hv
    obtain ⟨e, he, rfl⟩ : ∃ e ∈ g.outEdges n, e.dst = c := by simpa [succ, List.mem_map] using hc
    exact ih _ hc (hid e he) (lt_of_le_of_ne (hf0 _ (hid e he)) fun h0 => hpos.ne' (List.prod_eq_zero (List.mem_map.2 ⟨e, he, h0.symm⟩))) hvc

/-- A possible point of a model over columns is in the domains of the columns. -/
theorem possible_domain (hM : EvidenceModel g r sc dom) (hdom : ColumnDomains S.columns dom) {l : ℝ} {m : Mem LogP}
    (hl : g.likelihood m x = .ok l) (hpos : 0 < l) {c : Column} (hc : c ∈ S.columns) (hco : ∀ v, c ≠ .other v) (hv : columnVar c ∈ sc r) :
    x (columnVar c) ∈ (dom (columnVar c)).toSet := by
  have hd := hdom.domain c hc
  cases c with
  | other v => exact absurd rfl (hco v)
  | continuous P => obtain ⟨J, hJ, hall⟩ := hd; rw [hJ]; exact hall _
  | integer v => obtain ⟨J, hJ, hall⟩ := hd; rw [hJ]; exact hall _
  | symbolic v dm =>
    obtain ⟨s, hs, _⟩ := hd
    obtain ⟨f, hf, hlik⟩ := exists_lik hM
    rw [hlik] at hl
    rw [← Except.ok.inj hl] at hpos
    obtain ⟨k, d, hk, hdv, hdp⟩ := possible_leaf hM (hf x) r (root_mem hM.layered.root).1 hpos hv
    have hfit := hM.domain.fits k d hk
    have hcov := hM.domain.covers k d hk
    rw [hdv] at hfit hcov
    change Fits d (dom v) at hfit
    rw [hs] at hfit
    cases d with
    | symbolic u probs => exact symbolic_in_domain (hM.valid _ _ hk) hcov hdp
    | _ => exact hfit.elim

/-- C122, full, for learned trees: after any program a point is possible exactly if it is part of a point that satisfies the evidence and
resembles the training rows of one leaf of the tree. -/
def C122_full : Prop :=
  ∀ (S : Settings) (I : Impurity) (data : List Row), TreeInput S data →
    SplitContract I S.minImprovement (requiredSamples S.minSamplesLeaf data.length) → ∀ q st, fit S I data [] = (q, .ok st) →
    ∀ dom : Var → VSet, ColumnDomains S.columns dom → (∀ P, Column.continuous P ∈ S.columns → OneOpen (dom P.var)) →
    ∀ ops, ColumnSensible S.columns (S.columns.map columnVar).toFinset ops →
      (variablesAfter (S.columns.map columnVar).toFinset ops).Nonempty → ∀ g', history dom st.circuit ops = .ok (some g') →
      ∀ (x : Var → ℝ) m, ∃ l, g'.likelihood m x = .ok l ∧
        (0 < l ↔ ∃ y : Var → ℝ, (∀ v ∈ variablesAfter (S.columns.map columnVar).toFinset ops, y v = x v) ∧
          (∀ E ∈ observations ops, E.Mem y) ∧ ∃ idx ∈ leafSamples st, ∀ ci ∈ S.columns.zipIdx, Resembles y (trainingRows data idx) ci)

/-- **C122**, learned trees: after any program of conditioning, marginalisation, simplification, normalisation, copying and reloading, a point
is possible exactly if its missing entries can be filled in such that it satisfies all the evidence and resembles, in every column, the
training rows of one leaf of the tree. -/
theorem C122_learned_partial (h : TreeInput S data)
    (hI : SplitContract I S.minImprovement (requiredSamples S.minSamplesLeaf data.length)) {q : List Task} {st : State}
    (hfit : fit S I data [] = (q, .ok st)) (hh : ∀ x ∈ data, ∀ ci ∈ S.columns.zipIdx, HashesToItself x ci) {dom : Var → VSet}
    (hdom : ColumnDomains S.columns dom) (hline : ∀ P, Column.continuous P ∈ S.columns → OneOpen (dom P.var))
    (hdirac : ∀ P, Column.continuous P ∈ S.columns → ∀ n x c, st.circuit.kind? n ≠ some (.leaf (.dirac P.var x c)))
    {ops : List Op} (hops : ColumnSensible S.columns (S.columns.map columnVar).toFinset ops)
    (hleft : (variablesAfter (S.columns.map columnVar).toFinset ops).Nonempty) {g' : Circuit}
    (hres : history dom st.circuit ops = .ok (some g')) (x : Var → ℝ) (m : Mem LogP) :
    ∃ l, g'.likelihood m x = .ok l ∧ 0 ≤ l ∧
      (0 < l ↔ ∃ y : Var → ℝ, (∀ v ∈ variablesAfter (S.columns.map columnVar).toFinset ops, y v = x v) ∧
        (∀ E ∈ observations ops, E.Mem y) ∧ ∃ idx ∈ leafSamples st, ∀ ci ∈ S.columns.zipIdx, Resembles y (trainingRows data idx) ci) := by
  have hfit0 := hfit
  obtain ⟨st', E, hfit', hE⟩ := fit_ok h (minSamples_eq S data.length ▸ hI)
  rw [hfit] at hfit'
  simp only [Prod.mk.injEq, Except.ok.injEq] at hfit'
  obtain ⟨rfl, rfl⟩ := hfit'
  obtain ⟨sc, hM, hsc⟩ := tree_evidenceModel h hE hh hdom hline hdirac
  rw [← hsc] at hops hleft ⊢
  have hS := column_sensible h hE hops
  have hne : (sc 0).Nonempty := hleft.mono (variablesAfter_subset _ _)
  obtain ⟨res, h1, _, h2⟩ := history_spec ops hM hne hS
  rw [hres] at h1
  obtain ⟨r', sc', hM', hsc', _⟩ := h2 g' (Except.ok.inj h1).symm
  obtain ⟨f, hf, hlik⟩ := exists_lik hM'
  have hother : ∀ c ∈ S.columns, ∀ v, c ≠ .other v := by
    rintro c hc v rfl
    obtain ⟨i, hi, hci⟩ := List.mem_iff_getElem.1 hc
    exact h.columns (.other v, i) (by simp [List.mem_zipIdx_iff_getElem?, hi, hci])
  have hcol : ∀ v ∈ sc 0, ∃ c ∈ S.columns, columnVar c = v := fun v hv => by
    rw [hsc, List.mem_toFinset] at hv
    exact List.mem_map.1 hv
  -- possible points of the tree
  have hposs : ∀ y, (∃ l, 0 < l ∧ ∀ m, st.circuit.likelihood m y = .ok l) ↔
      ∃ idx ∈ leafSamples st, ∀ ci ∈ S.columns.zipIdx, Resembles y (trainingRows data idx) ci := by
    intro y
    obtain ⟨l, _, k1, k2⟩ := C118_possible_partial h hI hh hfit0 y
    rw [← k2]
    constructor
    · rintro ⟨l', k3, k4⟩
      rw [← Except.ok.inj ((k4 freshMem).symm.trans (k1 freshMem))]
      exact k3
    · exact fun k3 => ⟨l, k3, k1⟩
  refine ⟨f x r', hlik x m, circuitValue_nonneg hM'.layered.wf hM'.layered.graded.acyclic (hf x)
    (fun n d hk => leafDensity_nonneg (hM'.valid n d hk) _) r' (root_mem hM'.layered.root).1, ?_⟩
  constructor
  · intro hpos
    have hx : ∀ v ∈ variablesAfter (sc 0) ops, x v ∈ (dom v).toSet := fun v hv => by
      obtain ⟨c, hc, rfl⟩ := hcol v (variablesAfter_subset _ _ hv)
      exact possible_domain hM' hdom (hlik x m) hpos hc (hother c hc) (hsc' ▸ hv)
    obtain ⟨y, i1, _, i3, i4⟩ := history_back ops hM hne hS hx hres (hlik x m) hpos
    exact ⟨y, i1, i3, (hposs y).1 i4⟩
  · rintro ⟨y, i1, i3, i4⟩
    obtain ⟨l, j1, j2⟩ := (hposs y).2 i4
    have hy : ∀ v ∈ sc 0, y v ∈ (dom v).toSet := fun v hv => by
      obtain ⟨c, hc, rfl⟩ := hcol v hv
      exact possible_domain hM hdom (j2 freshMem) j1 hc (hother c hc) hv
    obtain ⟨l', k1, _, k2⟩ := C122_possible hM hS hres hleft (x := x) (fun v hv => by
      rw [← i1 v hv]
      exact hy v (variablesAfter_subset _ _ hv)) m
    rw [hlik] at k1
    rw [Except.ok.inj k1]
    exact k2.2 ⟨y, i1, hy, i3, l, j1, j2⟩

/-- **C122**, samples: whatever the random numbers, every row the model at the end samples can be completed to a point that satisfies all the
evidence and resembles, in every column, the training rows of one leaf of the tree. -/
theorem C122_samples_partial (h : TreeInput S data)
    (hI : SplitContract I S.minImprovement (requiredSamples S.minSamplesLeaf data.length)) {q : List Task} {st : State}
    (hfit : fit S I data [] = (q, .ok st)) (hh : ∀ x ∈ data, ∀ ci ∈ S.columns.zipIdx, HashesToItself x ci) {dom : Var → VSet}
    (hdom : ColumnDomains S.columns dom) (hline : ∀ P, Column.continuous P ∈ S.columns → OneOpen (dom P.var))
    (hdirac : ∀ P, Column.continuous P ∈ S.columns → ∀ n x c, st.circuit.kind? n ≠ some (.leaf (.dirac P.var x c)))
    {ops : List Op} (hops : ColumnSensible S.columns (S.columns.map columnVar).toFinset ops)
    (hleft : (variablesAfter (S.columns.map columnVar).toFinset ops).Nonempty) {g' : Circuit}
    (hres : history dom st.circuit ops = .ok (some g')) {draws : Outcomes} (hp : Possible g' draws) (hin : InSupport g' draws) (amount : ℕ) :
    ∃ log, g'.sample draws amount = .ok log ∧ ∀ ρ < amount, ∃ y : Var → ℝ,
      (∀ v ∈ variablesAfter (S.columns.map columnVar).toFinset ops, cell log ρ v = some (y v)) ∧
      (∀ E ∈ observations ops, E.Mem y) ∧ ∃ idx ∈ leafSamples st, ∀ ci ∈ S.columns.zipIdx, Resembles y (trainingRows data idx) ci := by
  obtain ⟨r', sc', hM', hsc', _⟩ := tree_history h hI hfit hh hdom hline hdirac (by
    rintro h0
    obtain ⟨v, hv⟩ := hleft
    simpa [h0] using variablesAfter_subset _ _ hv) hops hres
  have hvs := circuitVars_eq hM'.layered.wf hM'.layered.graded.acyclic hM'.smooth hM'.layered.root
  obtain ⟨log, vs, hlog, hvs', _, _, hcell⟩ := C18_cells hM'.layered hM'.smooth hM'.decomposable hM'.normalized hp amount
  rw [hvs] at hvs'
  obtain rfl := Except.ok.inj hvs'
  refine ⟨log, hlog, fun ρ hρ => ?_⟩
  have hx : ∀ v ∈ sc' r', cell log ρ v = some ((cell log ρ v).getD 0) := by
    intro v hv
    obtain ⟨y, hy⟩ := Option.isSome_iff_exists.1 ((hcell ρ v).2 ⟨hρ, hv⟩)
    rw [hy]
    rfl
  obtain ⟨⟨l, hl, hpos⟩, _⟩ := C18_positive hM'.layered hM'.smooth hM'.decomposable hM'.normalized hM'.valid hp hin amount hlog hvs hρ
    (fun v => (cell log ρ v).getD 0) hx freshMem
  obtain ⟨l', k1, _, k2⟩ := C122_learned_partial h hI hfit hh hdom hline hdirac hops hleft hres (fun v => (cell log ρ v).getD 0) freshMem
  rw [hl] at k1
  obtain rfl := Except.ok.inj k1
  obtain ⟨y, i1, i2, i3⟩ := k2.1 hpos
  refine ⟨y, fun v hv => ?_, i2, i3⟩
  rw [i1 v hv]
  exact hx v (hsc' ▸ hv)

/-- The full claim fails for a tree that was learned from the integer -1, which is stored as -2. -/
theorem C122_full_false : ¬ C122_full := by
  intro hall
  refine C60_full_false ?_
  intro S I data h hI q st hfit x hx p hp
  by_cases hc : S.columns = []
  · exact C60_positive_partial h hI hfit hx hp (by simp [hc])
  obtain ⟨dom, hdom, hline⟩ := columnDomains_exist h
  obtain ⟨c, hcm⟩ := List.exists_mem_of_ne_nil _ hc
  obtain ⟨l, hl, hiff⟩ := hall S I data h hI q st hfit dom hdom hline [] trivial
    ⟨columnVar c, List.mem_toFinset.2 (List.mem_map_of_mem hcm)⟩ _ rfl p freshMem
  obtain ⟨st', E, hfit', hE⟩ := fit_ok h (minSamples_eq S data.length ▸ hI)
  rw [hfit] at hfit'
  simp only [Prod.mk.injEq, Except.ok.injEq] at hfit'
  obtain ⟨rfl, rfl⟩ := hfit'
  obtain ⟨i, hi, hxi⟩ := List.mem_iff_getElem.1 hx
  obtain ⟨idx, hidx, hil⟩ := List.mem_flatten.1 ((partition_of hE).mem_iff.2 (by simpa using hi))
  have hxr : x ∈ trainingRows data idx := List.mem_map.2 ⟨i, hil, by rw [List.getD_eq_getElem _ _ hi, hxi]⟩
  refine ⟨l, hiff.2 ⟨p, fun _ _ => rfl, by simp [observations], idx, hidx, fun ci hci => ?_⟩, fun m => ?_⟩
  · have ha := hp ci hci
    obtain ⟨c, j⟩ := ci
    cases c with
    | other v => exact ha.elim
    | continuous P => exact ⟨⟨x, hxr, (show p P.var = x.real j from ha).ge⟩, x, hxr, (show p P.var = x.real j from ha).le⟩
    | symbolic v dm => exact ⟨x, hxr, ha⟩
    | integer v => exact ⟨x, hxr, ha⟩
  · rw [tree_likelihood hE p] at hl ⊢
    exact hl

/-- A tree over a symbol and an integer, conditioned on the symbol being 0 or 1 and then reduced to the integer: 1 is possible, because of the
second row, and 5 is not, because it does not occur in the data. -/
theorem C122_example : ∃ q st g' l, fit symbolAndNumber firstSample [row 0, row 1, row 2] [] = (q, .ok st) ∧
    history symbolAndNumberDomain st.circuit [.given zeroOrOne, .onto {1}] = .ok (some g') ∧
    0 < l ∧ g'.likelihood freshMem (fun _ => 1) = .ok l ∧ g'.likelihood freshMem (fun _ => 5) = .ok 0 := by
  obtain ⟨q, st, g', _, _, _, _, hfit, hres, _⟩ := C120_example
  have hafter : variablesAfter (symbolAndNumber.columns.map columnVar).toFinset [.given zeroOrOne, .onto {1}] = {1} := by
    simp only [variablesAfter, symbolAndNumber, columnVar, List.map]
    decide
  have hlearned := fun x => C122_learned_partial symbolAndNumber_input (symbolAndNumber_contract _) hfit symbolAndNumber_hash
    symbolAndNumber_domains (by simp [symbolAndNumber]) (by simp [symbolAndNumber]) zeroOrOne_program (by rw [hafter]; simp) hres
    x freshMem
  obtain ⟨l, h1, _, h2⟩ := hlearned (fun _ => 1)
  obtain ⟨l', h3, h4, h5⟩ := hlearned (fun _ => 5)
  refine ⟨q, st, g', l, hfit, hres, h2.2 ⟨fun _ => 1, fun _ _ => rfl, by simp [observations, zeroOrOne, SimpleEvent.Mem, VSet.Mem], ?_⟩, h1, ?_⟩
  · obtain ⟨k, _, hk, hiff⟩ := C118_possible_partial symbolAndNumber_input (symbolAndNumber_contract _) symbolAndNumber_hash hfit (fun _ => 1)
    obtain ⟨k', hpos, hk'⟩ := C60_positive_partial symbolAndNumber_input (symbolAndNumber_contract _) hfit (x := row 1) (by simp)
      (p := fun _ => 1) (by
        intro ci hci
        simp only [symbolAndNumber, List.zipIdx_cons, List.zipIdx_nil, List.mem_cons, List.not_mem_nil, or_false] at hci
        rcases hci with rfl | rfl
        · exact ⟨(1, 1), by simp, rfl, by norm_num⟩
        · simp [Agrees, row]) (symbolAndNumber_hash (row 1) (by simp))
    obtain rfl := Except.ok.inj ((hk freshMem).symm.trans (hk' freshMem))
    exact hiff.1 hpos
  · rw [h3]
    refine congrArg _ (le_antisymm (not_lt.1 fun hpos => ?_) h4)
    obtain ⟨y, i1, _, i3⟩ := h5.1 hpos
    obtain ⟨k, _, hk, hiff⟩ := C118_possible_partial symbolAndNumber_input (symbolAndNumber_contract _) symbolAndNumber_hash hfit y
    obtain ⟨z, hz, hyz⟩ := C118_integers_partial symbolAndNumber_input (symbolAndNumber_contract _) symbolAndNumber_hash hfit (hk freshMem)
      (hiff.2 i3) (v := 1) (i := 1) (by simp [symbolAndNumber])
    rw [i1 1 (by rw [hafter]; simp)] at hyz
    simp only [List.mem_cons, List.not_mem_nil, or_false] at hz
    rcases hz with rfl | rfl | rfl <;> norm_num [row] at hyz

end PM.Props
