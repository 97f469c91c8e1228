import Verif.Spec.Uniform
import Verif.Circuit.CondReady
import Verif.Dist.DictLemmas

/-! Helper lemmas for C50. -/

namespace PM.Graph

open Classical Spec MeasureTheory

theorem mapM_eq_map {α β : Type} {f : α → Except PyErr β} {h : α → β} {l : List α} (hf : ∀ a ∈ l, f a = .ok (h a)) :
    l.mapM f = .ok (l.map h) := by
  induction l with
  | nil => rfl
  | cons a l ih =>
    rw [List.mapM_cons, hf a (by simp), ih fun b hb => hf b (by simp [hb])]
    rfl

/-- The length of an interval. -/
noncomputable def len (i : SimpleInterval) : ℝ := i.upper.toReal - i.lower.toReal

/-- The uniform distribution over an interval. -/
noncomputable def unif (v : Var) (i : SimpleInterval) : Leaf := .uniform v i.lower.toReal i.upper.toReal i.left i.right

/-- What the component of a variable computes from the values of its leaves. -/
noncomputable def partValue (ty : Var → VarType) (p : Var × VSet) (ℓ : Leaf → ℝ) : ℝ :=
  match ty p.1, p.2 with
  | .continuous, .interval I =>
    (I.map fun i => Real.exp (len i) / (I.map fun j => Real.exp (len j)).sum * ℓ (unif p.1 i)).sum
  | .symbolic, .symbols S => ℓ (.symbolic p.1 (S.map fun k => (k, 1 / (S.length : ℝ))))
  | .integer, .interval I => ℓ (.integer p.1 (I.map fun i => (⌊i.lower.toReal⌋, 1 / (I.length : ℝ))))
  | _, _ => 0

/-- The leaves of the component of a variable. -/
def PartLeaf (ty : Var → VarType) (p : Var × VSet) (d : Leaf) : Prop :=
  match ty p.1, p.2 with
  | .continuous, .interval I => ∃ i ∈ I, d = unif p.1 i
  | .symbolic, .symbols S => d = .symbolic p.1 (S.map fun k => (k, 1 / (S.length : ℝ)))
  | .integer, .interval I => d = .integer p.1 (I.map fun i => (⌊i.lower.toReal⌋, 1 / (I.length : ℝ)))
  | _, _ => False

/-- The keys of an integer set. -/
theorem intKeys_nodup {I : List SimpleInterval} (hd : (VSet.interval I).Disjoint)
    (hi : ∀ i ∈ I, ∃ k : ℤ, i = ⟨((k : ℝ) : EReal), ((k : ℝ) : EReal), .closed, .closed⟩) :
    (I.map fun i => ⌊i.lower.toReal⌋).Nodup := by
  rw [List.Nodup, List.pairwise_map]
  refine List.Pairwise.imp_of_mem ?_ hd.1
  intro a b ha hb hab hne
  obtain ⟨k, rfl⟩ := hi a ha
  obtain ⟨l, rfl⟩ := hi b hb
  simp only [EReal.toReal_coe, Int.floor_intCast] at hne
  subst hne
  exact hab k ⟨⟨le_refl _, le_refl _⟩, ⟨le_refl _, le_refl _⟩⟩

theorem foldl_set_eq {c : ℝ} : ∀ (ks : List ℤ) (d : Dict ℤ ℝ), (d.map Prod.fst ++ ks).Nodup →
    ks.foldl (fun d k => Dict.set d k c) d = d ++ ks.map fun k => (k, c)
  | [], d, _ => by simp
  | k :: ks, d, h => by
    have hk : k ∉ d.map Prod.fst := by
      rw [List.nodup_append] at h
      exact fun hk => h.2.2 k hk k (by simp) rfl
    rw [List.foldl_cons, Dict.set_new hk, foldl_set_eq ks _ (by simpa using h)]
    simp

theorem bounded_valid {ty : Var → VarType} {p : Var × VSet} (h : BoundedSet (ty p.1) p.2) {d : Leaf} (hd : PartLeaf ty p d) :
    d.Valid ∧ d.Normalized ∧ d.var = p.1 := by
  obtain ⟨v, A⟩ := p
  simp only at h ⊢
  unfold PartLeaf at hd
  simp only at hd
  cases ht : ty v <;> cases A <;> simp only [ht] at hd h <;> try exact absurd h id
  · obtain ⟨i, hi, rfl⟩ := hd
    obtain ⟨a, b, h1, h2, h3⟩ := h.2.2 i hi
    refine ⟨?_, trivial, rfl⟩
    simp only [unif, Leaf.Valid, h1, h2, EReal.toReal_coe]
    exact h3
  · subst hd
    rename_i S
    refine ⟨⟨?_, ?_⟩, ?_, rfl⟩
    · intro kp hkp
      obtain ⟨k, _, rfl⟩ := List.mem_map.1 hkp
      positivity
    · simpa [Function.comp_def] using h.2
    · have : (S.length : ℝ) ≠ 0 := by simpa using h.1
      simp [Leaf.Normalized, Function.comp_def, this]
  · subst hd
    rename_i I
    refine ⟨⟨?_, ?_⟩, ?_, rfl⟩
    · intro kp hkp
      obtain ⟨k, _, rfl⟩ := List.mem_map.1 hkp
      positivity
    · simpa [Function.comp_def] using intKeys_nodup h.2.1 h.2.2
    · have : (I.length : ℝ) ≠ 0 := by simpa using h.1
      simp [Leaf.Normalized, Function.comp_def, this]

theorem zipIdx_fst {α β : Type} (f : α → β) (I : List α) : (I.zipIdx.map fun q => f q.1) = I.map f := by
  rw [show (fun q : α × ℕ => f q.1) = f ∘ Prod.fst from rfl, ← List.map_map]
  congr 1
  simp

/-- The children of the sum units are leaves. -/
def LeafySums (g : Circuit) : Prop := ∀ n, g.kind? n = some .sum → ∀ e ∈ g.outEdges n, ∃ d, g.kind? e.dst = some (.leaf d)

theorem LeafySums.copyAt {g : Circuit} (hw : g.WF) (h : LeafySums g) (off : ℕ) : LeafySums (g.copyAt off) := by
  intro k hk e he
  obtain ⟨n, rfl, h'⟩ := exists_of_kind?_copyAt hk
  rw [outEdges_copyAt hw] at he
  obtain ⟨e', he', rfl⟩ := List.mem_map.1 he
  obtain ⟨d, hd⟩ := h n h' e' he'
  exact ⟨d, (kind?_copyAt g off e'.dst).trans hd⟩

theorem leafySums_leaf (n : Node) (d : Leaf) : LeafySums (newUnit n (.leaf d)) := by
  intro m hk
  have hm := mem_ids_of_kind? hk
  simp only [ids_newUnit, List.mem_singleton] at hm
  subst hm
  rw [kind?_newUnit] at hk
  cases hk

theorem leafySums_mix {u : Node} {E : List (Node × Leaf × LogP)} (h : FreshIds u E) : LeafySums (leafMix u E) := by
  intro n hk e he
  rw [h.sum_iff] at hk
  subst hk
  rw [h.out] at he
  obtain ⟨x, hx, rfl⟩ := List.mem_map.1 he
  exact ⟨_, h.kindLeaf hx⟩

theorem leafySums_attach_prod {ι : Type} {G : ι → Circuit} {o : ι → Node} {u : Node} {is : List ι}
    (hd : ∀ i ∈ is, Layered (G i) (o i)) (hn : ∀ i ∈ is, LeafySums (G i)) :
    LeafySums ((newUnit u .prod).attachAll u (partsOf G o (fun _ => none) is)) := by
  obtain ⟨offs, _, hA, _, _⟩ := attachAll_assembled (w := fun _ => none) (u := u) (k := .prod) (by simp) (fun h => by cases h) hd
  intro n hk e he
  rcases (mem_ids_assembled hA).1 (mem_ids_of_kind? hk) with rfl | ⟨p, hp, h⟩
  · rw [kind_assembled hA] at hk
    cases hk
  · have hL := Layered.copyAt (hd p.1 (List.of_mem_zip hp).1) p.2
    rw [kind_assembled_part hA hp h] at hk
    rw [out_assembled_part hA hp h] at he
    rw [kind_assembled_part hA hp (hL.wf.dstMem e (List.mem_filter.1 he).1)]
    exact (hn p.1 (List.of_mem_zip hp).1).copyAt (hd p.1 (List.of_mem_zip hp).1).wf p.2 n hk e he

/-- What the loop body adds for a variable. -/
theorem component_spec {ty : Var → VarType} {p : Var × VSet} (h : BoundedSet (ty p.1) p.2) :
    ∃ g, uniformComponent ty p = .ok (g, 0, none) ∧ Denotes g 0 {p.1} (partValue ty p) ∧ Neat g ∧
      (∀ n d, g.kind? n = some (.leaf d) → PartLeaf ty p d) ∧ LeafySums g := by
  have hval := fun d => bounded_valid h (d := d)
  obtain ⟨v, A⟩ := p
  simp only at h ⊢
  unfold uniformComponent
  unfold PartLeaf at hval ⊢
  unfold partValue
  have hleaf : ∀ d : Leaf, ∀ n d', (newUnit 0 (.leaf d)).kind? n = some (.leaf d') → d' = d := by
    intro d n d' hk
    have hm := mem_ids_of_kind? hk
    simp only [ids_newUnit, List.mem_singleton] at hm
    subst hm
    rw [kind?_newUnit] at hk
    injection hk with hk
    injection hk with hk
    exact hk.symm
  simp only at hval ⊢
  cases ht : ty v <;> cases A <;> simp only [ht] at h hval ⊢ <;> try exact absurd h id
  · rename_i I
    have hpart : ∀ i ∈ I, uniformPart v i = .ok (unif v i, .fin (len i)) := by
      intro i hi
      obtain ⟨a, b, h1, h2, h3⟩ := h.2.2 i hi
      unfold uniformPart unif len
      have e1 : i.lower.toReal = a := by rw [h1, EReal.toReal_coe]
      have e2 : i.upper.toReal = b := by rw [h2, EReal.toReal_coe]
      rw [if_neg (by rw [h1, h2]; simp), if_neg (by rw [e1, e2]; exact h3.ne'), Real.exp_neg, one_div, inv_inv,
        Real.exp_log (by rw [e1, e2]; linarith)]
    set E : List (Node × Leaf × LogP) := (I.map fun i => (unif v i, LogP.fin (len i))).zipIdx.map fun q => (q.2 + 1, q.1.1, q.1.2)
      with hE
    have hE2 : ∀ {β : Type} (f : Leaf × LogP → β), E.map (fun x => f x.2) = I.map fun i => f (unif v i, .fin (len i)) := by
      intro β f
      rw [hE, List.map_map]
      refine (zipIdx_fst f (I.map fun i => (unif v i, LogP.fin (len i)))).trans ?_
      rw [List.map_map]
      rfl
    have hfst : E.map Prod.fst = List.range' 1 I.length := by
      rw [hE, List.map_map]
      have : ∀ (l : List (Leaf × LogP)), (l.zipIdx.map (Prod.fst ∘ fun q : (Leaf × LogP) × ℕ => ((q.2 + 1 : ℕ), q.1.1, q.1.2)))
          = List.range' 1 l.length := by
        intro l
        apply List.ext_getElem
        · simp
        · intro i h1 h2
          simp
          omega
      rw [this]
      simp
    have hF : FreshIds 0 E := ⟨by rw [hfst]; exact List.nodup_range', by rw [hfst]; simp⟩
    have hne : E ≠ [] := by
      intro h0
      have := congrArg List.length h0
      simp [hE, h.1] at this
    set W : ℝ := (I.map fun j => Real.exp (len j)).sum with hW
    have hWpos : 0 < W := by
      rw [hW]
      obtain ⟨i, I', rfl⟩ := List.exists_cons_of_ne_nil h.1
      rw [List.map_cons, List.sum_cons]
      have : 0 ≤ (I'.map fun j => Real.exp (len j)).sum := List.sum_nonneg (by simp; intros; positivity)
      positivity
    set lse := LogP.logsumexp (E.map fun x => x.2.2) with hlse
    have hlW : lse.exp = W := by
      rw [hlse, LogP.exp_logsumexp, List.map_map, hW]
      exact congrArg List.sum (hE2 fun q => q.2.exp)
    have hln : lse ≠ .negInf := by rw [← LogP.exp_pos, hlW]; exact hWpos
    have hF' := hF.reweight fun l => l - lse
    have hE3 : ∀ {β : Type} (f : Leaf × LogP → β), (E.map fun x => (x.1, x.2.1, x.2.2 - lse)).map (fun x => f x.2)
        = I.map fun i => f (unif v i, .fin (len i) - lse) := by
      intro β f
      rw [List.map_map]
      exact hE2 fun q => f (q.1, q.2 - lse)
    have hleaves : ∀ x ∈ E.map (fun x => (x.1, x.2.1, x.2.2 - lse)), ∃ i ∈ I, x.2.1 = unif v i ∧ x.2.2 = .fin (len i) - lse := by
      intro x hx
      have : x.2 ∈ (E.map fun x => (x.1, x.2.1, x.2.2 - lse)).map (fun x => id x.2) := List.mem_map_of_mem (f := fun x => id x.2) hx
      rw [hE3 id] at this
      obtain ⟨i, hi, h1⟩ := List.mem_map.1 this
      exact ⟨i, hi, by rw [← h1]; rfl, by rw [← h1]; rfl⟩
    have hw : ∀ i, (LogP.fin (len i) - lse).exp = Real.exp (len i) / W := by
      intro i
      rw [LogP.exp_sub hln, LogP.exp_fin, hlW]
    refine ⟨leafMix 0 (E.map fun x => (x.1, x.2.1, x.2.2 - lse)), ?_, ?_, ?_, ?_, leafySums_mix hF'⟩
    · rw [mapM_eq_map hpart]
      simp only [bind, Except.bind]
      rw [hF.normalizeUnit hne]
    · refine (hF'.denotes (by simpa using hne) (v := v) ?_).congr ?_
      · intro x hx
        obtain ⟨i, hi, h1, _⟩ := hleaves x hx
        have := hval x.2.1 ⟨i, hi, h1⟩
        exact ⟨this.1, this.2.2⟩
      · intro ℓ
        rw [hE3 fun q => q.2.exp * ℓ q.1]
        simp only [hw]
    · refine hF'.neat ?_ ?_
      · intro x hx
        obtain ⟨i, hi, _, h2⟩ := hleaves x hx
        rw [h2]
        cases hl : lse with
        | negInf => exact absurd hl hln
        | fin a => exact ⟨_, rfl⟩
      · rw [hE3 fun q => q.2.exp]
        simp only [hw, div_eq_mul_inv]
        rw [List.sum_map_mul_right, ← hW, mul_inv_cancel₀ hWpos.ne']
    · intro n d hk
      obtain ⟨x, hx, _, rfl⟩ := hF'.of_leaf hk
      obtain ⟨i, hi, h1, _⟩ := hleaves x hx
      exact ⟨i, hi, h1⟩
  · rename_i S
    refine ⟨_, rfl, ?_, neat_leaf _ _, hleaf _, leafySums_leaf _ _⟩
    have := hval _ rfl
    have h2 := denotes_leaf 0 this.1
    rw [this.2.2] at h2
    exact h2
  · rename_i I
    have hkey : ∀ i ∈ I, lowerKey i = .ok ⌊i.lower.toReal⌋ := by
      intro i hi
      obtain ⟨k, rfl⟩ := h.2.2 i hi
      simp [lowerKey]
    have hdict : (I.map fun i => ⌊i.lower.toReal⌋).foldl (fun d k => Dict.set d k (1 / (I.length : ℝ))) []
        = I.map fun i => (⌊i.lower.toReal⌋, 1 / (I.length : ℝ)) := by
      rw [foldl_set_eq _ _ (by simpa using intKeys_nodup h.2.1 h.2.2), List.nil_append, List.map_map]
      rfl
    refine ⟨newUnit 0 (.leaf (.integer v (I.map fun i => (⌊i.lower.toReal⌋, 1 / (I.length : ℝ))))), ?_, ?_, neat_leaf _ _, hleaf _, leafySums_leaf _ _⟩
    · rw [mapM_eq_map hkey]
      simp only [bind, Except.bind]
      rw [hdict]
    · have := hval _ rfl
      have h2 := denotes_leaf 0 this.1
      rw [this.2.2] at h2
      exact h2

/-- What `uniform_measure_of_simple_event` returns. -/
theorem uniformOfSimple_full {ty : Var → VarType} {s : Finset Var} {E : SimpleEvent} (h : BoundedBox ty s E) :
    ∃ g, uniformOfSimple ty E = .ok g ∧ Denotes g 0 s (fun ℓ => (E.map fun p => partValue ty p ℓ).prod) ∧ Neat g ∧
      (∀ n d, g.kind? n = some (.leaf d) → ∃ p ∈ E, PartLeaf ty p d) ∧ LeafySums g := by
  have hcomp : ∀ p, ∃ g, p ∈ E → uniformComponent ty p = .ok (g, 0, none) ∧ Denotes g 0 {p.1} (partValue ty p) ∧ Neat g ∧
      (∀ n d, g.kind? n = some (.leaf d) → PartLeaf ty p d) ∧ LeafySums g := by
    intro p
    by_cases hp : p ∈ E
    · obtain ⟨g, hg⟩ := component_spec (h.sets p hp)
      exact ⟨g, fun _ => hg⟩
    · exact ⟨newUnit 0 .prod, fun h => absurd h hp⟩
  choose G hG using hcomp
  have hd : ∀ p ∈ E, Denotes (G p) 0 {p.1} (partValue ty p) := fun p hp => (hG p hp).2.1
  refine ⟨(newUnit 0 .prod).attachAll 0 (partsOf G (fun _ => 0) (fun _ => none) E), ?_, ?_, ?_, ?_, ?_⟩
  · unfold uniformOfSimple
    rw [mapM_eq_map (h := fun p => (G p, 0, none)) fun p hp => (hG p hp).1]
    rfl
  · refine (denotes_attach_prod hd ?_ ?_).1
    · intro v
      rw [← h.keys]
      simp [SimpleEvent.keys, eq_comm]
    · have := h.nodup
      rw [SimpleEvent.keys, List.Nodup, List.pairwise_map] at this
      exact this.imp fun h => by simpa using h
  · exact neat_attach_prod (fun p hp => (hd p hp).layered) fun p hp => (hG p hp).2.2.1
  · exact leaves_attach (by simp) (fun h => by cases h) (fun p hp => (hd p hp).layered) (P := fun d => ∃ p ∈ E, PartLeaf ty p d)
      fun p hp n d hk => ⟨p, hp, (hG p hp).2.2.2.1 n d hk⟩
  · exact leafySums_attach_prod (fun p hp => (hd p hp).layered) fun p hp => (hG p hp).2.2.2.2

theorem uniformOfSimple_spec {ty : Var → VarType} {s : Finset Var} {E : SimpleEvent} (h : BoundedBox ty s E) :
    ∃ g, uniformOfSimple ty E = .ok g ∧ Denotes g 0 s (fun ℓ => (E.map fun p => partValue ty p ℓ).prod) ∧ Neat g ∧
      ∀ n d, g.kind? n = some (.leaf d) → ∃ p ∈ E, PartLeaf ty p d := by
  obtain ⟨g, h1, h2, h3, h4, _⟩ := uniformOfSimple_full h
  exact ⟨g, h1, h2, h3, h4⟩

/-! ### Leaves -/

/-- A leaf has no mass outside the set of its variable. -/
theorem partLeaf_outside {ty : Var → VarType} {p : Var × VSet} (h : BoundedSet (ty p.1) p.2) {d : Leaf} (hd : PartLeaf ty p d) :
    leafLaw d p.2.toSetᶜ = 0 := by
  have hval := bounded_valid h hd
  have hm := (VSet.measurableSet_toSet p.2).compl
  obtain ⟨v, A⟩ := p
  simp only at h hm ⊢
  unfold PartLeaf at hd
  simp only at hd
  cases ht : ty v <;> cases A <;> simp only [ht] at hd h <;> try exact absurd h id
  · obtain ⟨i, hi, rfl⟩ := hd
    rename_i I
    obtain ⟨a, b, h1, h2, h3⟩ := h.2.2 i hi
    show (volume.withDensity _) _ = 0
    rw [withDensity_apply _ hm]
    rw [setLIntegral_congr_fun hm (g := fun _ => 0)]
    · simp
    · intro x hx
      have : ¬ (SimpleInterval.mk i.lower.toReal i.upper.toReal i.left i.right).Mem x := by
        intro hxm
        apply hx
        refine ⟨i, hi, ?_⟩
        have : (SimpleInterval.mk i.lower.toReal i.upper.toReal i.left i.right) = i := by
          rw [h1, h2]
          simp only [EReal.toReal_coe]
          rw [← h1, ← h2]
        rw [← this]
        exact hxm
      simp [unif, leafDensity, this]
  · subst hd
    rename_i S
    show ((S.map fun k => (k, 1 / (S.length : ℝ))).map fun kp => ENNReal.ofReal kp.2 • Measure.dirac (kp.1 : ℝ)).sum _ = 0
    rw [discrete_law_apply _ hval.1.1 hm, List.map_map]
    refine (congrArg ENNReal.ofReal (List.sum_eq_zero ?_)).trans ENNReal.ofReal_zero
    intro x hx
    obtain ⟨k, hk, rfl⟩ := List.mem_map.1 hx
    have : (k : ℝ) ∈ (VSet.symbols S).toSet := ⟨k, hk, rfl⟩
    simp [this]
  · subst hd
    rename_i I
    show ((I.map fun i => (⌊i.lower.toReal⌋, 1 / (I.length : ℝ))).map fun kp => ENNReal.ofReal kp.2 • Measure.dirac (kp.1 : ℝ)).sum _ = 0
    rw [discrete_law_apply _ hval.1.1 hm, List.map_map]
    refine (congrArg ENNReal.ofReal (List.sum_eq_zero ?_)).trans ENNReal.ofReal_zero
    intro x hx
    obtain ⟨i, hi, rfl⟩ := List.mem_map.1 hx
    have : ((⌊i.lower.toReal⌋ : ℤ) : ℝ) ∈ (VSet.interval I).toSet := by
      refine ⟨i, hi, ?_⟩
      obtain ⟨k, rfl⟩ := h.2.2 i hi
      simp only [EReal.toReal_coe, Int.floor_intCast]
      exact ⟨le_refl _, le_refl _⟩
    simp [this]

theorem fits_iff {ty : Var → VarType} {p : Var × VSet} (h : BoundedSet (ty p.1) p.2) {d : Leaf} (hd : PartLeaf ty p d) (A : VSet) :
    Fits d A ↔ FitsType (ty p.1) A := by
  obtain ⟨v, B⟩ := p
  simp only at h ⊢
  unfold PartLeaf at hd
  simp only at hd
  cases ht : ty v <;> cases B <;> simp only [ht] at hd h <;> try exact absurd h id
  · obtain ⟨i, hi, rfl⟩ := hd
    cases A <;> simp [Fits, FitsType, unif]
  · subst hd
    cases A <;> simp [Fits, FitsType]
  · subst hd
    cases A <;> simp [Fits, FitsType]

/-- Two intervals that have no point in common have no proper intersection. -/
theorem inter_empty {i j : SimpleInterval} {a b : ℝ} (h1 : i.lower = a) (h2 : i.upper = b) (h : ∀ x, ¬ (i.Mem x ∧ j.Mem x)) :
    (i.inter j).IsEmpty ∧ ¬ (i.inter j).IsSingleton := by
  have hs : ¬ (i.inter j).IsSingleton := by
    rintro ⟨e, hl, hr⟩
    have h3 : (a : EReal) ≤ (i.inter j).lower := by rw [← h1]; exact le_max_left _ _
    have h4 : (i.inter j).upper ≤ (b : EReal) := by rw [← h2]; exact min_le_left _ _
    have h5 : (i.inter j).lower ≠ ⊥ := fun h0 => by rw [h0] at h3; simp at h3
    have h6 : (i.inter j).lower ≠ ⊤ := fun h0 => by rw [e] at h0; rw [h0] at h4; simp at h4
    lift (i.inter j).lower to ℝ using ⟨h6, h5⟩ with x hx
    refine h x ((SimpleInterval.mem_inter i j x).1 ⟨?_, ?_⟩)
    · rw [hl]; exact hx.symm.le
    · rw [hr]; exact e.le
  refine ⟨?_, hs⟩
  by_contra he
  have hlt := SimpleInterval.lower_lt_upper he hs
  obtain ⟨x, hx1, hx2⟩ := EReal.lt_iff_exists_real_btwn.1 hlt
  exact h x ((SimpleInterval.mem_inter i j x).1 (SimpleInterval.mem_of_between hx1 hx2))

theorem inter_self (i : SimpleInterval) : i.inter i = i := by
  have : ∀ b, SimpleInterval.meetBound b b = b := by intro b; cases b <;> rfl
  cases i
  simp [SimpleInterval.inter, this]

/-- The event cuts nothing out of the leaves that were built from it. -/
theorem partLeaf_proper {ty : Var → VarType} {p : Var × VSet} (h : BoundedSet (ty p.1) p.2) {d : Leaf} (hd : PartLeaf ty p d) :
    ProperOn d p.2 ∧ OneIntervalOn d p.2 := by
  obtain ⟨v, B⟩ := p
  simp only at h ⊢
  unfold PartLeaf at hd
  simp only at hd
  cases ht : ty v <;> cases B <;> simp only [ht] at hd h <;> try exact absurd h id
  · obtain ⟨i, hi, rfl⟩ := hd
    rename_i I
    obtain ⟨a, b, h1, h2, h3⟩ := h.2.2 i hi
    have hsup : (unif v i).support = .interval [i] := by
      simp only [unif, Leaf.support, h1, h2, EReal.toReal_coe]
      rw [← h1, ← h2]
    have hself : ¬ (i.inter i).IsSingleton := by
      rw [inter_self]
      rintro ⟨e, -⟩
      rw [h1, h2] at e
      exact h3.ne (by exact_mod_cast e)
    have hsym : Std.Symm fun i j : SimpleInterval => ∀ x, ¬ (i.Mem x ∧ j.Mem x) := ⟨fun a b hab x hx => hab x ⟨hx.2, hx.1⟩⟩
    refine ⟨?_, ?_⟩
    · intro s hs j hj
      rw [hsup] at hs
      injection hs with hs
      injection hs with hs
      subst hs
      by_cases hij : i = j
      · subst hij; exact hself
      · exact (inter_empty h1 h2 (h.2.1.1.forall hi hj hij)).2
    · show ∀ L, (unif v i).support.inter (.interval I) = .interval L → L.length ≤ 1
      intro L hL
      rw [hsup] at hL
      simp only [VSet.inter, List.flatMap_cons, List.flatMap_nil, List.append_nil, VSet.interval.injEq] at hL
      rw [← hL]
      have hd' := h.2.1.1
      have hemp : ∀ j ∈ I, i ≠ j → (i.inter j).IsEmpty := fun j hj hij => (inter_empty h1 h2 (hd'.forall hi hj hij)).1
      have hmem : ∃ x, i.Mem x := by
        obtain ⟨x, hx1, hx2⟩ := EReal.lt_iff_exists_real_btwn.1 (show i.lower < i.upper by rw [h1, h2]; exact_mod_cast h3)
        exact ⟨x, SimpleInterval.mem_of_between hx1 hx2⟩
      clear hL h hi
      induction I with
      | nil => simp
      | cons j I ih =>
        obtain ⟨hd1, hd2⟩ := List.pairwise_cons.1 hd'
        by_cases hij : i = j
        · subst hij
          have hnone : ((I.map fun j => i.inter j).filter fun k => decide ¬ k.IsEmpty) = [] := by
            rw [List.filter_eq_nil_iff]
            intro k hk
            obtain ⟨j, hj, rfl⟩ := List.mem_map.1 hk
            have hne : i ≠ j := by
              rintro rfl
              obtain ⟨x, hx⟩ := hmem
              exact hd1 i hj x ⟨hx, hx⟩
            simpa using hemp j (by simp [hj]) hne
          rw [List.map_cons, List.filter_cons]
          rw [hnone]
          split <;> simp
        · rw [List.map_cons, List.filter_cons_of_neg (by simpa using hemp j (by simp) hij)]
          exact ih hd2 fun k hk => hemp k (by simp [hk])
  · subst hd
    exact ⟨trivial, trivial⟩
  · subst hd
    exact ⟨trivial, trivial⟩

end PM.Graph
