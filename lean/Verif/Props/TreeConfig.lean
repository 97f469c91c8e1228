import Verif.Spec.TreeConfig
import Verif.Learn.ConfigLemmas
import Verif.Props.Jpt

/-!
# C77, C78, C79: the parameters of joint probability trees
-/

namespace PM.Props

open Classical Learn.Jpt Spec

/-- The keys of a dictionary are different, and its items come from the assignments. -/
theorem dict_fold_facts {α κ ν : Type} (k : α → κ) (w : α → ν) : ∀ (l : List α) (d : Dict κ ν), (d.map Prod.fst).Nodup →
    ((l.foldl (fun d a => Dict.set d (k a) (w a)) d).map Prod.fst).Nodup ∧
    ∀ kv ∈ l.foldl (fun d a => Dict.set d (k a) (w a)) d, kv ∈ d ∨ ∃ a ∈ l, kv = (k a, w a) := by
  intro l
  induction l with
  | nil => intro d h; exact ⟨h, fun kv h => .inl h⟩
  | cons a l ih =>
    intro d h
    have h1 : ((Dict.set d (k a) (w a)).map Prod.fst).Nodup := by
      by_cases hk : k a ∈ d.map Prod.fst
      · rw [Dict.set, if_pos hk, List.map_map]
        have : (d.map (Prod.fst ∘ fun p => if p.1 = k a then (k a, w a) else p)) = d.map Prod.fst := by
          refine List.map_congr_left fun p _ => ?_
          simp only [Function.comp]
          split
          · next h => exact h.symm
          · rfl
        rw [this]; exact h
      · rw [Dict.set, if_neg hk, List.map_append, List.nodup_append]
        refine ⟨h, by simp, ?_⟩
        intro x hx y hy e
        simp only [List.map_cons, List.map_nil, List.mem_singleton] at hy
        exact hk (hy ▸ e ▸ hx)
    have h2 : ∀ kv ∈ Dict.set d (k a) (w a), kv ∈ d ∨ kv = (k a, w a) := by
      intro kv hkv
      rw [Dict.set] at hkv
      split at hkv
      · obtain ⟨p, hp, rfl⟩ := List.mem_map.1 hkv
        split
        · exact .inr rfl
        · exact .inl hp
      · rcases List.mem_append.1 hkv with h | h
        · exact .inl h
        · exact .inr (by simpa using h)
    obtain ⟨h3, h4⟩ := ih _ h1
    refine ⟨h3, fun kv hkv => ?_⟩
    rcases h4 kv hkv with h | ⟨b, hb, e⟩
    · rcases h2 kv h with h | h
      · exact .inl h
      · exact .inr ⟨a, by simp, h⟩
    · exact .inr ⟨b, by simp [hb], e⟩

theorem mapOver_variableMap {vars : List TreeVar} (hn : (vars.map TreeVar.name).Nodup) {items : List (TreeVar × List TreeVar)}
    (h : ∀ kv ∈ items, kv.1 ∈ vars ∧ ∀ w ∈ kv.2, w ∈ vars) : MapOver vars (variableMap items) := by
  obtain ⟨h1, h2⟩ := dict_fold_facts (fun kv : TreeVar × List TreeVar => kv.1) (fun kv => kv.2) items [] (by simp)
  have hmem : ∀ kv ∈ variableMap items, kv ∈ items := by
    intro kv hkv
    rw [variableMap, List.mem_mergeSort] at hkv
    rcases h2 kv hkv with h | ⟨a, ha, e⟩
    · simp at h
    · rw [e]; exact ha
  refine ⟨?_, fun kv hkv => (h kv (hmem kv hkv)).1, fun kv hkv => (h kv (hmem kv hkv)).2⟩
  have hp := List.mergeSort_perm (items.foldl (fun d kv => Dict.set d kv.1 kv.2) [])
    (fun a b => decide (a.1.name ≤ b.1.name))
  have hle : (variableMap items).Pairwise fun a b => a.1.name ≤ b.1.name := by
    have := List.pairwise_mergeSort (le := fun a b : TreeVar × List TreeVar => decide (a.1.name ≤ b.1.name))
      (fun a b c hab hbc => by simp only [decide_eq_true_eq] at *; exact hab.trans hbc)
      (fun a b => by simpa using le_total a.1.name b.1.name) (items.foldl (fun d kv => Dict.set d kv.1 kv.2) [])
    exact this.imp fun h => by simpa using h
  have hnd : ((variableMap items).map Prod.fst).Nodup := (hp.map Prod.fst).nodup_iff.2 h1
  have hne : (variableMap items).Pairwise fun a b => a.1 ≠ b.1 := List.pairwise_map.1 hnd
  refine (List.Pairwise.and_mem.1 (hle.and hne)).imp ?_
  · rintro a b ⟨ha, hb, h3, h4⟩
    refine lt_of_le_of_ne h3 fun e => h4 ?_
    exact List.inj_on_of_nodup_map hn (h a (hmem a ha)).1 (h b (hmem b hb)).1 e

/-- The parameters of a tree with sensible arguments fit to each other. -/
theorem consistent_init {a : InitArgs} (h : Usable a) : (Config.init a).Consistent := by
  have hv : Sorted (sortVars a.vars) := sorted_sortVars h.names
  have hvn := hv.nodup_names
  have key : ∀ tf : List TreeVar × List TreeVar, tf = setTargetsAndFeatures (sortVars a.vars) a.targets a.features →
      Sorted tf.1 ∧ (∀ v ∈ tf.1, v ∈ sortVars a.vars) ∧ Sorted tf.2 ∧ ∀ v ∈ tf.2, v ∈ sortVars a.vars := by
    rintro tf rfl
    have hset : ∀ {l : List TreeVar}, (∀ v ∈ l, v ∈ a.vars) →
        Sorted (sortVars (asSet l)) ∧ ∀ v ∈ sortVars (asSet l), v ∈ sortVars a.vars := fun {l} hl =>
      ⟨sorted_set h.names hl, fun v hv' => mem_sortVars.2 (hl v (List.mem_dedup.1 (mem_sortVars.1 hv')))⟩
    have hcomp : ∀ l : List TreeVar, Sorted (sortVars ((asSet (sortVars a.vars)).filter (· ∉ asSet l))) ∧
        ∀ v ∈ sortVars ((asSet (sortVars a.vars)).filter (· ∉ asSet l)), v ∈ sortVars a.vars := by
      intro l
      have hsub : ∀ v ∈ (asSet (sortVars a.vars)).filter (· ∉ asSet l), v ∈ sortVars a.vars := fun v hv' =>
        List.mem_dedup.1 (List.mem_filter.1 hv').1
      exact ⟨sorted_sortVars (nodup_names_of_subset hvn ((List.nodup_dedup _).filter _) hsub),
        fun v hv' => hsub v (mem_sortVars.1 hv')⟩
    rcases ht : a.targets with _ | t <;> rcases hf : a.features with _ | f
    · exact ⟨hv, fun v hv' => hv', hv, fun v hv' => hv'⟩
    · obtain ⟨hfn, hfm⟩ := h.features f hf
      refine ⟨(hcomp f).1, (hcomp f).2, ?_⟩
      have := hset hfm
      rw [asSet_nodup hfn] at this
      exact this
    · have := hset (h.targets t ht)
      exact ⟨this.1, this.2, (hcomp t).1, (hcomp t).2⟩
    · have h1 := hset (h.targets t ht)
      have h2 := hset (h.features f hf).2
      exact ⟨h1.1, h1.2, h2.1, h2.2⟩
  obtain ⟨h1, h2, h3, h4⟩ := key _ rfl
  refine ⟨hv, h1, h2, h3, h4, ?_⟩
  rcases hd : a.dependencies with _ | d
  · simp only [Config.init, hd]
    have := variableMap_spec (vars := sortVars a.vars) h3 h4 h2
    rw [this.1]
    exact this.2
  · obtain ⟨items, rfl, hi⟩ := h.dependencies d hd
    simp only [Config.init, hd]
    exact mapOver_variableMap hvn fun kv hkv => ⟨mem_sortVars.2 (hi kv hkv).1, fun w hw => mem_sortVars.2 ((hi kv hkv).2 w hw)⟩

theorem minSamples_config (c : Config) : c.minSamples = requiredSamples c.minSamplesLeaf c.totalSamples := by
  unfold requiredSamples Config.minSamples
  by_cases h : 1 ≤ c.minSamplesLeaf
  · rw [if_pos h, if_neg (not_lt.2 h)]
  · rw [if_neg h, if_pos (not_le.1 h)]

/-! ### C77 -/

/-- C77.  A tree that is written to JSON, before or after learning, and read again has the same variables with the same statistics,
targets, features, limits, dependencies and number of samples; only the flag `keep_sample_indices` is off. -/
theorem C77_json {a : InitArgs} (h : Usable a) (samples : ℕ) (keep : Bool) :
    Config.fromJson ({ Config.init a with totalSamples := samples, keepSampleIndices := keep } : Config).toJson =
      .ok { Config.init a with totalSamples := samples, keepSampleIndices := false } := by
  have hc := consistent_init h
  exact Config.Consistent.json (c := { Config.init a with totalSamples := samples, keepSampleIndices := keep })
    ⟨hc.vars, hc.targets, hc.targetsIn, hc.features, hc.featuresIn, hc.deps⟩

/-- C77.  The variables are those given, ordered by name.  Without targets and features all variables are both; if one of them is
given the other one is the rest; otherwise both are as given.  By default, every feature is for all targets.  The limits are those
given. -/
theorem C77_roles {a : InitArgs} (h : Usable a) :
    (Config.init a).vars.Pairwise (fun v w => v.name < w.name) ∧ (∀ v, v ∈ (Config.init a).vars ↔ v ∈ a.vars) ∧
    (Config.init a).targets.Pairwise (fun v w => v.name < w.name) ∧ (Config.init a).features.Pairwise (fun v w => v.name < w.name) ∧
    (∀ v, v ∈ (Config.init a).targets ↔ match a.targets, a.features with
      | some t, _ => v ∈ t
      | none, some f => v ∈ a.vars ∧ v ∉ f
      | none, none => v ∈ a.vars) ∧
    (∀ v, v ∈ (Config.init a).features ↔ match a.targets, a.features with
      | _, some f => v ∈ f
      | some t, none => v ∈ a.vars ∧ v ∉ t
      | none, none => v ∈ a.vars) ∧
    (a.dependencies = none → ∀ v d, (v, d) ∈ (Config.init a).dependencies ↔
      v ∈ (Config.init a).features ∧ d = (Config.init a).targets) ∧
    (∀ d, a.dependencies = some d → (Config.init a).dependencies = d) ∧
    (Config.init a).minSamplesLeaf = a.minSamplesLeaf ∧ (Config.init a).minImprovement = a.minImprovement ∧
    (Config.init a).maxLeaves = a.maxLeaves ∧ (Config.init a).maxDepth = a.maxDepth := by
  have hc := consistent_init h
  refine ⟨hc.vars, fun v => mem_sortVars, hc.targets, hc.features, fun v => ?_, fun v => ?_, fun hd v d => ?_, fun d hd => ?_, rfl, rfl,
    rfl, rfl⟩
  · rcases ht : a.targets with _ | t <;> rcases hf : a.features with _ | f <;>
      simp [Config.init, setTargetsAndFeatures, ht, hf, mem_sortVars, asSet]
  · rcases ht : a.targets with _ | t <;> rcases hf : a.features with _ | f <;>
      simp [Config.init, setTargetsAndFeatures, ht, hf, mem_sortVars, asSet]
  · have hm := variableMap_spec (vars := (Config.init a).vars) hc.features hc.featuresIn hc.targetsIn
    have : (Config.init a).dependencies = variableMap ((Config.init a).features.map fun v => (v, (Config.init a).targets)) := by
      simp only [Config.init, hd]
    rw [this, hm.1, List.mem_map]
    constructor
    · rintro ⟨w, hw, e⟩
      cases e
      exact ⟨hw, rfl⟩
    · rintro ⟨hv, rfl⟩
      exact ⟨v, hv, rfl⟩
  · simp only [Config.init, hd]

/-- A symbolic, an integer and a continuous variable. -/
def threeVars : List TreeVar := [⟨"s", .symbolic [("a", 0), ("b", 1)]⟩, ⟨"i", .integer (some 2) (some 1)⟩,
  ⟨"r", .continuous (some 0) (some 1) 1 0 1⟩]

/-- The symbolic variable is the target. -/
noncomputable def threeArgs : InitArgs :=
  { vars := threeVars, targets := some [⟨"s", .symbolic [("a", 0), ("b", 1)]⟩], minSamplesLeaf := 3 / 4 }

theorem usable_three : Usable threeArgs where
  names := by simp [threeArgs, threeVars]
  targets := by
    intro l hl v hv
    cases hl
    simp only [List.mem_singleton] at hv
    simp [hv, threeArgs, threeVars]
  features := by intro l hl; cases hl
  dependencies := by intro d hd; cases hd

/-! ### C78 -/

/-- C78, full: a copy has the same parameters and learns the same tree from every data set. -/
def C78_full : Prop :=
  ∀ (a : InitArgs), Usable a → ∀ (samples : ℕ) (c : Config), c = { Config.init a with totalSamples := samples } →
    (c.emptyCopy.vars = c.vars ∧ c.emptyCopy.targets = c.targets ∧ c.emptyCopy.features = c.features ∧
      c.emptyCopy.minSamplesLeaf = c.minSamplesLeaf ∧ c.emptyCopy.minImprovement = c.minImprovement ∧
      c.emptyCopy.maxLeaves = c.maxLeaves ∧ c.emptyCopy.maxDepth = c.maxDepth ∧ c.emptyCopy.dependencies = c.dependencies) ∧
    ∀ ix hash cap (make : ImpurityArgs → Impurity), (∀ args, SplitContract (make args) c.minImprovement args.minSamples) →
      ∀ data queue, c.emptyCopy.fit ix hash cap make data queue = c.fit ix hash cap make data queue

theorem loop_maxLeaves (S : Settings) (m : EReal) (I : Impurity) (total : ℕ) : ∀ fuel st q,
    loop { S with maxLeaves := m } I total fuel st q = loop S I total fuel st q := by
  intro fuel
  induction fuel with
  | zero => intro st q; cases q <;> rfl
  | succ fuel ih =>
    intro st q
    cases q with
    | nil => rfl
    | cons t q =>
      have hc : c45 { S with maxLeaves := m } I total st t = c45 S I total st t := rfl
      simp only [loop, hc, ih]

/-- C78.  The copy of a tree whose `min_samples_leaf` is a number of samples and not a fraction: all parameters except `max_leaves`,
which is unlimited, are the same, and the copy learns the same tree from every data set. -/
theorem C78_copy_partial {a : InitArgs} (h : Usable a) (hm : 1 ≤ a.minSamplesLeaf) (samples : ℕ) {c : Config}
    (hc : c = { Config.init a with totalSamples := samples }) :
    (c.emptyCopy.vars = c.vars ∧ c.emptyCopy.targets = c.targets ∧ c.emptyCopy.features = c.features ∧
      c.emptyCopy.minSamplesLeaf = c.minSamplesLeaf ∧ c.emptyCopy.minImprovement = c.minImprovement ∧
      c.emptyCopy.maxLeaves = ⊤ ∧ c.emptyCopy.maxDepth = c.maxDepth ∧ c.emptyCopy.dependencies = c.dependencies) ∧
    ∀ ix hash cap make data queue, c.emptyCopy.fit ix hash cap make data queue = c.fit ix hash cap make data queue := by
  have hi := consistent_init h
  have hcc : c.Consistent := by
    subst hc
    exact ⟨hi.vars, hi.targets, hi.targetsIn, hi.features, hi.featuresIn, hi.deps⟩
  have hms : c.minSamples = c.minSamplesLeaf := by
    subst hc
    exact if_neg (not_lt.2 hm)
  have he := hcc.emptyCopy
  rw [hms] at he
  have ham : 1 ≤ c.minSamplesLeaf := by subst hc; exact hm
  clear hc hi hms
  rw [he]
  refine ⟨⟨rfl, rfl, rfl, rfl, rfl, rfl, rfl, rfl⟩, fun ix hash cap make data queue => ?_⟩
  have h1 : ({ { c with minSamplesLeaf := c.minSamplesLeaf, maxLeaves := ⊤, totalSamples := 1, keepSampleIndices := false }
      with totalSamples := data.length } : Config).constructImpurity
      = ({ c with totalSamples := data.length } : Config).constructImpurity := rfl
  simp only [Config.fit, h1]
  cases ({ c with totalSamples := data.length } : Config).constructImpurity with
  | error e => rfl
  | ok args => exact loop_maxLeaves (c.settings ix hash cap) ⊤ _ _ _ _ _

example : Usable { vars := threeVars, minSamplesLeaf := 10 } ∧ (1 : ℝ) ≤ 10 := by
  refine ⟨⟨by simp [threeVars], ?_, ?_, ?_⟩, by norm_num⟩ <;> intro l hl <;> cases hl

/-- C78.  In general the copy has the number of samples that a fraction amounted to for the last data set, or for one sample if
nothing was learned before. -/
theorem C78_fraction {a : InitArgs} (h : Usable a) (samples : ℕ) :
    ({ Config.init a with totalSamples := samples } : Config).emptyCopy.minSamplesLeaf = requiredSamples a.minSamplesLeaf samples := by
  have hi := consistent_init h
  have hcc : ({ Config.init a with totalSamples := samples } : Config).Consistent :=
    ⟨hi.vars, hi.targets, hi.targetsIn, hi.features, hi.featuresIn, hi.deps⟩
  rw [hcc.emptyCopy]
  exact minSamples_config _

/-- One integer variable; at least three quarters of all samples per leaf. -/
noncomputable def threeQuarters : InitArgs := { vars := [⟨"i", .integer (some 0) (some 1)⟩], minSamplesLeaf := 3 / 4 }

theorem usable_threeQuarters : Usable threeQuarters := by
  refine ⟨by simp [threeQuarters], ?_, ?_, ?_⟩ <;> intro l hl <;> cases hl

/-- An impurity that never splits. -/
def noSplit : Impurity := fun _ indices _ _ => ⟨-1, 0, indices⟩

theorem noSplit_contract (m : ℝ) : SplitContract noSplit 0 m where
  perm := by
    intro calls indices start stop h1 h2
    have := firstSample_contract.perm calls indices start stop h1 h2
    exact this
  pos := by
    intro calls indices start stop _ _ h
    exact absurd h (by simp [noSplit])

/-- Splits off the first sample if leaves of one sample are allowed. -/
noncomputable def careful (args : ImpurityArgs) : Impurity := if args.minSamples ≤ 1 then firstSample else noSplit

theorem careful_contract (args : ImpurityArgs) : SplitContract (careful args) 0 args.minSamples := by
  by_cases h : args.minSamples ≤ 1
  · rw [careful, if_pos h]
    have := firstSample_contract
    exact ⟨this.perm, fun calls indices start stop h1 h2 h3 =>
      ⟨(this.pos calls indices start stop h1 h2 h3).1, h.trans (this.pos calls indices start stop h1 h2 h3).2.1,
        h.trans (this.pos calls indices start stop h1 h2 h3).2.2⟩⟩
  · rw [careful, if_neg h]
    exact noSplit_contract _

/-! ### C79 -/

theorem pointsAt_indicesOf (vars group : List TreeVar) : PointsAt vars (· ∈ group) (indicesOf vars group) := by
  constructor
  · have h : (vars.zipIdx.map Prod.snd).Pairwise (· < ·) := by
      rw [List.zipIdx_map_snd]
      exact List.pairwise_lt_range'
    exact h.sublist (List.filter_sublist.map _)
  · intro i
    simp only [indicesOf, List.mem_map, List.mem_filter, decide_eq_true_eq]
    constructor
    · rintro ⟨⟨v, j⟩, ⟨hm, hg⟩, rfl⟩
      exact ⟨v, by simpa using List.mem_zipIdx_iff_getElem?.1 hm, hg⟩
    · rintro ⟨v, hv, hg⟩
      exact ⟨(v, i), ⟨List.mem_zipIdx_iff_getElem?.2 (by simpa using hv), hg⟩, rfl⟩

theorem pointsAt_congr {vars : List TreeVar} {p q : TreeVar → Prop} (h : ∀ v, p v ↔ q v) {l : List ℕ} (hl : PointsAt vars p l) :
    PointsAt vars q l := ⟨hl.1, fun i => by simp only [hl.2, h]⟩

theorem indexIn_ok {vars : List TreeVar} {v : TreeVar} (h : v ∈ vars) : indexIn vars v = .ok (vars.idxOf v) := if_pos h

theorem getElem?_idxOf' {vars : List TreeVar} {v : TreeVar} (h : v ∈ vars) : vars[vars.idxOf v]? = some v := by
  rw [List.getElem?_eq_getElem (List.idxOf_lt_length_iff.2 h)]
  simp

theorem constructImpurity_spec {c : Config} (hcc : c.Consistent) :
    ∃ args, c.constructImpurity = .ok args ∧ args.minSamples = c.minSamples ∧
      PointsAt c.vars (fun v => v ∈ c.targets ∧ ¬ ∃ d, v.kind = .symbolic d) args.numericVars ∧
      PointsAt c.vars (fun v => v ∈ c.targets ∧ ∃ d, v.kind = .symbolic d) args.symbolicVars ∧
      PointsAt c.vars (fun v => v ∈ c.features ∧ ¬ ∃ d, v.kind = .symbolic d) args.numericFeatures ∧
      PointsAt c.vars (fun v => v ∈ c.features ∧ ∃ d, v.kind = .symbolic d) args.symbolicFeatures ∧
      args.invert = List.replicate args.symbolicVars.length 0 ∧
      (∃ columns, PointsAt c.vars (fun v => ∃ d, v.kind = .symbolic d) columns ∧ args.symbolicTotal = columns.length ∧
        List.Forall₂ (fun i s => ∃ n d, c.vars[i]? = some ⟨n, .symbolic d⟩ ∧ d.length = s) columns args.symbols) ∧
      (∃ columns, PointsAt c.vars (fun v => ¬ ∃ d, v.kind = .symbolic d) columns ∧ args.numericTotal = columns.length ∧
        List.Forall₂ (fun i s => ∃ v, c.vars[i]? = some v ∧ s = v.std.map (· ^ 2)) columns args.maxVariances) ∧
      List.Forall₂ (fun kv il => c.vars[il.1]? = some kv.1 ∧ List.Forall₂ (fun w j => c.vars[j]? = some w) kv.2 il.2)
        c.dependencies args.dependencies := by
  have hsym : ∀ v : TreeVar, v.isSymbolic = true ↔ ∃ d, v.kind = .symbolic d := by
    rintro ⟨n, k⟩; cases k <;> simp [TreeVar.isSymbolic]
  have hnum : ∀ v : TreeVar, v.numeric = true ↔ ¬ ∃ d, v.kind = .symbolic d := by
    rintro ⟨n, k⟩; cases k <;> simp [TreeVar.numeric]
  have hdeps : (c.dependencies.mapM fun kv => do
      let i ← indexIn c.vars kv.1
      let l ← kv.2.mapM (indexIn c.vars)
      Except.ok (i, l)) = .ok (c.dependencies.map fun kv => (c.vars.idxOf kv.1, kv.2.map c.vars.idxOf)) := by
    refine mapM_ok' fun kv hkv => ?_
    simp only [indexIn_ok (hcc.deps.keys kv hkv), bind, Except.bind,
      mapM_ok' (g := c.vars.idxOf) fun w hw => indexIn_ok (hcc.deps.values kv hkv w hw)]
  have hnd : ((c.dependencies.map fun kv => (c.vars.idxOf kv.1, kv.2.map c.vars.idxOf)).map Prod.fst).Nodup := by
    rw [List.map_map]
    refine List.Nodup.map_on ?_ (List.Nodup.of_map (fun kv => kv.1.name) hcc.deps.names)
    intro x hx y hy e
    have h1 := getElem?_idxOf' (hcc.deps.keys x hx)
    have h2 := getElem?_idxOf' (hcc.deps.keys y hy)
    simp only [Function.comp] at e
    rw [e, h2] at h1
    injection h1 with h1
    exact List.inj_on_of_nodup_map hcc.deps.names hx hy (by rw [h1])
  have hfold := dict_nodup (fun kv : ℕ × List ℕ => kv.1) (fun kv => kv.2) hnd
  have hsub : ∀ (p : TreeVar → Bool), PointsAt c.vars (fun v => p v = true) (indicesOf c.vars (c.vars.filter p)) := fun p =>
    ⟨(pointsAt_indicesOf _ _).1, fun i => by
      rw [(pointsAt_indicesOf _ _).2]
      constructor
      · rintro ⟨v, h1, h2⟩; exact ⟨v, h1, (List.mem_filter.1 h2).2⟩
      · rintro ⟨v, h1, h2⟩; exact ⟨v, h1, List.mem_filter.2 ⟨List.mem_of_getElem? h1, h2⟩⟩⟩
  have hpair : ∀ (p : TreeVar → Bool) (l : List TreeVar), Sorted l → (∀ v ∈ l, v ∈ c.vars) →
      List.Forall₂ (fun i v => c.vars[i]? = some v) (indicesOf c.vars (l.filter p)) (l.filter p) := by
    intro p l hl hin
    have hs : Sorted (l.filter p) := hl.sublist List.filter_sublist
    have hfst : ((c.vars.zipIdx.filter fun vi => vi.1 ∈ l.filter p).map Prod.fst) = l.filter p := by
      have h1 : ((c.vars.zipIdx.filter fun vi => vi.1 ∈ l.filter p).map Prod.fst) = c.vars.filter (· ∈ l.filter p) := by
        conv_rhs => rw [← List.zipIdx_map_fst 0 c.vars]
        rw [List.filter_map]
        rfl
      rw [h1]
      have h2 : Sorted (c.vars.filter (· ∈ l.filter p)) := hcc.vars.sublist List.filter_sublist
      refine List.Perm.eq_of_pairwise (le := fun v w : TreeVar => v.name < w.name)
        (fun v w _ _ h3 h4 => absurd h3 (lt_asymm h4)) h2 hs ?_
      rw [List.perm_ext_iff_of_nodup h2.nodup hs.nodup]
      intro v
      simp only [List.mem_filter, decide_eq_true_eq]
      exact ⟨fun h => h.2, fun h => ⟨hin v h.1, h⟩⟩
    conv_rhs => rw [← hfst]
    rw [indicesOf, List.forall₂_map_left_iff, List.forall₂_map_right_iff, List.forall₂_same]
    rintro ⟨v, i⟩ hvi
    simpa using List.mem_zipIdx_iff_getElem?.1 (List.mem_filter.1 hvi).1
  simp only [bind, Except.bind] at hdeps
  simp only [Config.constructImpurity, hdeps, bind, Except.bind]
  refine ⟨_, rfl, rfl, ?_, ?_, ?_, ?_, ?_, ?_, ?_, ?_⟩
  · exact pointsAt_congr (fun v => by rw [List.mem_filter, hnum]) (pointsAt_indicesOf _ _)
  · exact pointsAt_congr (fun v => by rw [List.mem_filter, hsym]) (pointsAt_indicesOf _ _)
  · exact pointsAt_congr (fun v => by rw [List.mem_filter, hnum]) (pointsAt_indicesOf _ _)
  · exact pointsAt_congr (fun v => by rw [List.mem_filter, hsym]) (pointsAt_indicesOf _ _)
  · simp only
    rw [List.map_const', (hpair _ _ hcc.targets hcc.targetsIn).length_eq]
  · refine ⟨indicesOf c.vars (c.vars.filter TreeVar.isSymbolic), pointsAt_congr hsym (hsub _), ?_, ?_⟩
    · exact (hpair _ _ hcc.vars fun v hv => hv).length_eq.symm
    · simp only
      rw [List.forall₂_map_right_iff]
      have := hpair TreeVar.isSymbolic _ hcc.vars fun v hv => hv
      refine (forall₂_mem this.flip).flip.imp ?_
      rintro i v ⟨hv, hiv⟩
      obtain ⟨d, hd⟩ := (hsym v).1 (List.mem_filter.1 hv).2
      obtain ⟨n, k⟩ := v
      cases hd
      exact ⟨n, d, hiv, rfl⟩
  · refine ⟨indicesOf c.vars (c.vars.filter TreeVar.numeric), pointsAt_congr hnum (hsub _), ?_, ?_⟩
    · exact (hpair _ _ hcc.vars fun v hv => hv).length_eq.symm
    · simp only
      rw [List.forall₂_map_right_iff]
      refine (hpair TreeVar.numeric _ hcc.vars fun v hv => hv).imp ?_
      intro i v hiv
      exact ⟨v, hiv, rfl⟩
  · simp only
    rw [hfold]
    simp only [Prod.mk.eta, List.map_id']
    rw [List.forall₂_map_right_iff, List.forall₂_same]
    intro kv hkv
    refine ⟨getElem?_idxOf' (hcc.deps.keys kv hkv), ?_⟩
    rw [List.forall₂_map_right_iff, List.forall₂_same]
    exact fun w hw => getElem?_idxOf' (hcc.deps.values kv hkv w hw)

/-- C79.  The impurity is told the required number of samples and, in increasing order, the columns of the numeric and of the
symbolic targets and features; it is told one zero per symbolic target column, the size of the domain of every symbolic variable and
the variance of every numeric variable, in the order of their columns; and for every variable with dependencies the columns of these. -/
theorem C79_columns {a : InitArgs} (h : Usable a) (samples : ℕ) {c : Config} (hc : c = { Config.init a with totalSamples := samples }) :
    ∃ args, c.constructImpurity = .ok args ∧ args.minSamples = requiredSamples a.minSamplesLeaf samples ∧
      PointsAt c.vars (fun v => v ∈ c.targets ∧ ¬ ∃ d, v.kind = .symbolic d) args.numericVars ∧
      PointsAt c.vars (fun v => v ∈ c.targets ∧ ∃ d, v.kind = .symbolic d) args.symbolicVars ∧
      PointsAt c.vars (fun v => v ∈ c.features ∧ ¬ ∃ d, v.kind = .symbolic d) args.numericFeatures ∧
      PointsAt c.vars (fun v => v ∈ c.features ∧ ∃ d, v.kind = .symbolic d) args.symbolicFeatures ∧
      args.invert = List.replicate args.symbolicVars.length 0 ∧
      (∃ columns, PointsAt c.vars (fun v => ∃ d, v.kind = .symbolic d) columns ∧ args.symbolicTotal = columns.length ∧
        List.Forall₂ (fun i s => ∃ n d, c.vars[i]? = some ⟨n, .symbolic d⟩ ∧ d.length = s) columns args.symbols) ∧
      (∃ columns, PointsAt c.vars (fun v => ¬ ∃ d, v.kind = .symbolic d) columns ∧ args.numericTotal = columns.length ∧
        List.Forall₂ (fun i s => ∃ v, c.vars[i]? = some v ∧ s = v.std.map (· ^ 2)) columns args.maxVariances) ∧
      List.Forall₂ (fun kv il => c.vars[il.1]? = some kv.1 ∧ List.Forall₂ (fun w j => c.vars[j]? = some w) kv.2 il.2)
        c.dependencies args.dependencies := by
  have hi := consistent_init h
  have hcc : c.Consistent := by
    subst hc
    exact ⟨hi.vars, hi.targets, hi.targetsIn, hi.features, hi.featuresIn, hi.deps⟩
  have hms : c.minSamples = requiredSamples a.minSamplesLeaf samples := by
    subst hc
    exact minSamples_config _
  rw [← hms]
  exact constructImpurity_spec hcc

example : ∃ args, (Config.init threeArgs).constructImpurity = .ok args ∧ args.minSamples = 1 := by
  obtain ⟨args, h1, h2, _⟩ := C79_columns usable_three 1 rfl
  refine ⟨args, h1, h2.trans ?_⟩
  rw [requiredSamples, if_neg (by norm_num [threeArgs])]
  norm_num [threeArgs]

/-! ### The counterexample to C78 -/

/-- A tree and its copy learn different trees: the tree has one leaf with both samples, as less than three quarters of the samples
are not allowed in a leaf; the copy, which allows leaves of one sample, has no leaf with more than one sample. -/
theorem C78_learns_differently : ∃ st st',
    (Config.init threeQuarters).fit (fun _ => 0) id 1 careful [row 0, row 1] [] = ([], .ok st) ∧
    (Config.init threeQuarters).emptyCopy.fit (fun _ => 0) id 1 careful [row 0, row 1] [] = ([], .ok st') ∧
    leafSamples st ≠ [] ∧ (∀ l ∈ leafSamples st, 2 ≤ l.length) ∧ ∀ l ∈ leafSamples st', l.length < 2 := by
  have hU := usable_threeQuarters
  have hcc := consistent_init hU
  have hvars : (Config.init threeQuarters).vars = [⟨"i", .integer (some 0) (some 1)⟩] := by
    simp [Config.init, threeQuarters, sortVars]
  have hcols : (Config.init threeQuarters).vars.map (TreeVar.column (fun _ => 0) id) = [.integer 0] := by
    rw [hvars]; rfl
  have hcopy := hcc.emptyCopy
  have hm1 : (Config.init threeQuarters).minSamples = 1 := by
    rw [minSamples_config, requiredSamples, if_neg (by simp [Config.init, threeQuarters]; norm_num)]
    simp [Config.init, threeQuarters]
    norm_num
  have hreq : requiredSamples (3 / 4) 2 = 2 := by
    rw [requiredSamples, if_neg (by norm_num)]
    norm_num
  have hin : ∀ S : Settings, S.columns = [.integer 0] → S.cap = 1 → TreeInput S [row 0, row 1] := by
    intro S h1 h2
    refine ⟨by simp, by simp [h1], ?_, by rw [h2]; exact one_pos⟩
    intro ci hci
    rw [h1] at hci
    simp only [List.zipIdx_cons, List.zipIdx_nil, List.mem_singleton] at hci
    subst hci
    trivial
  have hwith : ∀ c : Config, c.Consistent → ({ c with totalSamples := 2 } : Config).Consistent := fun c hc =>
    ⟨hc.vars, hc.targets, hc.targetsIn, hc.features, hc.featuresIn, hc.deps⟩
  -- the tree
  obtain ⟨args, ha, ham, _⟩ := constructImpurity_spec (hwith _ hcc)
  have ham : args.minSamples = 2 := ham.trans ((minSamples_config _).trans hreq)
  have hS : TreeInput ((Config.init threeQuarters).settings (fun _ => 0) id 1) [row 0, row 1] := hin _ hcols rfl
  obtain ⟨st, r, hfit, _, _, hpart, hne, _⟩ := C41_fit (I := careful args) hS (by
    have := careful_contract args
    rw [ham] at this
    rw [show requiredSamples ((Config.init threeQuarters).settings (fun _ => 0) id 1).minSamplesLeaf [row 0, row 1].length = 2 from hreq]
    exact this)
  -- its copy
  have hcc' : (Config.init threeQuarters).emptyCopy.Consistent := by
    rw [hcopy]
    exact ⟨hcc.vars, hcc.targets, hcc.targetsIn, hcc.features, hcc.featuresIn, hcc.deps⟩
  have hmin' : (Config.init threeQuarters).emptyCopy.minSamplesLeaf = 1 := by rw [hcopy]; exact hm1
  obtain ⟨args', ha', ham', _⟩ := constructImpurity_spec (hwith _ hcc')
  have ham' : args'.minSamples = 1 := by
    refine ham'.trans ((minSamples_config _).trans ?_)
    simp only [hmin', requiredSamples_one]
  have hS' : TreeInput ((Config.init threeQuarters).emptyCopy.settings (fun _ => 0) id 1) [row 0, row 1] := by
    refine hin _ ?_ rfl
    rw [hcopy]
    exact hcols
  have hC' : SplitContract (careful args') ((Config.init threeQuarters).emptyCopy.settings (fun _ => 0) id 1).minImprovement
      (requiredSamples ((Config.init threeQuarters).emptyCopy.settings (fun _ => 0) id 1).minSamplesLeaf [row 0, row 1].length) := by
    have := careful_contract args'
    rw [ham'] at this
    rw [show ((Config.init threeQuarters).emptyCopy.settings (fun _ => 0) id 1).minSamplesLeaf = 1 from hmin', requiredSamples_one,
      show ((Config.init threeQuarters).emptyCopy.settings (fun _ => 0) id 1).minImprovement = 0 by
        simp only [Config.settings, hcopy]; rfl]
    exact this
  obtain ⟨st', r', hfit', _⟩ := C41_fit hS' hC'
  have hlim := (C61_limits_partial hS' hC' hfit').2 (by simp only [Config.settings, hcopy]; rfl)
  refine ⟨st, st', ?_, ?_, ?_, ?_, ?_⟩
  · simp only [Config.fit, show [row 0, row 1].length = 2 from rfl, ha]
    exact hfit
  · simp only [Config.fit, show [row 0, row 1].length = 2 from rfl, ha']
    exact hfit'
  · intro h0
    rw [h0] at hpart
    simpa using hpart.length_eq
  · intro l hl
    have := (hne l hl).2
    rw [show requiredSamples ((Config.init threeQuarters).settings (fun _ => 0) id 1).minSamplesLeaf [row 0, row 1].length = 2 from hreq] at this
    have := this (by norm_num)
    exact_mod_cast this
  · intro l hl
    obtain ⟨s, hs, rfl⟩ := List.mem_map.1 hl
    refine lt_of_le_of_lt (by rw [List.length_take]; exact min_le_left _ _) (?_ : s.2 - s.1 < 2)
    rcases hlim s hs with h1 | ⟨c, ix, h1⟩
    · rw [show ((Config.init threeQuarters).emptyCopy.settings (fun _ => 0) id 1).minSamplesLeaf = 1 from hmin', requiredSamples_one] at h1
      have h1' : ((s.2 - s.1 : ℕ) : ℝ) < (2 : ℕ) := by simpa using h1
      exact_mod_cast h1'
    · rw [careful, if_pos ham'.le] at h1
      by_contra h2
      simp only [firstSample] at h1
      rw [if_pos (by omega), show ((Config.init threeQuarters).emptyCopy.settings (fun _ => 0) id 1).minImprovement = 0 by
        simp only [Config.settings, hcopy]; rfl] at h1
      norm_num at h1

/-- The full property is false. -/
theorem C78_full_false : ¬ C78_full := by
  intro hfull
  obtain ⟨st, st', h1, h2, hne, h3, h4⟩ := C78_learns_differently
  have h := (hfull threeQuarters usable_threeQuarters 1 _ rfl).2 (fun _ => 0) id 1 careful
    (fun args => careful_contract args) [row 0, row 1] []
  have h5 : ([], Except.ok st') = (([], Except.ok st) : List Task × Except PyErr State) := h2.symm.trans (h.trans h1)
  injection h5 with _ h5
  injection h5 with h5
  subst h5
  obtain ⟨l, hl⟩ := List.exists_mem_of_ne_nil _ hne
  exact absurd (h4 l hl) (not_lt.2 (h3 l hl))

end PM.Props
