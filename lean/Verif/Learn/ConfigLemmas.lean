import Verif.Learn.Config

/-!
# Lemmas on the parameters of joint probability trees
-/

namespace PM.Learn.Jpt

open Classical

theorem dict_fold {α κ ν : Type} (k : α → κ) (w : α → ν) : ∀ (l : List α) (d : Dict κ ν),
    (d.map Prod.fst ++ l.map k).Nodup → l.foldl (fun d a => Dict.set d (k a) (w a)) d = d ++ l.map fun a => (k a, w a) := by
  intro l
  induction l with
  | nil => intro d _; simp
  | cons a l ih =>
    intro d h
    rw [List.foldl_cons]
    have hk : k a ∉ d.map Prod.fst := fun hm => by
      rw [List.nodup_append] at h
      exact h.2.2 _ hm _ (by simp) rfl
    rw [Dict.set, if_neg hk, ih]
    · simp
    · simpa using h

theorem dict_nodup {α κ ν : Type} (k : α → κ) (w : α → ν) {l : List α} (h : (l.map k).Nodup) :
    l.foldl (fun d a => Dict.set d (k a) (w a)) [] = l.map fun a => (k a, w a) := by
  rw [dict_fold k w l [] (by simpa using h)]; simp

/-- Lists of variables that are sorted strictly by their names. -/
def Sorted (l : List TreeVar) : Prop := l.Pairwise fun v w => v.name < w.name

theorem Sorted.nodup_names {l : List TreeVar} (h : Sorted l) : (l.map TreeVar.name).Nodup :=
  List.pairwise_map.2 (h.imp fun h => ne_of_lt h)

theorem Sorted.nodup {l : List TreeVar} (h : Sorted l) : l.Nodup := h.nodup_names.of_map

theorem sortVars_perm (l : List TreeVar) : (sortVars l).Perm l := List.mergeSort_perm l _

theorem mem_sortVars {l : List TreeVar} {v : TreeVar} : v ∈ sortVars l ↔ v ∈ l := (sortVars_perm l).mem_iff

theorem sorted_sortVars {l : List TreeVar} (h : (l.map TreeVar.name).Nodup) : Sorted (sortVars l) := by
  have h1 : (sortVars l).Pairwise fun v w => v.name ≤ w.name := by
    have := List.pairwise_mergeSort (le := fun v w : TreeVar => decide (v.name ≤ w.name))
      (fun a b c hab hbc => by simp only [decide_eq_true_eq] at *; exact hab.trans hbc)
      (fun a b => by simpa using le_total a.name b.name) l
    exact this.imp fun h => by simpa using h
  have h2 : (sortVars l).Pairwise fun v w => v.name ≠ w.name :=
    List.pairwise_map.1 (((sortVars_perm l).map TreeVar.name).nodup_iff.2 h)
  exact (h1.and h2).imp fun h => lt_of_le_of_ne h.1 h.2

theorem sortVars_sorted {l : List TreeVar} (h : Sorted l) : sortVars l = l :=
  List.mergeSort_of_pairwise (h.imp fun h => by simpa using h.le)

theorem asSet_nodup {l : List TreeVar} (h : l.Nodup) : asSet l = l := List.dedup_eq_self.2 h

/-- A list of some of the variables without repetitions. -/
theorem nodup_names_of_subset {vars l : List TreeVar} (hv : (vars.map TreeVar.name).Nodup) (hl : l.Nodup) (h : ∀ v ∈ l, v ∈ vars) :
    (l.map TreeVar.name).Nodup := by
  rw [List.nodup_map_iff_inj_on hl]
  intro v hv' w hw' e
  exact List.inj_on_of_nodup_map hv (h v hv') (h w hw') e

theorem sorted_set {vars l : List TreeVar} (hv : (vars.map TreeVar.name).Nodup) (h : ∀ v ∈ l, v ∈ vars) :
    Sorted (sortVars (asSet l)) :=
  sorted_sortVars (nodup_names_of_subset hv (List.nodup_dedup l) fun v hv' => h v (List.mem_dedup.1 hv'))

theorem lookup_of_nodup {κ ν : Type} [BEq κ] [LawfulBEq κ] : ∀ {l : List (κ × ν)}, (l.map Prod.fst).Nodup → ∀ {k : κ} {v : ν}, (k, v) ∈ l → l.lookup k = some v := by
  intro l
  induction l with
  | nil => intro _ k v h; simp at h
  | cons p l ih =>
    intro hn k v h
    obtain ⟨a, b⟩ := p
    simp only [List.map_cons, List.nodup_cons] at hn
    rcases List.mem_cons.1 h with e | h
    · cases e; simp
    · have : k ≠ a := fun e => hn.1 (e ▸ List.mem_map.2 ⟨(k, v), h, rfl⟩)
      rw [List.lookup_cons]
      simp only [beq_eq_false_iff_ne.2 this]
      exact ih hn.2 h

theorem byName_ok {vars : List TreeVar} (h : (vars.map TreeVar.name).Nodup) {v : TreeVar} (hv : v ∈ vars) :
    byName vars v.name = .ok v := by
  rw [byName, nameMap, dict_nodup TreeVar.name (fun v => v) h, lookup_of_nodup (v := v)]
  · rfl
  · rw [List.map_map]; exact h
  · exact List.mem_map.2 ⟨v, hv, rfl⟩

theorem mapM_ok' {α β : Type} {f : α → Except PyErr β} {g : α → β} {l : List α} (h : ∀ a ∈ l, f a = .ok (g a)) :
    l.mapM f = .ok (l.map g) := by
  induction l with
  | nil => rfl
  | cons a l ih =>
    rw [List.mapM_cons, h a (by simp), ih fun b hb => h b (by simp [hb])]
    rfl

theorem names_ok {vars l : List TreeVar} (h : (vars.map TreeVar.name).Nodup) (hl : ∀ v ∈ l, v ∈ vars) :
    (l.map TreeVar.name).mapM (byName vars) = .ok l := by
  induction l with
  | nil => rfl
  | cons v l ih =>
    rw [List.map_cons, List.mapM_cons, byName_ok h (hl v (by simp)), ih fun w hw => hl w (by simp [hw])]
    rfl

theorem varJson (v : TreeVar) : TreeVar.fromJson v.toJson = .ok v := by
  obtain ⟨n, k⟩ := v
  cases k <;> rfl

/-- A variable map over some variables. -/
structure MapOver (vars : List TreeVar) (d : Dependencies) : Prop where
  sorted : d.Pairwise fun a b => a.1.name < b.1.name
  keys : ∀ kv ∈ d, kv.1 ∈ vars
  values : ∀ kv ∈ d, ∀ w ∈ kv.2, w ∈ vars

theorem MapOver.names {vars : List TreeVar} {d : Dependencies} (h : MapOver vars d) :
    (d.map fun kv => kv.1.name).Nodup := List.pairwise_map.2 (h.sorted.imp fun h => ne_of_lt h)

theorem MapOver.map_self {vars : List TreeVar} {d : Dependencies} (h : MapOver vars d) : variableMap d = d := by
  rw [variableMap, dict_nodup (fun kv : TreeVar × List TreeVar => kv.1) (fun kv => kv.2)]
  · rw [List.mergeSort_of_pairwise]
    · simp
    · simp only [Prod.mk.eta, List.map_id']
      exact h.sorted.imp fun h => by simpa using h.le
  · have := h.names
    exact List.Nodup.of_map TreeVar.name (by simpa [List.map_map, Function.comp_def] using this)

theorem variableMap_spec {vars l t : List TreeVar} (hl : Sorted l) (hlv : ∀ v ∈ l, v ∈ vars) (ht : ∀ v ∈ t, v ∈ vars) :
    variableMap (l.map fun v => (v, t)) = (l.map fun v => (v, t)) ∧ MapOver vars (l.map fun v => (v, t)) := by
  have h : MapOver vars (l.map fun v => (v, t)) := by
    refine ⟨List.pairwise_map.2 hl, ?_, ?_⟩
    · intro kv hkv
      obtain ⟨v, hv, rfl⟩ := List.mem_map.1 hkv
      exact hlv v hv
    · intro kv hkv w hw
      obtain ⟨v, hv, rfl⟩ := List.mem_map.1 hkv
      exact ht w hw
  exact ⟨h.map_self, h⟩

theorem dependencies_ok {vars : List TreeVar} (hn : (vars.map TreeVar.name).Nodup) {d : Dependencies} (h : MapOver vars d) :
    ((dependenciesToJson d).mapM fun kv => do
      let v ← byName vars kv.1
      let deps ← kv.2.mapM (byName vars)
      Except.ok (v, deps)) = .ok d := by
  rw [dependenciesToJson, dict_nodup (fun kv : TreeVar × List TreeVar => kv.1.name) (fun kv => kv.2.map TreeVar.name) h.names]
  have hk := h.keys
  have hv := h.values
  clear h
  induction d with
  | nil => rfl
  | cons kv d ih =>
    rw [List.map_cons, List.mapM_cons, ih (fun a ha => hk a (by simp [ha])) fun a ha => hv a (by simp [ha])]
    simp only [byName_ok hn (hk kv (by simp)), names_ok hn (hv kv (by simp)), bind, Except.bind, pure, Except.pure]

/-- Parameters whose parts fit to each other. -/
structure Config.Consistent (c : Config) : Prop where
  vars : Sorted c.vars
  targets : Sorted c.targets
  targetsIn : ∀ v ∈ c.targets, v ∈ c.vars
  features : Sorted c.features
  featuresIn : ∀ v ∈ c.features, v ∈ c.vars
  deps : MapOver c.vars c.dependencies

theorem Config.Consistent.json {c : Config} (h : c.Consistent) :
    Config.fromJson c.toJson = .ok { c with keepSampleIndices := false } := by
  have hn := h.vars.nodup_names
  have h1 : (c.toJson.vars).mapM TreeVar.fromJson = .ok c.vars := by
    simp only [Config.toJson]
    induction c.vars with
    | nil => rfl
    | cons v l ih => rw [List.map_cons, List.mapM_cons, varJson, ih]; rfl
  have h2 : c.toJson.targets.mapM (byName c.vars) = .ok c.targets := names_ok hn h.targetsIn
  have h3 : c.toJson.features.mapM (byName c.vars) = .ok c.features := names_ok hn h.featuresIn
  have h4 := dependencies_ok hn h.deps
  have h4' : c.toJson.dependencies = dependenciesToJson c.dependencies := rfl
  rw [← h4'] at h4
  simp only [bind, Except.bind] at h4
  simp only [Config.fromJson, h1, h2, h3, h4, bind, Except.bind]
  simp only [Config.init, setTargetsAndFeatures, sortVars_sorted h.vars, asSet_nodup h.targets.nodup,
    asSet_nodup h.features.nodup, sortVars_sorted h.targets, sortVars_sorted h.features, h.deps.map_self]
  rfl

theorem Config.Consistent.emptyCopy {c : Config} (h : c.Consistent) :
    c.emptyCopy = { c with minSamplesLeaf := c.minSamples, maxLeaves := ⊤, totalSamples := 1, keepSampleIndices := false } := by
  simp only [Config.emptyCopy, Config.init, setTargetsAndFeatures, sortVars_sorted h.vars, asSet_nodup h.targets.nodup,
    asSet_nodup h.features.nodup, sortVars_sorted h.targets, sortVars_sorted h.features]

end PM.Learn.Jpt
