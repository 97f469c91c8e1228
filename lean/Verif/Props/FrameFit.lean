import Verif.Spec.FrameFit
import Verif.Props.Jpt
import Verif.Props.Preprocess
import Verif.Props.TreeConfig
import Mathlib.Logic.Encodable.Basic
import Mathlib.Logic.Equiv.List

/-!
# C85: learning a tree from a data frame
-/

namespace PM.Props

open Classical Graph Spec Learn.Jpt

/-- The column of the settings, its index, its variable and its cells. -/
theorem column_of {a : InitArgs} {ix : TreeVar → Var} {hash : ℤ → ℤ} {cap : ℝ} {ci : Column × ℕ}
    (hci : ci ∈ ((Config.init a).settings ix hash cap).columns.zipIdx) :
    ∃ v, (sortVars a.vars)[ci.2]? = some v ∧ v ∈ a.vars ∧ ci.1 = v.column ix hash := by
  have h1 := List.mem_zipIdx_iff_getElem?.1 hci
  change ((sortVars a.vars).map (TreeVar.column ix hash))[ci.2]? = some ci.1 at h1
  rw [List.getElem?_map, Option.map_eq_some_iff] at h1
  obtain ⟨v, hv, he⟩ := h1
  exact ⟨v, hv, mem_sortVars.1 (List.mem_of_getElem? hv), he.symm⟩

theorem columnVar_column (ix : TreeVar → Var) (hash : ℤ → ℤ) (v : TreeVar) : columnVar (v.column ix hash) = ix v := by
  unfold TreeVar.column
  cases v.kind <;> rfl

theorem standsFor_unique_value {v : TreeVar} {c : Cells} (hd : Describes v c) {u u' x : ℝ} (h : StandsFor v u x) (h' : StandsFor v u' x) :
    u = u' := by
  unfold StandsFor at h h'
  unfold Describes at hd
  cases hk : v.kind with
  | continuous m s d imp n =>
    rw [hk] at h h'
    exact h.symm.trans h'
  | integer m s =>
    rw [hk] at h h'
    exact h.symm.trans h'
  | symbolic d =>
    rw [hk] at h
    exact h.elim
  | scaled m s d imp n =>
    rw [hk] at h h' hd
    have hs : m ≠ none ∧ s ≠ none ∧ s ≠ some 0 := by
      cases c with
      | floats xs => exact hd
      | ints xs => exact hd
      | objects xs => exact hd.elim
      | other n => exact hd.elim
    rcases m with _ | m
    · exact absurd rfl hs.1
    rcases s with _ | s
    · exact absurd rfl hs.2.1
    have hs0 : s ≠ 0 := fun h => hs.2.2 (by rw [h])
    simp only at h h'
    exact mul_right_cancel₀ hs0 (by linarith)

/-- A point with the value of the cell agrees with the row of the preprocessed data. -/
theorem agrees_row {M : List (List (Option ℝ))} {ix : TreeVar → Var} {hash : ℤ → ℤ} {v : TreeVar} {c : Cells} {ci : Column × ℕ} {r : ℕ}
    {u : ℝ} (hu : entry M ci.2 r = some u) (hd : Describes v c) (hl : Learnable v c) (hs : Shows v c r (some u)) {p : Var → ℝ}
    (hp : ValueOf hash v c r (p (ix v))) (hc : ci.1 = v.column ix hash) : Agrees p (rowAt M r) ci := by
  have hnum : ∀ (x : ℝ), StandsFor v (p (ix v)) x → StandsFor v u x → p (ix v) = u := fun x h h' => standsFor_unique_value hd h h'
  have heq : (¬ ∃ d, v.kind = .symbolic d) → p (ix v) = u := by
    intro hns
    cases c with
    | floats xs =>
      obtain ⟨u', x, hy, hx, hst⟩ := hs
      injection hy with hy
      subst hy
      obtain ⟨x', hx', hst'⟩ := hp
      rw [hx] at hx'
      injection hx' with hx'
      subst hx'
      exact hnum _ hst' hst
    | ints xs =>
      obtain ⟨u', x, hy, hx, hst⟩ := hs
      injection hy with hy
      subst hy
      obtain ⟨x', hx', hst'⟩ := hp
      rw [hx] at hx'
      injection hx' with hx'
      subst hx'
      exact hnum _ hst' hst
    | objects xs =>
      obtain ⟨d, _, _, hk, _⟩ := hs
      exact absurd ⟨d, hk⟩ hns
    | other n => exact hs.elim
  rw [Agrees, hc]
  unfold TreeVar.column
  cases hk : v.kind with
  | continuous m s d imp n =>
    simp only [rowAt, hu, Option.getD_some]
    exact heq (by simp [hk])
  | scaled m s d imp n =>
    simp only [rowAt, hu, Option.getD_some]
    exact heq (by simp [hk])
  | integer m s =>
    simp only [rowAt, hu, Option.getD_some]
    have h := heq (by simp [hk])
    unfold Learnable at hl
    rw [hk] at hl
    cases c with
    | ints xs =>
      obtain ⟨u', x, hy, hx, hst⟩ := hs
      injection hy with hy
      subst hy
      simp only [StandsFor, hk] at hst
      rw [h, ← hst, Int.floor_intCast]
    | floats xs => exact hl.elim
    | objects xs => exact hl.elim
    | other n => exact hl.elim
  | symbolic d =>
    unfold Describes at hd
    unfold Learnable at hl
    rw [hk] at hd hl
    cases c with
    | objects xs =>
      obtain ⟨d', i, z, hk', hy, x, hx, hdi⟩ := hs
      rw [hk] at hk'
      injection hk' with hk'
      subst hk'
      injection hy with hy
      obtain ⟨d', x', z', hk', hx', hmem, hpv⟩ := hp
      rw [hk] at hk'
      injection hk' with hk'
      subst hk'
      rw [hx] at hx'
      injection hx' with hx'
      subst hx'
      have hzz := (Prod.ext_iff.1 (List.inj_on_of_nodup_map hd.1 (List.mem_of_getElem? hdi) hmem rfl)).2
      simp only at hzz
      subst hzz
      refine ⟨(z, hash z), List.mem_map.2 ⟨_, hmem, rfl⟩, ?_, hpv⟩
      simp only [rowAt, hu, Option.getD_some, hy]
      rw [show ((i : ℕ) : ℝ) = ((i : ℤ) : ℝ) by push_cast; rfl, Int.floor_intCast]
      exact hl i _ hdi
    | floats xs => exact hd.elim
    | ints xs => exact hd.elim
    | other n => exact hd.elim

/-- C85.  Let every variable describe the column of the data frame with its name, and be learnable from it.  Then `fit` succeeds, and
under the learned model every row of the data frame has a positive likelihood. -/
theorem C85_fit_partial {a : InitArgs} (ha : Usable a) {F : Frame} (hF : ProperFrame F) (hr : 0 < F.rows)
    (hd : ∀ v ∈ a.vars, ∃ c, (v.name, c) ∈ F.columns ∧ Describes v c ∧ Learnable v c)
    {ix : TreeVar → Var} (hix : ∀ v ∈ a.vars, ∀ w ∈ a.vars, ix v = ix w → v = w) {hash : ℤ → ℤ} (hh : Function.Injective hash)
    {cap : ℝ} (hcap : 0 < cap) {make : ImpurityArgs → Impurity}
    (hI : ∀ args, SplitContract (make args) a.minImprovement (requiredSamples a.minSamplesLeaf F.rows)) :
    ∃ st, (Config.init a).fitFrame ix hash cap make F [] = ([], .ok st) ∧
      ∀ r < F.rows, ∀ p : Var → ℝ, (∀ v ∈ a.vars, ∀ c, (v.name, c) ∈ F.columns → ValueOf hash v c r (p (ix v))) →
        ∃ l, 0 < l ∧ ∀ m, st.circuit.likelihood m p = .ok l := by
  have hsorted := sorted_sortVars ha.names
  obtain ⟨M, h1, h2, h3, h4⟩ := C80_values_partial (vars := sortVars a.vars) hF hsorted.nodup_names fun v hv => by
    obtain ⟨c, hc, hd', _⟩ := hd v (mem_sortVars.1 hv)
    exact ⟨c, hc, hd'⟩
  have huniq : ∀ {n : String} {c c' : Cells}, (n, c) ∈ F.columns → (n, c') ∈ F.columns → c = c' := fun h h' =>
    (Prod.ext_iff.1 (List.inj_on_of_nodup_map hF.names h h' rfl)).2
  have hcells : ∀ (i : ℕ) (v : TreeVar), (sortVars a.vars)[i]? = some v → ∃ c, (v.name, c) ∈ F.columns ∧ Describes v c ∧ Learnable v c ∧
      ∀ r < F.rows, ∃ u, entry M i r = some u ∧ Shows v c r (some u) := by
    intro i v hv
    obtain ⟨c, hc, hd1, hd2⟩ := hd v (mem_sortVars.1 (List.mem_of_getElem? hv))
    obtain ⟨c', l, hc', hl, hsh⟩ := h4 i v hv
    obtain rfl := huniq hc hc'
    refine ⟨c, hc, hd1, hd2, fun r hr => ?_⟩
    have hlr : r < l.length := by rw [h3 l (List.mem_of_getElem? hl)]; exact hr
    have hy := List.getElem?_eq_getElem hlr
    have hs := hsh r _ hy
    have : ∃ u, l[r] = some u := by
      cases c with
      | floats xs => obtain ⟨u, _, h, _⟩ := hs; exact ⟨u, h⟩
      | ints xs => obtain ⟨u, _, h, _⟩ := hs; exact ⟨u, h⟩
      | objects xs => obtain ⟨_, i, _, _, h, _⟩ := hs; exact ⟨_, h⟩
      | other n => exact hs.elim
    obtain ⟨u, hu⟩ := this
    refine ⟨u, ?_, hu ▸ hs⟩
    simp [entry, hl, hy, hu]
  set data := (List.range F.rows).map (rowAt M) with hdata
  have hlen : data.length = F.rows := by simp [hdata]
  obtain ⟨args, hargs, _⟩ := C79_columns ha data.length (c := { Config.init a with totalSamples := data.length }) rfl
  have hfits : ∀ ci ∈ ((Config.init a).settings ix hash cap).columns.zipIdx, ColumnFits data ci := by
    intro ci hci
    obtain ⟨v, hv, hva, hc⟩ := column_of hci
    obtain ⟨c, hcF, hdes, hl, hent⟩ := hcells _ _ hv
    rw [ColumnFits, hc]
    unfold TreeVar.column
    unfold Learnable at hl
    cases hk : v.kind with
    | continuous m s d imp n => rw [hk] at hl; exact hl
    | scaled m s d imp n => rw [hk] at hl; exact hl
    | integer m s => trivial
    | symbolic d =>
      rw [hk] at hl
      have hval : (d.map Prod.snd).Nodup := by
        rw [List.nodup_iff_injective_getElem]
        intro i j hij
        simp only [List.getElem_map] at hij
        have h1 := hl i _ (List.getElem?_eq_getElem (by simpa using i.2))
        have h2 := hl j _ (List.getElem?_eq_getElem (by simpa using j.2))
        rw [h1, h2] at hij
        exact Fin.ext (by exact_mod_cast hij)
      refine ⟨by rw [List.map_map]; exact hval, ?_, ?_⟩
      · have := hval.map hh
        rw [List.map_map] at this ⊢
        exact this
      · intro x hx
        obtain ⟨r, hr', rfl⟩ := List.mem_map.1 hx
        obtain ⟨u, hu, hsh⟩ := hent r (List.mem_range.1 hr')
        unfold Describes at hdes
        rw [hk] at hdes
        cases c with
        | objects xs =>
          obtain ⟨d', i, z, hk', hy, x, _, hdi⟩ := hsh
          rw [hk] at hk'
          injection hk' with hk'
          subst hk'
          injection hy with hy
          have hz := hl i _ hdi
          simp only [rowAt, hu, Option.getD_some, hy]
          rw [show ((i : ℕ) : ℝ) = ((i : ℤ) : ℝ) by push_cast; rfl, Int.floor_intCast]
          simp only at hz
          rw [← hz]
          simp only [List.map_map]
          exact List.mem_map.2 ⟨_, List.mem_of_getElem? hdi, rfl⟩
        | floats xs => exact hdes.elim
        | ints xs => exact hdes.elim
        | other n => exact hdes.elim
  have hinput : TreeInput ((Config.init a).settings ix hash cap) data := by
    refine ⟨?_, ?_, hfits, hcap⟩
    · rw [← List.length_pos_iff, hlen]; exact hr
    · change (((sortVars a.vars).map (TreeVar.column ix hash)).map columnVar).Nodup
      rw [List.map_map, show columnVar ∘ TreeVar.column ix hash = ix from funext fun v => columnVar_column ix hash v]
      refine List.Nodup.map_on (fun v hv w hw h => hix v (mem_sortVars.1 hv) w (mem_sortVars.1 hw) h) ?_
      exact hsorted.nodup_names.of_map _
  have hI' : SplitContract (make args) ((Config.init a).settings ix hash cap).minImprovement
      (requiredSamples ((Config.init a).settings ix hash cap).minSamplesLeaf data.length) := by
    rw [hlen]
    exact hI args
  obtain ⟨st, _, hfit, _⟩ := C41_fit hinput hI'
  refine ⟨st, ?_, ?_⟩
  · simp only [Config.fitFrame]
    rw [show (Config.init a).vars = sortVars a.vars from rfl, h1]
    dsimp only
    rw [if_pos]
    · rw [Config.fit, hargs]
      exact hfit
    · intro i hi r hr'
      obtain ⟨c, _, _, _, hent⟩ := hcells i _ (List.getElem?_eq_getElem hi)
      obtain ⟨u, hu, _⟩ := hent r hr'
      rw [hu]
      simp
  · intro r hr' p hp
    refine C60_positive_partial hinput hI' hfit (x := rowAt M r) (List.mem_map.2 ⟨r, List.mem_range.2 hr', rfl⟩) ?_ ?_
    · intro ci hci
      obtain ⟨v, hv, hva, hc⟩ := column_of hci
      obtain ⟨c, hcF, hdes, hl, hent⟩ := hcells _ _ hv
      obtain ⟨u, hu, hsh⟩ := hent r hr'
      exact agrees_row hu hdes hl hsh (hp v hva c hcF) hc
    · intro ci hci
      obtain ⟨v, hv, hva, hc⟩ := column_of hci
      obtain ⟨c, hcF, hdes, hl, hent⟩ := hcells _ _ hv
      obtain ⟨u, hu, hsh⟩ := hent r hr'
      rw [HashesToItself, hc]
      unfold TreeVar.column
      unfold Learnable at hl
      unfold Describes at hdes
      cases hk : v.kind with
      | continuous m s d imp n => trivial
      | scaled m s d imp n => trivial
      | symbolic d => trivial
      | integer m s =>
        rw [hk] at hl hdes
        cases c with
        | ints xs =>
          obtain ⟨u', x, hy, hx, hst⟩ := hsh
          injection hy with hy
          subst hy
          simp only [StandsFor, hk] at hst
          simp only [rowAt, hu, Option.getD_some, ← hst, Int.floor_intCast]
          exact hl x (List.mem_of_getElem? hx)
        | floats xs => exact hl.elim
        | objects xs => exact hl.elim
        | other n => exact hl.elim

theorem exists_value (hash : ℤ → ℤ) {v : TreeVar} {c : Cells} (hd : Describes v c) {r : ℕ} (hr : r < c.length) :
    ∃ y, ValueOf hash v c r y := by
  have hst : ∀ x : ℝ, (¬ ∃ d, v.kind = .symbolic d) → (∀ xs, c ≠ .objects xs) → ∃ y, StandsFor v y x := by
    intro x hns hno
    unfold Describes at hd
    unfold StandsFor
    cases hk : v.kind with
    | continuous m s d imp n => exact ⟨x, rfl⟩
    | integer m s => exact ⟨x, rfl⟩
    | symbolic d => exact absurd ⟨d, hk⟩ hns
    | scaled m s d imp n =>
      rw [hk] at hd
      have hs : m ≠ none ∧ s ≠ none ∧ s ≠ some 0 := by
        cases c with
        | floats xs => exact hd
        | ints xs => exact hd
        | objects xs => exact hd.elim
        | other n => exact hd.elim
      rcases m with _ | m
      · exact absurd rfl hs.1
      rcases s with _ | s
      · exact absurd rfl hs.2.1
      have hs0 : s ≠ 0 := fun h => hs.2.2 (by rw [h])
      exact ⟨(x - m) / s, by field_simp; ring⟩
  have hns : (∀ xs, c ≠ .objects xs) → ¬ ∃ d, v.kind = .symbolic d := by
    rintro hno ⟨d, hk⟩
    unfold Describes at hd
    rw [hk] at hd
    cases c with
    | objects xs => exact hno xs rfl
    | floats xs => exact hd
    | ints xs => exact hd
    | other n => exact hd
  cases c with
  | floats xs =>
    obtain ⟨y, hy⟩ := hst xs[r] (hns (by simp)) (by simp)
    exact ⟨y, _, List.getElem?_eq_getElem hr, hy⟩
  | ints xs =>
    obtain ⟨y, hy⟩ := hst ((xs[r] : ℤ) : ℝ) (hns (by simp)) (by simp)
    exact ⟨y, _, List.getElem?_eq_getElem hr, hy⟩
  | objects xs =>
    unfold Describes at hd
    cases hk : v.kind with
    | symbolic d =>
      rw [hk] at hd
      obtain ⟨e, he, hx⟩ := List.mem_map.1 (hd.2 xs[r] (List.getElem_mem hr))
      exact ⟨_, d, e.1, e.2, hk, by rw [List.getElem?_eq_getElem hr, hx], he, rfl⟩
    | continuous m s d imp n => rw [hk] at hd; exact hd.elim
    | scaled m s d imp n => rw [hk] at hd; exact hd.elim
    | integer m s => rw [hk] at hd; exact hd.elim
  | other n =>
    unfold Describes at hd
    cases hk : v.kind <;> (rw [hk] at hd; exact hd.elim)

/-- C85.  Every row of the data frame is a point of the domain of the model. -/
theorem C85_points {vars : List TreeVar} (hash : ℤ → ℤ) {F : Frame} (hF : ProperFrame F) (hn : (vars.map TreeVar.name).Nodup)
    (hd : ∀ v ∈ vars, ∃ c, (v.name, c) ∈ F.columns ∧ Describes v c) {ix : TreeVar → Var}
    (hix : ∀ v w, ix v = ix w → v.name = w.name) {r : ℕ} (hr : r < F.rows) :
    ∃ p : Var → ℝ, ∀ v ∈ vars, ∀ c, (v.name, c) ∈ F.columns → ValueOf hash v c r (p (ix v)) := by
  have hone : ∀ v ∈ vars, ∃ y, ∀ c, (v.name, c) ∈ F.columns → ValueOf hash v c r y := by
    intro v hv
    obtain ⟨c, hc, hdes⟩ := hd v hv
    obtain ⟨y, hy⟩ := exists_value hash hdes (r := r) (by rw [hF.rows _ hc]; exact hr)
    refine ⟨y, fun c' hc' => ?_⟩
    have : c = c' := (Prod.ext_iff.1 (List.inj_on_of_nodup_map hF.names hc hc' rfl)).2
    exact this ▸ hy
  choose! f hf using hone
  refine ⟨fun n => if h : ∃ v ∈ vars, ix v = n then f h.choose else 0, fun v hv => ?_⟩
  have h : ∃ w ∈ vars, ix w = ix v := ⟨v, hv, rfl⟩
  have he : h.choose = v := List.inj_on_of_nodup_map hn h.choose_spec.1 hv (hix _ _ h.choose_spec.2)
  simp only [dif_pos h, he]
  exact hf v hv

/-- C85, full: the variables of any data frame of numbers and strings can be inferred, a tree with these variables (and any targets,
features and limits) can be learned from it, and under the learned model every row of the data frame has a positive likelihood. -/
def C85_full : Prop :=
  ∀ F : Frame, ProperFrame F → 0 < F.rows → (∀ c ∈ F.columns, NumbersOrStrings c.2) →
    ∀ (improvement : ℝ) (samples : ℤ), 0 ≤ improvement → 1 ≤ samples →
    ∃ vars, inferVariables F false improvement samples = .ok vars ∧
      ∀ a : InitArgs, a.vars = vars → Usable a → ∀ (ix : TreeVar → Var), (∀ v w, ix v = ix w → v.name = w.name) →
      ∀ hash : ℤ → ℤ, Function.Injective hash → ∀ cap : ℝ, 0 < cap → ∀ make : ImpurityArgs → Impurity,
      (∀ args, SplitContract (make args) a.minImprovement (requiredSamples a.minSamplesLeaf F.rows)) →
      ∃ st, (Config.init a).fitFrame ix hash cap make F [] = ([], .ok st) ∧
        ∀ r < F.rows, ∀ p : Var → ℝ, (∀ v ∈ vars, ∀ c, (v.name, c) ∈ F.columns → ValueOf hash v c r (p (ix v))) →
          ∃ l, 0 < l ∧ ∀ m, st.circuit.likelihood m p = .ok l

theorem inferVariable_learnable {scale : Bool} {improvement : ℝ} {samples : ℤ} (hi : 0 ≤ improvement) (hs : 1 ≤ samples)
    {nc : String × Cells} (hint : ∀ xs, nc.2 = .ints xs → ∀ x ∈ xs, x ≠ -1 ∧ x.natAbs < 2 ^ 61 - 1) {v : TreeVar}
    (h : inferVariable scale improvement samples nc = .ok v) : Learnable v nc.2 := by
  obtain ⟨n, c⟩ := nc
  rcases c with xs | xs | xs | k
  · simp only [inferVariable, bind, Except.bind] at h
    cases hd : minimalDistance xs with
    | error e => rw [hd] at h; cases h
    | ok d =>
      rw [hd] at h
      cases scale <;>
      · injection h with h
        subst h
        exact ⟨hs, hi⟩
  · injection h with h
    subst h
    exact hint xs rfl
  · obtain ⟨d, hd, _, h2, _⟩ := C81_inferred scale improvement samples n xs
    rw [hd] at h
    injection h with h
    subst h
    exact h2
  · cases h

theorem inferred_describes {F : Frame} (hF : ProperFrame F) (hr : 0 < F.rows) (hs : ∀ c ∈ F.columns, NumbersOrStrings c.2)
    {scale : Bool} {improvement : ℝ} {samples : ℤ} (hv : scale = false ∨ ∀ c ∈ F.columns, Varies c.2) {vars : List TreeVar}
    (h : inferVariables F scale improvement samples = .ok vars) : ∀ v ∈ vars, ∃ c, (v.name, c) ∈ F.columns ∧ Describes v c := by
  have hone : ∀ nc ∈ F.columns, ∃ v, inferVariable scale improvement samples nc = .ok v ∧ v.name = nc.1 ∧ Describes v nc.2 :=
    fun nc hnc => inferVariable_ok (hs nc hnc) (by rw [hF.rows nc hnc]; exact hr) (hv.imp_right fun h => h nc hnc)
  have : Nonempty TreeVar := ⟨⟨"", .integer none none⟩⟩
  choose! f hf using hone
  have hinf : inferVariables F scale improvement samples = .ok (F.columns.map f) := mapM_ok' fun nc hnc => (hf nc hnc).1
  rw [h] at hinf
  injection hinf with hinf
  subst hinf
  intro v hv'
  obtain ⟨nc, hnc, rfl⟩ := List.mem_map.1 hv'
  exact ⟨nc.2, by rw [(hf nc hnc).2.1]; exact hnc, (hf nc hnc).2.2⟩

/-- C85 for inferred variables, scaled or not: the columns of floats vary if they are to be scaled, and the integers are their own
`hash`. -/
theorem C85_inferred_partial {F : Frame} (hF : ProperFrame F) (hr : 0 < F.rows) (hs : ∀ c ∈ F.columns, NumbersOrStrings c.2)
    (scale : Bool) {improvement : ℝ} {samples : ℤ} (hi : 0 ≤ improvement) (hsam : 1 ≤ samples)
    (hv : scale = false ∨ ∀ c ∈ F.columns, Varies c.2)
    (hint : ∀ n xs, (n, .ints xs) ∈ F.columns → ∀ x ∈ xs, x ≠ -1 ∧ x.natAbs < 2 ^ 61 - 1) :
    ∃ vars, inferVariables F scale improvement samples = .ok vars ∧
      ∀ a : InitArgs, a.vars = vars → Usable a → ∀ (ix : TreeVar → Var), (∀ v w, ix v = ix w → v.name = w.name) →
      ∀ hash : ℤ → ℤ, Function.Injective hash → ∀ cap : ℝ, 0 < cap → ∀ make : ImpurityArgs → Impurity,
      (∀ args, SplitContract (make args) a.minImprovement (requiredSamples a.minSamplesLeaf F.rows)) →
      ∃ st, (Config.init a).fitFrame ix hash cap make F [] = ([], .ok st) ∧
        ∀ r < F.rows, ∀ p : Var → ℝ, (∀ v ∈ vars, ∀ c, (v.name, c) ∈ F.columns → ValueOf hash v c r (p (ix v))) →
          ∃ l, 0 < l ∧ ∀ m, st.circuit.likelihood m p = .ok l := by
  have hone : ∀ nc ∈ F.columns, ∃ v, inferVariable scale improvement samples nc = .ok v ∧ v.name = nc.1 ∧ Describes v nc.2 :=
    fun nc hnc => inferVariable_ok (hs nc hnc) (by rw [hF.rows nc hnc]; exact hr) (hv.imp_right fun h => h nc hnc)
  have : Nonempty TreeVar := ⟨⟨"", .integer none none⟩⟩
  choose! f hf using hone
  have hinf : inferVariables F scale improvement samples = .ok (F.columns.map f) := mapM_ok' fun nc hnc => (hf nc hnc).1
  refine ⟨_, hinf, ?_⟩
  intro a haeq ha ix hix hash hh cap hcap make hI
  rw [← haeq]
  refine C85_fit_partial ha hF hr ?_ ?_ hh hcap hI
  · intro v hv'
    rw [haeq] at hv'
    obtain ⟨nc, hnc, rfl⟩ := List.mem_map.1 hv'
    refine ⟨nc.2, by rw [(hf nc hnc).2.1]; exact hnc, (hf nc hnc).2.2,
      inferVariable_learnable hi hsam (fun xs h => hint nc.1 xs (h ▸ hnc)) (hf nc hnc).1⟩
  · intro v hv' w hw h
    exact List.inj_on_of_nodup_map ha.names hv' hw (hix v w h)

/-! ### Concrete data frames -/

/-- Numbers the variables by their names. -/
def numbering (v : TreeVar) : Var := Encodable.encode (v.name.toList.map Char.toNat)

theorem numbering_name (v w : TreeVar) (h : numbering v = numbering w) : v.name = w.name := by
  have h1 : v.name.toList.map Char.toNat = w.name.toList.map Char.toNat := Encodable.encode_injective h
  have h2 := List.map_injective_iff.2 (fun a b h => Char.toNat_inj.1 h) h1
  exact String.toList_injective h2

theorem usable_default {vars : List TreeVar} (h : (vars.map TreeVar.name).Nodup) : Usable { vars := vars } :=
  ⟨h, by simp, by simp, by simp⟩

/-- Three columns and two rows. -/
noncomputable def smallFrame : Frame := ⟨2, [("x", .floats [1, 2]), ("k", .ints [3, 5]), ("s", .objects ["b", "a"])]⟩

theorem smallFrame_proper : ProperFrame smallFrame := ⟨by simp [smallFrame], by simp [smallFrame, Cells.length]⟩

/-- The hypotheses of C85 are met by a data frame with numbers and strings and scaled variables; its first row has a positive
likelihood. -/
example : ∃ vars st, inferVariables smallFrame true 0 1 = .ok vars ∧
    (Config.init { vars := vars }).fitFrame numbering id 1 (fun _ => firstSample) smallFrame [] = ([], .ok st) ∧
    ∃ (p : Var → ℝ) (l : ℝ), 0 < l ∧ st.circuit.likelihood freshMem p = .ok l := by
  have hvary : true = false ∨ ∀ c ∈ smallFrame.columns, Varies c.2 := Or.inr (by
    simp only [smallFrame, List.mem_cons, List.not_mem_nil, or_false, forall_eq_or_imp, forall_eq, Varies, and_true]
    exact ⟨1, by simp, 2, by simp, by norm_num⟩)
  obtain ⟨vars, h1, h2⟩ := C85_inferred_partial smallFrame_proper (by simp [smallFrame]) (by simp [smallFrame, NumbersOrStrings]) true
    (improvement := 0) (samples := 1) le_rfl le_rfl hvary (by simp [smallFrame])
  obtain ⟨vars', M, h3, hnames, _⟩ := C80_inferred_partial smallFrame_proper (by simp [smallFrame]) (by simp [smallFrame, NumbersOrStrings]) true
    0 1 hvary
  rw [h1] at h3
  injection h3 with h3
  subst h3
  obtain ⟨st, h4, h5⟩ := h2 { vars := vars } rfl (usable_default (hnames ▸ smallFrame_proper.names)) numbering numbering_name id
    Function.injective_id 1 one_pos (fun _ => firstSample) (fun _ => (requiredSamples_one _).symm ▸ firstSample_contract)
  have hdes := inferred_describes smallFrame_proper (by simp [smallFrame]) (by simp [smallFrame, NumbersOrStrings]) hvary h1
  refine ⟨vars, st, h1, h4, ?_⟩
  obtain ⟨p, hp⟩ := C85_points (vars := vars) (id : ℤ → ℤ) smallFrame_proper (hnames ▸ smallFrame_proper.names) hdes numbering_name
    (r := 0) (by simp [smallFrame])
  obtain ⟨l, hl, hm⟩ := h5 0 (by simp [smallFrame]) p hp
  exact ⟨p, l, hl, hm _⟩

/-- A tree that was learned from the integer `-1` alone gives it the likelihood zero. -/
theorem minus_one_zero {v : Var} {S : Settings} (hS : S.columns = [.integer v]) {I : Impurity} {x : Row} (hx : x.int 0 = -1)
    (h : TreeInput S [x]) (hI : SplitContract I S.minImprovement (requiredSamples S.minSamplesLeaf [x].length)) {q : List Task}
    {st : State} (hfit : fit S I [x] [] = (q, .ok st)) (m : Mem LogP) : st.circuit.likelihood m (fun _ => -1) = .ok 0 := by
  obtain ⟨st', r, hfit', _, _, hpart, hne, _⟩ := C41_fit h hI
  rw [hfit] at hfit'
  simp only [Prod.mk.injEq, Except.ok.injEq] at hfit'
  obtain ⟨rfl, rfl⟩ := hfit'
  obtain ⟨Q, hQ, hsum⟩ := C41_likelihood h hI hfit (fun _ => -1)
  have hd : Leaf.fitDiscrete [-1] = [(-2, 1)] := by
    have hp : pyHash (-1) = -2 := by decide
    rw [Leaf.fitDiscrete, npUnique_single, List.foldl_cons, List.foldl_nil, hp, Dict.set_new (by simp)]
    simp
  have hz : ∀ y ∈ (leafSamples st).zip Q, (S.columns.zipIdx.map y.2).prod = 0 := by
    intro y hy
    have hxl := (List.of_mem_zip hy).1
    have hx1 : y.1 = [0] := by
      have hall : ∀ i ∈ y.1, i = 0 := by
        intro i hi
        have := hpart.mem_iff.1 (List.mem_flatten.2 ⟨y.1, hxl, hi⟩)
        simpa using this
      have hnd : y.1.Nodup := by
        have h2 := hpart.symm.nodup (List.nodup_range)
        exact (List.nodup_flatten.1 h2).1 y.1 hxl
      have h3 := List.eq_replicate_of_mem hall
      rw [h3] at hnd
      have h4 : y.1.length ≤ 1 := List.nodup_replicate.1 hnd
      have h5 : 0 < y.1.length := List.length_pos_iff.2 (hne y.1 hxl).1
      rw [h3, show y.1.length = 1 by omega]
      rfl
    obtain ⟨g, r, hg, hlik⟩ := (List.forall₂_iff_zip.1 hQ).2 hy (.integer v, 0) (by simp [hS])
    rw [hx1] at hg
    have hg' : columnCircuit S.cap [x] (.integer v) 0 = .ok (newUnit 0 (.leaf (.integer v [(-2, 1)])), 0) := by
      rw [← hd, ← hx]
      rfl
    have hD := denotes_leaf 0 (d := .integer v [(-2, 1)]) ⟨by simp, by simp⟩
    have hR : ColumnLikelihood S.cap [x] (.integer v, 0) (fun _ => -1) 0 := by
      have := column_likelihood (cap := S.cap) (rows := [x]) (ci := (.integer v, 0))
        (F := fun ℓ => ℓ (.integer v [(-2, 1)])) ⟨hg', hD, rfl, ?_⟩ (fun _ => -1)
      · convert this using 1
        simp [leafDensity]
      · intro x' hx' p hp hh
        simp only [List.mem_singleton] at hx'
        subst hx'
        exact absurd hx hh.1
    obtain ⟨g', r', hg'', hlik'⟩ := hR
    have : columnCircuit S.cap [x] (.integer v) 0 = .ok (g, r) := hg
    rw [hg''] at this
    simp only [Except.ok.injEq, Prod.mk.injEq] at this
    have h6 := hlik freshMem
    rw [← this.1, hlik' freshMem] at h6
    injection h6 with h6
    simp [hS, ← h6]
  rw [hsum m]
  congr 1
  refine List.sum_eq_zero ?_
  intro a ha
  obtain ⟨y, hy, rfl⟩ := List.mem_map.1 ha
  rw [hz y hy, mul_zero]

/-- C85: a data frame with the integer `-1`. -/
theorem C85_full_false : ¬ C85_full := by
  intro hfull
  obtain ⟨vars, h1, h2⟩ := hfull ⟨1, [("k", .ints [-1])]⟩ ⟨by simp, by simp [Cells.length]⟩ one_pos (by simp [NumbersOrStrings]) 0 1 le_rfl le_rfl
  have hvars : ∃ v : TreeVar, vars = [v] ∧ v.name = "k" ∧ ∃ m s, v.kind = .integer m s := by
    simp only [inferVariables, List.mapM_cons, List.mapM_nil, inferVariable, bind, Except.bind, pure, Except.pure] at h1
    injection h1 with h1
    exact ⟨_, h1.symm, rfl, _, _, rfl⟩
  obtain ⟨v, rfl, hn, mean, std, hk⟩ := hvars
  have hu : Usable { vars := [v] } := usable_default (by simp)
  obtain ⟨st, h3, h4⟩ := h2 { vars := [v] } rfl hu numbering numbering_name id Function.injective_id 1 one_pos (fun _ => firstSample)
    (fun _ => (requiredSamples_one _).symm ▸ firstSample_contract)
  obtain ⟨l, hl, hlik⟩ := h4 0 one_pos (fun _ => -1) (by
    intro w hw c hc
    simp only [List.mem_singleton] at hw
    subst hw
    simp only [List.mem_singleton, Prod.mk.injEq] at hc
    rw [hc.2]
    refine ⟨-1, rfl, ?_⟩
    simp [StandsFor, hk])
  have hsort : (Config.init { vars := [v] }).vars = [v] := by simp [Config.init, sortVars]
  have hM : preprocess [v] ⟨1, [("k", .ints [-1])]⟩ = .ok [[some (-1)]] := by
    have h1 : encodeColumn v (.ints [-1]) = .ok [some (-1)] := by
      unfold encodeColumn
      rw [hk]
      simp
    simp [preprocess, hn, field, h1, bind, Except.bind, pure, Except.pure]
  have hrow : (List.range 1).map (rowAt [[some (-1)]]) = [rowAt [[some (-1)]] 0] := rfl
  simp only [Config.fitFrame] at h3
  rw [hsort, hM] at h3
  dsimp only at h3
  rw [if_pos (by simp [entry]), hrow, Config.fit] at h3
  split at h3
  · simp at h3
  · have hint : (rowAt [[some (-1)]] 0).int 0 = -1 := by
      change ⌊(-1 : ℝ)⌋ = -1
      rw [show (-1 : ℝ) = ((-1 : ℤ) : ℝ) by norm_num, Int.floor_intCast]
    have hcols : ((Config.init { vars := [v] }).settings numbering id 1).columns = [.integer (numbering v)] := by
      simp [Config.settings, hsort, TreeVar.column, hk]
    have hz := minus_one_zero hcols hint ⟨by simp, by simp [hcols], by simp [hcols, ColumnFits], one_pos⟩
      ((requiredSamples_one _).symm ▸ firstSample_contract) h3 freshMem
    rw [hlik freshMem] at hz
    injection hz with hz
    exact hl.ne' hz

end PM.Props
