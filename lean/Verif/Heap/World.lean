import Verif.Heap.SimCircuit

/-! Helper lemmas: calls of a user with several circuits. -/

namespace PM

open Spec Heap Graph

variable {h : Heap}

theorem runs_assign {S : ℕ → Prop} {r : ℕ} (hr : S r) (d : Leaf) : Runs S h (assign r d) (fun _ _ => True) := by
  have key : ∀ (sym : Bool) v probs, Runs S h (HM.bind (newDict probs) fun k => setObj r (.discrete sym v k)) (fun _ _ => True) := by
    intro sym v probs
    refine (Runs.mk (P := fun h' res => res = .ok h.nextDict ∧ h' = (newDict probs h).1) (ext_newDict S h probs) ⟨rfl, rfl⟩).bind ?_ ?_
    · rintro h' k he ⟨hk, rfl⟩
      injection hk with hk
      subst hk
      refine ⟨ext_setObj S _ r hr _ ?_, trivial⟩
      intro s v' k' e
      injection e with _ _ e
      rw [← e]
      exact Nat.lt_succ_self _
    · intros; trivial
  cases d with
  | symbolic v probs => exact key true v probs
  | integer v probs => exact key false v probs
  | uniform v a b l r => exact ⟨ext_setObj S _ _ hr _ (by simp), trivial⟩
  | dirac v a b => exact ⟨ext_setObj S _ _ hr _ (by simp), trivial⟩
  | gaussian v a b => exact ⟨ext_setObj S _ _ hr _ (by simp), trivial⟩
  | truncGaussian v I a b => exact ⟨ext_setObj S _ _ hr _ (by simp), trivial⟩

theorem runs_changeLeaf (φ : Leaf → Except PyErr Leaf) (g : RefCircuit) (n : Node) :
    Runs (· ∈ refs g) h (OnHeap.changeLeaf φ g n) (fun _ _ => True) := by
  refine ⟨?_, trivial⟩
  cases hk : g.kind? n with
  | none => simp only [OnHeap.changeLeaf, hk]; exact Ext.refl _ _
  | some k =>
    cases k with
    | sum => simp only [OnHeap.changeLeaf, hk]; exact Ext.refl _ _
    | prod => simp only [OnHeap.changeLeaf, hk]; exact Ext.refl _ _
    | leaf r =>
      simp only [OnHeap.changeLeaf, hk]
      exact (Runs.bind (S := (· ∈ refs g)) (Q := fun _ _ => True) (Runs.lift (P := fun _ _ => True) trivial)
        (fun h' d' _ _ => runs_assign (mem_refs_of_kind? hk) d') (fun _ _ _ => trivial)).ext

theorem runs_renameLeaf (hw : h.WF) (ρ : Var → Var) {g : RefCircuit} (hg : ∀ r ∈ refs g, r < h.nextObj) (n : Node) :
    Runs (· ∈ refs g) h (OnHeap.renameLeaf ρ g n) (fun _ _ => True) := by
  refine ⟨?_, trivial⟩
  cases hk : g.kind? n with
  | none => simp only [OnHeap.renameLeaf, hk]; exact Ext.refl _ _
  | some k =>
    cases k with
    | sum => simp only [OnHeap.renameLeaf, hk]; exact Ext.refl _ _
    | prod => simp only [OnHeap.renameLeaf, hk]; exact Ext.refl _ _
    | leaf r =>
      have hr := mem_refs_of_kind? hk
      cases ho : h.obj r with
      | discrete s v k =>
        simp only [OnHeap.renameLeaf, hk, ho]
        refine ext_setObj _ _ _ hr _ ?_
        intro s' v' k' e
        injection e with _ _ e
        rw [← e]
        exact hw r (hg r hr) _ _ _ ho
      | value d =>
        cases d <;> simp only [OnHeap.renameLeaf, hk, ho] <;> exact ext_setObj _ _ _ hr _ (by simp)

theorem runs_loop {α : Type} {S : ℕ → Prop} {f : Unit → α → HM Unit} {h0 : Heap}
    (hf : ∀ h a, Ext S h0 h → Runs S h (f () a) (fun _ _ => True)) : ∀ (l : List α) (h : Heap), Ext S h0 h →
    Runs S h (HM.foldl f l ()) (fun _ _ => True)
  | [], _, _ => Runs.ret trivial
  | a :: l, h, he => (hf h a he).bind (fun h' _ he' _ => runs_loop hf l h' (he.trans he')) (fun _ _ _ => trivial)

/-- The new circuit uses old objects of `g` and new ones. -/
def Grown (n : ℕ) (g : RefCircuit) (h : Heap) (res : Except PyErr RefCircuit) : Prop :=
  ∀ g', res = .ok g' → Owns (fun r => r ∈ refs g ∨ n ≤ r) h g'

theorem grown_self {n : ℕ} {g : RefCircuit} (hg : ∀ r ∈ refs g, r < h.nextObj) : Grown n g h (.ok g) := by
  intro g' hg'
  injection hg' with hg'
  subst hg'
  exact fun r hr => ⟨hg r hr, Or.inl hr⟩

theorem grown_of_sim {α β : Type} {S : ℕ → Prop} {n : ℕ} {g : RefCircuit} (hg : ∀ r ∈ refs g, r < h.nextObj) {x : HM α}
    {V : Heap → α → Prop} {den : Heap → α → β} {y : Except PyErr β} (hx : Runs S h x (Sim V den y)) (f : α → RefCircuit)
    (hf : ∀ h' a, Ext S h h' → V h' a → f a = g ∨ Owns (fun r => r ∈ refs g ∨ n ≤ r) h' (f a)) :
    Runs S h (HM.bind x fun a => HM.ret (f a)) (Grown n g) := by
  refine hx.bind (Q := Grown n g) ?_ ?_
  · rintro h' a he ⟨hv, -⟩
    refine Runs.ret ?_
    rcases hf h' a he hv with h1 | h1
    · rw [h1]; exact grown_self fun r hr => (hg r hr).trans_le he.objs
    · intro g' hg'
      injection hg' with hg'
      exact hg' ▸ h1
  · intro h' e _ g' hg'
    exact absurd hg' (by simp)

theorem grown_lift {S : ℕ → Prop} {n : ℕ} {g : RefCircuit} (hg : ∀ r ∈ refs g, r < h.nextObj) {x : Except PyErr RefCircuit}
    (hx : ∀ g', x = .ok g' → ∀ r ∈ refs g', r ∈ refs g) : Runs S h (HM.lift x) (Grown n g) :=
  Runs.lift fun g' hg' r hr => ⟨hg r (hx g' hg' r hr), Or.inl (hx g' hg' r hr)⟩

theorem grown_unit {S : ℕ → Prop} {n : ℕ} {g : RefCircuit} (hg : ∀ r ∈ refs g, r < h.nextObj) {x : HM Unit}
    (hx : Runs S h x (fun _ _ => True)) : Runs S h (HM.bind x fun _ => HM.ret g) (Grown n g) := by
  refine hx.bind (Q := Grown n g) ?_ ?_
  · intro h' a he _
    exact Runs.ret (grown_self fun r hr => (hg r hr).trans_le he.objs)
  · intro h' e _ g' hg'
    exact absurd hg' (by simp)

theorem runs_applyEdit (hw : h.WF) {g : RefCircuit} (hg : ∀ r ∈ refs g, r < h.nextObj) (e : Edit)
    (he : ∀ n, e ≠ .normalizeLeaf n) : Runs (· ∈ refs g) h (World.applyEdit g e) (Grown h.nextObj g) := by
  have hown : Owns (fun r => r ∈ refs g ∨ h.nextObj ≤ r) h g := fun r hr => ⟨hg r hr, Or.inl hr⟩
  cases e with
  | conditional Es =>
    refine Runs.weaken (S := noOld) ?_ (fun r hr => hr.elim)
    refine grown_of_sim hg (runs_logConditionalInPlace hw Es freshMem hown fun r hr => Or.inr hr) (fun q => q.1.getD g) ?_
    rintro h' ⟨o, p⟩ _ hv
    cases o with
    | none => exact Or.inl rfl
    | some g' => exact Or.inr (hv g' rfl)
  | marginal vs =>
    refine Runs.weaken (S := noOld) ?_ (fun r hr => hr.elim)
    refine grown_of_sim hg (runs_marginalInPlace vs hown) (fun q => q.getD g) ?_
    rintro h' o _ hv
    cases o with
    | none => exact Or.inl rfl
    | some g' => exact Or.inr (hv g' rfl)
  | simplify => exact grown_lift hg fun g' hg' => refs_natural (op := fun g => g.simplify) (fun f g => mapLeaf_simplify f g) hg'
  | normalize => exact grown_lift hg fun g' hg' => refs_natural (op := fun g => g.normalize) (fun f g => mapLeaf_normalize f g) hg'
  | translate t =>
    refine grown_unit hg ?_
    exact Runs.bind (Q := fun _ _ => True) (Runs.lift (P := fun _ _ => True) trivial)
      (fun h' r _ _ => runs_loop (h0 := h') (fun h a _ => runs_changeLeaf _ g a) _ _ (Ext.refl _ _)) (fun _ _ _ => trivial)
  | scale t =>
    refine grown_unit hg ?_
    exact Runs.bind (Q := fun _ _ => True) (Runs.lift (P := fun _ _ => True) trivial)
      (fun h' r _ _ => runs_loop (h0 := h') (fun h a _ => runs_changeLeaf _ g a) _ _ (Ext.refl _ _)) (fun _ _ _ => trivial)
  | updateVariables ρ =>
    have h1 : World.applyEdit g (.updateVariables ρ) = HM.bind (HM.lift g.root) fun r =>
      HM.bind (HM.foldl (fun _ n => OnHeap.renameLeaf ρ g n) (g.leavesOf r) ()) fun _ => HM.ret g := rfl
    rw [h1]
    refine Runs.bind (P := fun h' _ => h' = h) (Runs.lift rfl) ?_ ?_
    · rintro h' r he rfl
      refine grown_unit hg ?_
      exact runs_loop (h0 := h') (fun h2 a he2 => runs_renameLeaf (he2.wf hw) ρ (fun r hr => (hg r hr).trans_le he2.objs) a) _ _
        (Ext.refl _ _)
    · intro h' e _ g' hg'
      exact absurd hg' (by simp)
  | fit n v data => exact grown_unit hg (runs_changeLeaf _ g n)
  | setDistribution n d =>
    refine grown_of_sim hg (runs_newLeaf d (le_refl _)) (fun r => g.setLeaf n r) ?_
    intro h' r he hv
    refine Or.inr fun q hq => ?_
    rcases refs_setLeaf q hq with hq | rfl
    · exact ⟨(hg q hq).trans_le he.objs, Or.inl hq⟩
    · exact ⟨hv.2, Or.inr hv.1⟩
  | normalizeLeaf n => exact absurd rfl (he n)

theorem Spec.Separate.wf {w : World} (hs : Separate w) : w.heap.WF := hs.dicts

/-- Adding a circuit of new objects keeps circuits separate. -/
theorem add_spec {w : World} (hs : Separate w) {res : Heap × Except PyErr (Option RefCircuit)} (he : Ext noOld w.heap res.1)
    (hg : ∀ g, res.2 = .ok (some g) → Owns (w.heap.nextObj ≤ ·) res.1 g) :
    Separate (w.add res) ∧ (∀ i, i < w.circuits.length → (w.add res).circuits[i]? = w.circuits[i]?) ∧ (w.add res).heap = res.1 := by
  obtain ⟨h, r⟩ := res
  have hold : ∀ g ∈ w.circuits, ∀ r ∈ refs g, r < h.nextObj := fun g hg r hr => (hs.known g hg r hr).trans_le he.objs
  have other : Separate ⟨h, w.circuits⟩ := ⟨he.wf hs.wf, hold, hs.disjoint⟩
  rcases r with e | ⟨_ | g⟩
  · exact ⟨other, fun _ _ => rfl, rfl⟩
  · exact ⟨other, fun _ _ => rfl, rfl⟩
  · have hg := hg g rfl
    simp only at hg he
    refine ⟨⟨he.wf hs.wf, ?_, ?_⟩, fun i hi => List.getElem?_append_left hi, rfl⟩
    · intro g' hg' r hr
      rcases List.mem_append.1 hg' with hg' | hg'
      · exact hold g' hg' r hr
      · rw [List.mem_singleton.1 hg'] at hr; exact (hg r hr).1
    · intro i j g1 g2 r h1 h2 hr1 hr2
      show i = j
      change (w.circuits ++ [g])[i]? = some g1 at h1
      change (w.circuits ++ [g])[j]? = some g2 at h2
      have cases_of : ∀ k g', (w.circuits ++ [g])[k]? = some g' → w.circuits[k]? = some g' ∨ (k = w.circuits.length ∧ g' = g) := by
        intro k g' hk
        rcases lt_or_ge k w.circuits.length with hlt | hge
        · rw [List.getElem?_append_left hlt] at hk; exact Or.inl hk
        · rw [List.getElem?_append_right hge] at hk
          rcases Nat.eq_zero_or_pos (k - w.circuits.length) with h0 | h0
          · rw [h0] at hk
            exact Or.inr ⟨by omega, by injection hk with hk; exact hk.symm⟩
          · rw [List.getElem?_eq_none (show [g].length ≤ _ from h0)] at hk; exact absurd hk (by simp)
      rcases cases_of i g1 h1 with h3 | ⟨hi, rfl⟩ <;> rcases cases_of j g2 h2 with h4 | ⟨hj, rfl⟩
      · exact hs.disjoint i j g1 g2 r h3 h4 hr1 hr2
      · have := hs.known g1 (List.mem_of_getElem? h3) r hr1
        have := (hg r hr2).2
        omega
      · have := hs.known g2 (List.mem_of_getElem? h4) r hr2
        have := (hg r hr1).2
        omega
      · rw [hi, hj]

theorem look_eq {w w' : World} {i : ℕ} {g : RefCircuit} (hi : w.circuits[i]? = some g) (hi' : w'.circuits[i]? = some g)
    (hr : ∀ r ∈ refs g, w'.heap.read r = w.heap.read r) : w'.look i = w.look i := by
  unfold World.look
  rw [hi, hi', Option.map_some, Option.map_some, view_eq hr]

theorem sim_ok {α β : Type} {V : Heap → α → Prop} {den : Heap → α → β} {y : Except PyErr β} {h : Heap} {a : α}
    (hs : Sim V den y h (.ok a)) : V h a := hs.1

/-- A query on circuit `i`, which adds a circuit. -/
theorem query_spec {w : World} (hs : Separate w) {res : Heap × Except PyErr (Option RefCircuit)} (he : Ext noOld w.heap res.1)
    (hg : ∀ g, res.2 = .ok (some g) → Owns (w.heap.nextObj ≤ ·) res.1 g) :
    Separate (w.add res) ∧ ∀ i, i < w.circuits.length → (w.add res).look i = w.look i ∧ i < (w.add res).circuits.length := by
  obtain ⟨h1, h2, h3⟩ := add_spec hs he hg
  refine ⟨h1, fun i hi => ?_⟩
  have hi' : w.circuits[i]? = some w.circuits[i] := List.getElem?_eq_getElem hi
  refine ⟨look_eq hi' ((h2 i hi).trans hi') ?_, ?_⟩
  · intro r hr
    rw [h3]
    exact he.read hs.wf (hs.known _ (List.getElem_mem hi) r hr) id
  · by_contra hc
    have := h2 i hi
    rw [hi', List.getElem?_eq_none (by omega)] at this
    exact absurd this (by simp)

theorem runs_queryCopy (hw : h.WF) {g : RefCircuit} (hg : ∀ r ∈ refs g, r < h.nextObj) :
    Runs noOld h (HM.bind (OnHeap.copy g) (fun g' => HM.ret (some g')))
      (Sim (fun h' q => ∀ g', q = some g' → Owns (h.nextObj ≤ ·) h' g') (fun h q => q.map (view h)) (.ok (some (g.view h).copy))) :=
  (runs_copy hw hg (le_refl _)).bindSim (k := fun g' => .ok (some g')) fun h' g' _ hv =>
    Runs.ret ⟨fun g'' hg'' => by injection hg'' with hg''; exact hg'' ▸ hv, rfl⟩

/-- An in-place method changes only the circuit it is called on. -/
theorem editAt_spec {w : World} (hs : Separate w) (j : ℕ) (e : Edit) (hne : ∀ n, e ≠ .normalizeLeaf n) :
    Separate (w.editAt j e) ∧ ∀ i, i < w.circuits.length → j ≠ i →
      (w.editAt j e).look i = w.look i ∧ i < (w.editAt j e).circuits.length := by
  have hknown : ∀ {i : ℕ} {g}, w.circuits[i]? = some g → ∀ r ∈ refs g, r < w.heap.nextObj :=
    fun hi => hs.known _ (List.mem_of_getElem? hi)
  cases hj : w.circuits[j]? with
  | none =>
    have : w.editAt j e = w := by simp only [World.editAt, hj]
    rw [this]; exact ⟨hs, fun i hi _ => ⟨rfl, hi⟩⟩
  | some g =>
  have hx := runs_applyEdit hs.wf (hknown hj) e hne
  obtain ⟨he, hp⟩ := hx
  have hstep : w.editAt j e = (match World.applyEdit g e w.heap with
      | (h, .ok g') => ⟨h, w.circuits.set j g'⟩
      | (h, .error _) => ⟨h, w.circuits⟩) := by
    simp only [World.editAt, hj]
    rcases World.applyEdit g e w.heap with ⟨h', _ | _⟩ <;> rfl
  rw [hstep]
  revert he hp
  rcases World.applyEdit g e w.heap with ⟨h', res⟩
  intro he hp
  simp only at he hp
  have hread : ∀ (i : ℕ) g', i ≠ j → w.circuits[i]? = some g' → ∀ r ∈ refs g', h'.read r = w.heap.read r := by
    intro i g' hij hi r hr
    refine he.read hs.wf (hknown hi r hr) fun hrg => hij ?_
    exact hs.disjoint i j g' g r hi hj hr hrg
  cases res with
  | error err =>
    refine ⟨⟨he.wf hs.wf, fun g' hg' r hr => (hs.known g' hg' r hr).trans_le he.objs, hs.disjoint⟩, fun i hi hsp => ⟨?_, hi⟩⟩
    have hi' : w.circuits[i]? = some w.circuits[i] := List.getElem?_eq_getElem hi
    exact look_eq hi' hi' (hread i _ (Ne.symm hsp) hi')
  | ok g' =>
    have hown := hp g' rfl
    have hget : ∀ i, i ≠ j → (w.circuits.set j g')[i]? = w.circuits[i]? := fun i hi => List.getElem?_set_ne (Ne.symm hi)
    have hjlt : j < w.circuits.length := by
      by_contra hc
      rw [List.getElem?_eq_none (by omega)] at hj
      exact absurd hj (by simp)
    have hgetj : (w.circuits.set j g')[j]? = some g' := by
      rw [List.getElem?_set_self hjlt]
    have sep : ∀ (i : ℕ) g1 r, i ≠ j → w.circuits[i]? = some g1 → r ∈ refs g1 → r ∉ refs g' := by
      intro i g1 r hij hi hr hr'
      rcases (hown r hr').2 with h1 | h1
      · exact hij (hs.disjoint i j g1 g r hi hj hr h1)
      · have := hknown hi r hr
        omega
    refine ⟨⟨he.wf hs.wf, ?_, ?_⟩, fun i hi hsp => ⟨?_, by simpa using hi⟩⟩
    · intro g1 hg1 r hr
      rcases List.mem_or_eq_of_mem_set hg1 with h1 | rfl
      · exact (hs.known g1 h1 r hr).trans_le he.objs
      · exact (hown r hr).1
    · intro i k g1 g2 r h1 h2 hr1 hr2
      change (w.circuits.set j g')[i]? = some g1 at h1
      change (w.circuits.set j g')[k]? = some g2 at h2
      by_cases hij : i = j <;> by_cases hkj : k = j
      · rw [hij, hkj]
      · subst hij
        rw [hgetj] at h1; injection h1 with h1; subst h1
        rw [hget k hkj] at h2
        exact absurd hr1 (sep k g2 r hkj h2 hr2)
      · subst hkj
        rw [hgetj] at h2; injection h2 with h2; subst h2
        rw [hget i hij] at h1
        exact absurd hr2 (sep i g1 r hij h1 hr1)
      · rw [hget i hij] at h1
        rw [hget k hkj] at h2
        exact hs.disjoint i k g1 g2 r h1 h2 hr1 hr2
    · have hi' : w.circuits[i]? = some w.circuits[i] := List.getElem?_eq_getElem hi
      exact look_eq hi' ((hget i (Ne.symm hsp)).trans hi') (hread i _ (Ne.symm hsp) hi')

/-- A copy is a new circuit of new objects that looks like the copy of the original. -/
theorem copyAt_spec {w : World} (hs : Separate w) {i : ℕ} {g : RefCircuit} (hi : w.circuits[i]? = some g) :
    ∃ h' g', w.copyAt i = (⟨h', w.circuits ++ [g']⟩, some w.circuits.length) ∧ Separate ⟨h', w.circuits ++ [g']⟩ ∧
      g'.view h' = (g.view w.heap).copy ∧ ∀ k, k < w.circuits.length → (World.mk h' (w.circuits ++ [g'])).look k = w.look k := by
  have hx := runs_queryCopy hs.wf (hs.known _ (List.mem_of_getElem? hi))
  have hq := query_spec hs hx.ext (by
    intro g' hg'
    have := hx.post
    rw [hg'] at this
    exact this.1 g' rfl)
  have hp := hx.post
  have hc : w.copyAt i = (w.add (HM.bind (OnHeap.copy g) (fun g' => HM.ret (some g')) w.heap), some w.circuits.length) := by
    simp only [World.copyAt, hi]
  rw [hc]
  revert hp hq
  rcases HM.bind (OnHeap.copy g) (fun g' => HM.ret (some g')) w.heap with ⟨h', e | _ | g'⟩
  · intro hq hp
    exact absurd hp (by simp [Sim])
  · intro hq hp
    exact absurd hp.2 (by simp)
  · intro hq hp
    refine ⟨h', g', rfl, hq.1, ?_, fun k hk => (hq.2 k hk).1⟩
    have := hp.2
    injection this with this
    exact (Option.some.inj this).symm

/-- An in-place method called on a copy. -/
theorem onCopy_spec {w : World} (hs : Separate w) (j : ℕ) (e : Edit) (hne : ∀ n, e ≠ .normalizeLeaf n) {w' : World}
    (hw' : w' = (match w.copyAt j with | (w', some result) => w'.editAt result e | (w', none) => w')) :
    Separate w' ∧ ∀ i, i < w.circuits.length → w'.look i = w.look i ∧ i < w'.circuits.length := by
  cases hj : w.circuits[j]? with
  | none =>
    have : w' = w := by rw [hw']; simp only [World.copyAt, hj]
    rw [this]; exact ⟨hs, fun i hi => ⟨rfl, hi⟩⟩
  | some g =>
    obtain ⟨h1, g1, hc, hsep, -, hlook⟩ := copyAt_spec hs hj
    rw [hc] at hw'
    simp only at hw'
    obtain ⟨h2, h3⟩ := editAt_spec hsep w.circuits.length e hne
    rw [hw']
    refine ⟨h2, fun i hi => ?_⟩
    obtain ⟨h4, h5⟩ := h3 i (by simp; omega) (by omega)
    exact ⟨h4.trans (hlook i hi), h5⟩

/-- One call. -/
theorem step_spec {w : World} (hs : Separate w) (c : Call) (hc : Call.keepsDicts c) :
    Separate (w.step c) ∧ ∀ i, i < w.circuits.length → Call.spares i c →
      (w.step c).look i = w.look i ∧ i < (w.step c).circuits.length := by
  cases c with
  | copy j =>
    cases hj : w.circuits[j]? with
    | none =>
      have : w.step (.copy j) = w := by simp only [World.step, World.copyAt, hj]
      rw [this]; exact ⟨hs, fun i hi _ => ⟨rfl, hi⟩⟩
    | some g =>
      obtain ⟨h1, g1, hcp, hsep, -, hlook⟩ := copyAt_spec hs hj
      have : w.step (.copy j) = ⟨h1, w.circuits ++ [g1]⟩ := by simp only [World.step, hcp]
      rw [this]
      exact ⟨hsep, fun i hi _ => ⟨hlook i hi, by simp; omega⟩⟩
  | conditional j Es =>
    obtain ⟨h1, h2⟩ := onCopy_spec hs j (.conditional Es) (by simp) (w' := w.step (.conditional j Es)) (by
      simp only [World.step, World.conditionalAt]
      rcases w.copyAt j with ⟨w', _ | _⟩ <;> rfl)
    exact ⟨h1, fun i hi _ => h2 i hi⟩
  | marginal j vs =>
    obtain ⟨h1, h2⟩ := onCopy_spec hs j (.marginal vs) (by simp) (w' := w.step (.marginal j vs)) (by
      simp only [World.step, World.marginalAt]
      rcases w.copyAt j with ⟨w', _ | _⟩ <;> rfl)
    exact ⟨h1, fun i hi _ => h2 i hi⟩
  | edit j e =>
    exact editAt_spec hs j e (by rintro n rfl; exact hc)

end PM
