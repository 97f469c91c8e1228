import Verif.Heap.MapLeaf
import Verif.Spec.Aliasing

/-! Helper lemmas: what the operations on a heap leave alone, and that they compute what the functions on values compute. -/

namespace PM

open Spec

namespace Heap

/-- The dictionaries of existing objects exist. -/
def WF (h : Heap) : Prop := ∀ r < h.nextObj, ∀ s v k, h.obj r = .discrete s v k → k < h.nextDict

/-- `h'` comes later than `h`; of the old objects only those in `S` may have changed, and no old dictionary. -/
structure Ext (S : ℕ → Prop) (h h' : Heap) : Prop where
  objs : h.nextObj ≤ h'.nextObj
  dicts : h.nextDict ≤ h'.nextDict
  obj : ∀ r < h.nextObj, ¬ S r → h'.obj r = h.obj r
  dict : ∀ k < h.nextDict, h'.dict k = h.dict k
  wf : h.WF → h'.WF

theorem Ext.refl (S : ℕ → Prop) (h : Heap) : Ext S h h := ⟨le_refl _, le_refl _, fun _ _ _ => rfl, fun _ _ => rfl, id⟩

theorem Ext.trans {S : ℕ → Prop} {h h' h'' : Heap} (a : Ext S h h') (b : Ext S h' h'') : Ext S h h'' where
  objs := a.objs.trans b.objs
  dicts := a.dicts.trans b.dicts
  obj r hr hs := (b.obj r (hr.trans_le a.objs) hs).trans (a.obj r hr hs)
  dict k hk := (b.dict k (hk.trans_le a.dicts)).trans (a.dict k hk)
  wf hw := b.wf (a.wf hw)

theorem Ext.mono {S T : ℕ → Prop} {h h' : Heap} (a : Ext S h h') (hS : ∀ r, S r → T r) : Ext T h h' :=
  ⟨a.objs, a.dicts, fun r hr hs => a.obj r hr fun h => hs (hS r h), a.dict, a.wf⟩

theorem Ext.read {S : ℕ → Prop} {h h' : Heap} (a : Ext S h h') (hw : h.WF) {r : ℕ} (hr : r < h.nextObj) (hs : ¬ S r) :
    h'.read r = h.read r := by
  unfold Heap.read
  rw [a.obj r hr hs]
  cases ho : h.obj r with
  | value d => rfl
  | discrete sym v k =>
    cases sym <;> simp only [a.dict k (hw r hr _ _ _ ho)]

theorem ext_newObj (S : ℕ → Prop) (h : Heap) (o : Obj) (ho : ∀ s v k, o = .discrete s v k → k < h.nextDict) :
    Ext S h (newObj o h).1 where
  objs := Nat.le_succ _
  dicts := le_refl _
  obj r hr _ := if_neg (Nat.ne_of_lt hr)
  dict _ _ := rfl
  wf hw r hr s v k hk := by
    simp only [newObj] at hr hk ⊢
    by_cases h1 : r = h.nextObj
    · rw [if_pos h1] at hk; exact ho s v k hk
    · rw [if_neg h1] at hk; exact hw r (by omega) s v k hk

theorem ext_newDict (S : ℕ → Prop) (h : Heap) (d : List (ℤ × ℝ)) : Ext S h (newDict d h).1 where
  objs := le_refl _
  dicts := Nat.le_succ _
  obj _ _ _ := rfl
  dict k hk := if_neg (Nat.ne_of_lt hk)
  wf hw r hr s v k hk := (hw r hr s v k hk).trans (Nat.lt_succ_self _)

theorem ext_setObj (S : ℕ → Prop) (h : Heap) (r : ℕ) (hr : S r) (o : Obj) (ho : ∀ s v k, o = .discrete s v k → k < h.nextDict) :
    Ext S h (setObj r o h).1 where
  objs := le_refl _
  dicts := le_refl _
  obj i _ hi := if_neg fun (e : i = r) => hi (e ▸ hr)
  dict _ _ := rfl
  wf hw i hi s v k hk := by
    simp only [setObj] at hk ⊢
    by_cases h1 : i = r
    · rw [if_pos h1] at hk; exact ho s v k hk
    · rw [if_neg h1] at hk; exact hw i hi s v k hk

end Heap

open Heap

variable {α β α' β' : Type} {S : ℕ → Prop}

/-- The outcome of a computation corresponds to an outcome `y` on values. -/
def Sim (V : Heap → α → Prop) (den : Heap → α → β) (y : Except PyErr β) (h : Heap) : Except PyErr α → Prop
  | .ok a => V h a ∧ y = .ok (den h a)
  | .error e => y = .error e

/-- Running `x` in `h` only changes what it may and ends as described. -/
structure Runs (S : ℕ → Prop) (h : Heap) (x : HM α) (P : Heap → Except PyErr α → Prop) : Prop where
  ext : Ext S h (x h).1
  post : P (x h).1 (x h).2

theorem Runs.ret {h : Heap} {a : α} {P : Heap → Except PyErr α → Prop} (hp : P h (.ok a)) : Runs S h (HM.ret a) P :=
  ⟨Ext.refl S h, hp⟩

theorem Runs.lift {h : Heap} {x : Except PyErr α} {P : Heap → Except PyErr α → Prop} (hp : P h x) : Runs S h (HM.lift x) P :=
  ⟨Ext.refl S h, hp⟩

theorem Runs.bind {h : Heap} {x : HM α} {f : α → HM β} {P : Heap → Except PyErr α → Prop} {Q : Heap → Except PyErr β → Prop}
    (hx : Runs S h x P) (hf : ∀ h' a, Ext S h h' → P h' (.ok a) → Runs S h' (f a) Q) (he : ∀ h' e, P h' (.error e) → Q h' (.error e)) :
    Runs S h (HM.bind x f) Q := by
  obtain ⟨h1, h2⟩ := hx
  have key : Ext S h (HM.bind x f h).1 ∧ Q (HM.bind x f h).1 (HM.bind x f h).2 := by
    unfold HM.bind
    rcases hr : x h with ⟨h', res⟩
    rw [hr] at h1 h2
    cases res with
    | error e => exact ⟨h1, he _ _ h2⟩
    | ok a =>
      obtain ⟨h3, h4⟩ := hf h' a h1 h2
      exact ⟨h1.trans h3, h4⟩
  exact ⟨key.1, key.2⟩

theorem Runs.mono {h : Heap} {x : HM α} {P Q : Heap → Except PyErr α → Prop} (hx : Runs S h x P) (hpq : ∀ h' r, P h' r → Q h' r) :
    Runs S h x Q := ⟨hx.ext, hpq _ _ hx.post⟩

theorem Runs.weaken {T : ℕ → Prop} {h : Heap} {x : HM α} {P : Heap → Except PyErr α → Prop} (hx : Runs S h x P)
    (hS : ∀ r, S r → T r) : Runs T h x P := ⟨hx.ext.mono hS, hx.post⟩

theorem Runs.bindSim {h : Heap} {x : HM α} {f : α → HM β} {V : Heap → α → Prop} {den : Heap → α → α'} {y : Except PyErr α'}
    {V' : Heap → β → Prop} {den' : Heap → β → β'} {k : α' → Except PyErr β'} (hx : Runs S h x (Sim V den y))
    (hf : ∀ h' a, Ext S h h' → V h' a → Runs S h' (f a) (Sim V' den' (k (den h' a)))) :
    Runs S h (HM.bind x f) (Sim V' den' (y >>= k)) := by
  refine hx.bind ?_ ?_
  · rintro h' a he ⟨hv, hy⟩
    rw [hy]
    exact hf h' a he hv
  · rintro h' e hy
    show (y >>= k) = _
    rw [show y = .error e from hy]
    rfl

theorem Runs.liftSim {h : Heap} {x : Except PyErr α} {V : Heap → α → Prop} {den : Heap → α → β} {y : Except PyErr β}
    (hy : y = x.map (den h)) (hv : ∀ a, x = .ok a → V h a) : Runs S h (HM.lift x) (Sim V den y) := by
  refine Runs.lift ?_
  subst hy
  cases x with
  | error e => rfl
  | ok a => exact ⟨hv a rfl, rfl⟩

theorem Runs.foldlSim {f : β → α → HM β} {k : β' → α → Except PyErr β'} {V : Heap → β → Prop} {den : Heap → β → β'} {h0 : Heap}
    (hf : ∀ h s a, Ext S h0 h → V h s → Runs S h (f s a) (Sim V den (k (den h s) a))) :
    ∀ (l : List α) (h : Heap) (s : β), Ext S h0 h → V h s → Runs S h (HM.foldl f l s) (Sim V den (l.foldlM k (den h s)))
  | [], h, s, _, hv => Runs.ret ⟨hv, rfl⟩
  | a :: l, h, s, he, hv => by
    rw [List.foldlM_cons]
    exact (hf h s a he hv).bindSim fun h' s' he' hv' => Runs.foldlSim hf l h' s' (he.trans he') hv'

theorem Runs.mapSim {f : α → HM β} {k : α → Except PyErr β'} {V : Heap → β → Prop} {den : Heap → β → β'} {h0 : Heap}
    (hst : ∀ h h' b, Ext S h0 h → Ext S h h' → V h b → V h' b ∧ den h' b = den h b) :
    ∀ (l : List α) (h : Heap), Ext S h0 h → (∀ a ∈ l, ∀ h, Ext S h0 h → Runs S h (f a) (Sim V den (k a))) →
      Runs S h (HM.map f l) (Sim (fun h bs => ∀ b ∈ bs, V h b) (fun h bs => bs.map (den h)) (l.mapM k))
  | [], h, _, _ => Runs.ret ⟨by simp, rfl⟩
  | a :: l, h, he, hf => by
    rw [List.mapM_cons]
    refine (hf a (by simp) h he).bindSim fun h' b he' hv => ?_
    refine (Runs.mapSim hst l h' (he.trans he') fun a ha => hf a (List.mem_cons_of_mem _ ha)).bindSim fun h'' bs he'' hvs => ?_
    have hb := hst h' h'' b (he.trans he') he'' hv
    refine Runs.ret ⟨?_, ?_⟩
    · intro c hc
      rcases List.mem_cons.1 hc with rfl | hc
      · exact hb.1
      · exact hvs c hc
    · rw [← hb.2]; rfl

namespace Graph

/-- The references of `g` exist and satisfy `Q`. -/
def Owns (Q : ℕ → Prop) (h : Heap) (g : RefCircuit) : Prop := ∀ r ∈ refs g, r < h.nextObj ∧ Q r

theorem mem_refs {g : RefCircuit} {r : ℕ} : r ∈ refs g ↔ ∃ n, (n, Kind.leaf r) ∈ g.nodes := by
  unfold refs
  rw [List.mem_filterMap]
  constructor
  · rintro ⟨⟨n, k⟩, hp, hk⟩
    cases k with
    | leaf r' => exact ⟨n, by rw [← Option.some.inj hk]; exact hp⟩
    | sum => exact absurd hk (by simp)
    | prod => exact absurd hk (by simp)
  · rintro ⟨n, hn⟩
    exact ⟨_, hn, rfl⟩

theorem mem_refs_of_kind? {g : RefCircuit} {n : Node} {r : ℕ} (h : g.kind? n = some (.leaf r)) : r ∈ refs g := by
  unfold kind? at h
  rw [Option.map_eq_some_iff] at h
  obtain ⟨⟨m, k⟩, h1, h2⟩ := h
  simp only at h2
  subst h2
  exact mem_refs.2 ⟨m, List.mem_of_find?_eq_some h1⟩

/-- A graph with references in `P` as a graph of such references. -/
theorem exists_lift {P : ℕ → Prop} : ∀ {g : RefCircuit}, (∀ r ∈ refs g, P r) → ∃ g0 : Graph {r // P r}, g = g0.mapLeaf Subtype.val := by
  intro g hg
  have key : ∀ l : List (Node × Kind ℕ), (∀ n r, (n, Kind.leaf r) ∈ l → P r) →
      ∃ l0 : List (Node × Kind {r // P r}), l = l0.map fun p => (p.1, p.2.map Subtype.val) := by
    intro l
    induction l with
    | nil => intro _; exact ⟨[], rfl⟩
    | cons p l ih =>
      intro h
      obtain ⟨l0, rfl⟩ := ih fun n r hr => h n r (List.mem_cons_of_mem _ hr)
      obtain ⟨n, k⟩ := p
      cases k with
      | leaf r => exact ⟨(n, .leaf ⟨r, h n r (by simp)⟩) :: l0, rfl⟩
      | sum => exact ⟨(n, .sum) :: l0, rfl⟩
      | prod => exact ⟨(n, .prod) :: l0, rfl⟩
  obtain ⟨l0, h0⟩ := key g.nodes fun n r hr => hg r (mem_refs.2 ⟨n, hr⟩)
  exact ⟨⟨l0, g.edges⟩, by unfold mapLeaf; simp only; rw [← h0]⟩

theorem refs_mapLeaf {P : ℕ → Prop} (g0 : Graph {r // P r}) : ∀ r ∈ refs (g0.mapLeaf Subtype.val), P r := by
  intro r hr
  obtain ⟨n, hn⟩ := mem_refs.1 hr
  obtain ⟨⟨m, k⟩, -, hk⟩ := List.mem_map.1 hn
  cases k with
  | leaf d =>
    have := (Prod.mk.inj hk).2
    simp only [Kind.map] at this
    injection this with this
    rw [← this]; exact d.2
  | sum => exact absurd (Prod.mk.inj hk).2 (by simp [Kind.map])
  | prod => exact absurd (Prod.mk.inj hk).2 (by simp [Kind.map])

/-- An operation that does not look at the distributions makes no new references. -/
theorem refs_natural {op : {D : Type} → Graph D → Except PyErr (Graph D)}
    (hop : ∀ {D D' : Type} (f : D → D') (g : Graph D), op (g.mapLeaf f) = (op g).map (mapLeaf f)) {g g' : RefCircuit}
    (h : op g = .ok g') : ∀ r ∈ refs g', r ∈ refs g := by
  obtain ⟨g0, hg0⟩ := exists_lift (P := (· ∈ refs g)) (g := g) fun r hr => hr
  rw [hg0, hop] at h
  cases h0 : op g0 with
  | error e => rw [h0] at h; exact absurd h (by simp [Except.map])
  | ok g1 =>
    rw [h0] at h
    injection h with h
    subst h
    exact refs_mapLeaf g1

theorem view_eq {h h' : Heap} {g : RefCircuit} (hr : ∀ r ∈ refs g, h'.read r = h.read r) : g.view h' = g.view h := by
  unfold view mapLeaf
  congr 1
  apply List.map_congr_left
  rintro ⟨n, k⟩ hp
  cases k with
  | leaf r => simp only [Kind.map]; rw [hr r (mem_refs.2 ⟨n, hp⟩)]
  | sum => rfl
  | prod => rfl

theorem Owns.ext {Q : ℕ → Prop} {h h' : Heap} {g : RefCircuit} (hg : Owns Q h g) (he : Ext S h h') : Owns Q h' g :=
  fun r hr => ⟨(hg r hr).1.trans_le he.objs, (hg r hr).2⟩

abbrev noOld : ℕ → Prop := fun _ => False

theorem Owns.view_ext {Q : ℕ → Prop} {h h' : Heap} {g : RefCircuit} (hg : Owns Q h g) (hw : h.WF) (he : Ext noOld h h') :
    g.view h' = g.view h := view_eq fun r hr => he.read hw (hg r hr).1 id

end Graph
end PM
