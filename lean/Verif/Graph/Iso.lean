import Verif.Spec.Renamed
import Verif.Graph.Bfs
import Verif.Graph.Pass
import Verif.Circuit.Query

/-! Helper lemmas: passes over a renamed circuit. -/

namespace PM

open Spec

namespace Graph

variable {D V : Type} {g g' : Graph D} {φ : Node → Node}

theorem Renamed.ids (h : Renamed g g' φ) : g'.ids = g.ids.map φ := by
  unfold Graph.ids; rw [h.nodes, List.map_map, List.map_map]; rfl

theorem find?_map_key {α : Type} (l : List (Node × α)) (n : Node) (hn : ∀ p ∈ l, φ p.1 = φ n → p.1 = n) :
    ((l.map fun p => (φ p.1, p.2)).find? fun p => p.1 == φ n).map Prod.snd = (l.find? fun p => p.1 == n).map Prod.snd := by
  induction l with
  | nil => rfl
  | cons a l ih =>
    have ih := ih fun p hp => hn p (List.mem_cons_of_mem _ hp)
    rw [List.map_cons, List.find?_cons, List.find?_cons]
    by_cases ha : a.1 = n
    · simp [ha]
    · have h1 : (φ a.1 == φ n) = false := by
        rw [beq_eq_false_iff_ne]; intro h; exact ha (hn a (by simp) h)
      have h2 : (a.1 == n) = false := by rw [beq_eq_false_iff_ne]; exact ha
      simp only [h1, h2]
      exact ih

theorem Renamed.kind? (h : Renamed g g' φ) {n : Node} (hn : n ∈ g.ids) : g'.kind? (φ n) = g.kind? n := by
  unfold Graph.kind?
  rw [h.nodes]
  exact find?_map_key _ _ fun p hp he => h.inj p.1 (List.mem_map.2 ⟨p, hp, rfl⟩) n hn he

theorem Renamed.succ (h : Renamed g g' φ) {n : Node} (hn : n ∈ g.ids) : g'.succ (φ n) = (g.succ n).map φ := by
  unfold Graph.succ; rw [h.out n hn, List.map_map, List.map_map]; rfl

theorem Renamed.edge (hw : g.WF) (h : Renamed g g' φ) {e' : Edge} :
    e' ∈ g'.edges ↔ ∃ e ∈ g.edges, e' = ⟨φ e.src, φ e.dst, e.weight⟩ := by
  constructor
  · intro he
    have := h.src e' he
    rw [Renamed.ids h, List.mem_map] at this
    obtain ⟨n, hn, hs⟩ := this
    have h2 : e' ∈ g'.outEdges (φ n) := mem_outEdges.2 ⟨he, hs.symm⟩
    rw [h.out n hn, List.mem_map] at h2
    obtain ⟨e, he2, rfl⟩ := h2
    exact ⟨e, (mem_outEdges.1 he2).1, rfl⟩
  · rintro ⟨e, he, rfl⟩
    have h2 : (⟨φ e.src, φ e.dst, e.weight⟩ : Edge) ∈ g'.outEdges (φ e.src) := by
      rw [h.out _ (hw.srcMem e he), List.mem_map]
      exact ⟨e, mem_outEdges.2 ⟨he, rfl⟩, rfl⟩
    exact (mem_outEdges.1 h2).1

theorem Renamed.inEdges_nil (hw : g.WF) (h : Renamed g g' φ) {n : Node} (hn : n ∈ g.ids) :
    g'.inEdges (φ n) = [] ↔ g.inEdges n = [] := by
  simp only [List.eq_nil_iff_forall_not_mem, mem_inEdges, not_and]
  constructor
  · intro hh e he hd
    exact hh _ ((Renamed.edge hw h).2 ⟨e, he, rfl⟩) (by rw [hd])
  · intro hh e' he' hd
    obtain ⟨e, he, rfl⟩ := (Renamed.edge hw h).1 he'
    exact hh e he (h.inj _ (hw.dstMem e he) _ hn hd)

theorem Renamed.root (hw : g.WF) (h : Renamed g g' φ) : g'.root = g.root.map φ := by
  have hf : g'.ids.filter (fun n => g'.inDegree n == 0) = (g.ids.filter fun n => g.inDegree n == 0).map φ := by
    rw [Renamed.ids h, List.filter_map]
    congr 1
    apply List.filter_congr
    intro n hn
    show (g'.inDegree (φ n) == 0) = (g.inDegree n == 0)
    rw [Bool.eq_iff_iff]
    simp only [beq_iff_eq, Graph.inDegree, List.length_eq_zero_iff]
    exact Renamed.inEdges_nil hw h hn
  unfold Graph.root
  rw [hf]
  rcases g.ids.filter (fun n => g.inDegree n == 0) with _ | ⟨a, _ | ⟨b, l⟩⟩ <;> rfl

theorem discover_map (hinj : ∀ a ∈ g.ids, ∀ b ∈ g.ids, φ a = φ b → a = b) : ∀ (cs v : List Node), (∀ c ∈ cs, c ∈ g.ids) →
    (∀ c ∈ v, c ∈ g.ids) → discover (v.map φ) (cs.map φ) = (discover v cs).map φ := by
  intro cs
  induction cs with
  | nil => intro v _ _; rfl
  | cons c cs ih =>
    intro v hcs hv
    have hc := hcs c (by simp)
    have hcs' : ∀ c ∈ cs, c ∈ g.ids := fun x hx => hcs x (List.mem_cons_of_mem _ hx)
    have hmem : φ c ∈ v.map φ ↔ c ∈ v := by
      rw [List.mem_map]
      constructor
      · rintro ⟨a, ha, he⟩; rw [← hinj a (hv a ha) c hc he]; exact ha
      · intro h; exact ⟨c, h, rfl⟩
    rw [List.map_cons]
    unfold discover
    by_cases h : c ∈ v
    · rw [if_pos h, if_pos (hmem.2 h), ih v hcs' hv]
    · rw [if_neg h, if_neg (fun h' => h (hmem.1 h')), List.map_cons]
      congr 1
      have := ih (v ++ [c]) hcs' (by
        intro x hx
        rcases List.mem_append.1 hx with hx | hx
        · exact hv x hx
        · rw [List.mem_singleton] at hx; exact hx ▸ hc)
      rw [List.map_append] at this
      exact this

theorem Renamed.flatMap_succ (h : Renamed g g' φ) : ∀ l : List Node, (∀ n ∈ l, n ∈ g.ids) →
    (l.map φ).flatMap g'.succ = (l.flatMap g.succ).map φ := by
  intro l hl
  induction l with
  | nil => rfl
  | cons a l ih =>
    rw [List.map_cons, List.flatMap_cons, List.flatMap_cons, List.map_append, Renamed.succ h (hl a (by simp)),
      ih fun n hn => hl n (List.mem_cons_of_mem _ hn)]

theorem succ_mem_ids (hw : g.WF) {n c : Node} (h : c ∈ g.succ n) : c ∈ g.ids := by
  obtain ⟨e, he, _, rfl⟩ := mem_succ.1 h
  exact hw.dstMem e he

theorem Renamed.bfsLoop (hw : g.WF) (h : Renamed g g' φ) : ∀ (fuel : Nat) (v l : List Node), (∀ n ∈ v, n ∈ g.ids) →
    (∀ n ∈ l, n ∈ g.ids) → g'.bfsLoop fuel (v.map φ) (l.map φ) = (g.bfsLoop fuel v l).map (List.map φ) := by
  intro fuel
  induction fuel with
  | zero => intro v l _ _; rfl
  | succ fuel ih =>
    intro v l hv hl
    cases l with
    | nil => rfl
    | cons a l =>
      have hs : ∀ c ∈ (a :: l).flatMap g.succ, c ∈ g.ids := by
        intro c hc
        obtain ⟨n, _, hn⟩ := List.mem_flatMap.1 hc
        exact succ_mem_ids hw hn
      have hd := discover_map h.inj ((a :: l).flatMap g.succ) v hs hv
      have hdm : ∀ c ∈ discover v ((a :: l).flatMap g.succ), c ∈ g.ids := fun c hc => hs c (mem_discover.1 hc).1
      show (_ :: Graph.bfsLoop g' fuel (g'.bfsNext _ ((a :: l).map φ)).2 (g'.bfsNext _ ((a :: l).map φ)).1) =
        List.map (List.map φ) (_ :: g.bfsLoop fuel (g.bfsNext v (a :: l)).2 (g.bfsNext v (a :: l)).1)
      rw [bfsNext_eq, bfsNext_eq, Renamed.flatMap_succ h _ hl, hd, ← List.map_append, List.map_cons, ih _ _ _ hdm]
      · rfl
      · intro n hn
        rcases List.mem_append.1 hn with hn | hn
        · exact hv n hn
        · exact hdm n hn

theorem Renamed.layersFrom (hw : g.WF) (h : Renamed g g' φ) {r : Node} (hr : r ∈ g.ids) :
    g'.layersFrom (φ r) = (g.layersFrom r).map (List.map φ) := by
  have hl : g'.nodes.length = g.nodes.length := by rw [h.nodes, List.length_map]
  unfold Graph.layersFrom
  rw [hl]
  exact Renamed.bfsLoop hw h _ [r] [r] (by simpa using hr) (by simpa using hr)

theorem Renamed.bottomUp (hw : g.WF) (h : Renamed g g' φ) {r : Node} (hr : r ∈ g.ids) :
    g'.bottomUp (φ r) = (g.bottomUp r).map φ := by
  unfold Graph.bottomUp
  rw [Renamed.layersFrom hw h hr, ← List.map_reverse, List.map_flatten]

/-- Every unit of the renamed circuit stores what the original one stores. -/
def SameResults (g : Graph D) (φ : Node → Node) (m m' : Mem V) : Prop := ∀ n ∈ g.ids, m' (φ n) = m n

theorem Renamed.evalUnit (hw : g.WF) (h : Renamed g g' φ) {A : Alg D V} {m m' : Mem V} (hm : SameResults g φ m m') {n : Node}
    (hn : n ∈ g.ids) : g'.evalUnit A m' (φ n) = g.evalUnit A m n := by
  have h1 : (g'.outEdges (φ n)).mapM readWeight = (g.outEdges n).mapM readWeight := by
    rw [h.out n hn, List.mapM_map]
    rfl
  have h2 : (g'.succ (φ n)).mapM (readResult m') = (g.succ n).mapM (readResult m) := by
    rw [Renamed.succ h hn, List.mapM_map]
    have : ∀ l : List Node, (∀ c ∈ l, c ∈ g.ids) → l.mapM (readResult m' ∘ φ) = l.mapM (readResult m) := by
      intro l hl
      induction l with
      | nil => rfl
      | cons a l ih =>
        rw [List.mapM_cons, List.mapM_cons, ih fun c hc => hl c (List.mem_cons_of_mem _ hc)]
        have : (readResult m' ∘ φ) a = readResult m a := by
          show readResult m' (φ a) = _
          unfold readResult
          rw [hm a (hl a (by simp))]
        rw [this]
    exact this _ fun c hc => succ_mem_ids hw hc
  unfold Graph.evalUnit
  rw [Renamed.kind? h hn]
  rcases g.kind? n with _ | ⟨d | _ | _⟩
  · rfl
  · rfl
  · simp only [h1, h2]
  · simp only [h2]

theorem Renamed.passLoop (hw : g.WF) (h : Renamed g g' φ) (A : Alg D V) : ∀ (l : List Node) (m m' : Mem V),
    (∀ n ∈ l, n ∈ g.ids) → SameResults g φ m m' →
    SameResults g φ (g.passLoop A l m).1 (g'.passLoop A (l.map φ) m').1 ∧
      (g'.passLoop A (l.map φ) m').2 = (g.passLoop A l m).2 := by
  intro l
  induction l with
  | nil => intro m m' _ hm; exact ⟨hm, rfl⟩
  | cons a l ih =>
    intro m m' hl hm
    have ha := hl a (by simp)
    have he := Renamed.evalUnit hw h (A := A) hm ha
    rw [List.map_cons]
    unfold Graph.passLoop
    rw [he]
    cases g.evalUnit A m a with
    | error e => exact ⟨hm, rfl⟩
    | ok v =>
      refine ih _ _ (fun n hn => hl n (List.mem_cons_of_mem _ hn)) ?_
      intro n hn
      unfold Mem.set
      by_cases hna : n = a
      · subst hna; simp
      · rw [if_neg hna, if_neg fun h' => hna (h.inj n hn a ha h')]
        exact hm n hn

theorem bottomUp_mem_ids (hw : g.WF) {r n : Node} (hr : r ∈ g.ids) (hn : n ∈ g.bottomUp r) : n ∈ g.ids := by
  unfold Graph.bottomUp at hn
  have : n ∈ (g.layersFrom r).flatten := by
    rw [List.mem_flatten] at hn ⊢
    obtain ⟨l, hl, h⟩ := hn
    exact ⟨l, List.mem_reverse.1 hl, h⟩
  exact reachable_mem_ids hw hr (mem_layersFrom_reachable g this)

theorem Renamed.query (hw : g.WF) (h : Renamed g g' φ) (A : Alg D V) {m m' : Mem V} (hm : SameResults g φ m m') :
    SameResults g φ (g.query A m).1 (g'.query A m').1 ∧ (g'.query A m').2 = (g.query A m).2 := by
  unfold Graph.query
  rw [Renamed.root hw h]
  cases hr : g.root with
  | error e => exact ⟨hm, rfl⟩
  | ok r =>
    have hrm := (root_mem hr).1
    simp only [Except.map]
    rw [Renamed.bottomUp hw h hrm]
    obtain ⟨h1, h2⟩ := Renamed.passLoop hw h A (g.bottomUp r) m m' (fun n hn => bottomUp_mem_ids hw hrm hn) hm
    revert h1 h2
    generalize g.passLoop A (g.bottomUp r) m = x
    generalize g'.passLoop A ((g.bottomUp r).map φ) m' = y
    obtain ⟨x1, x2⟩ := x
    obtain ⟨y1, y2⟩ := y
    intro h1 h2
    simp only at h1 h2
    subst h2
    cases y2 with
    | error e => exact ⟨h1, rfl⟩
    | ok u =>
      refine ⟨h1, ?_⟩
      show readResult y1 (φ r) = readResult x1 r
      unfold readResult
      rw [h1 r hrm]

theorem Renamed.session (hw : g.WF) (h : Renamed g g' φ) : ∀ (As : List (Alg D V)) {m m' : Mem V}, SameResults g φ m m' →
    (g'.session As m').2 = (g.session As m).2 := by
  intro As
  induction As with
  | nil => intro m m' _; rfl
  | cons A As ih =>
    intro m m' hm
    obtain ⟨h1, h2⟩ := Renamed.query hw h A hm
    show _ :: _ = _ :: _
    rw [h2, ih h1]

theorem mapM_congr_mem {α β : Type} {f f' : α → Except PyErr β} : ∀ l : List α, (∀ a ∈ l, f a = f' a) → l.mapM f = l.mapM f'
  | [], _ => rfl
  | a :: l, h => by
    rw [List.mapM_cons, List.mapM_cons, h a (by simp), mapM_congr_mem l fun b hb => h b (List.mem_cons_of_mem _ hb)]

theorem Renamed.varsOf {g g' : Circuit} (hw : g.WF) (h : Renamed g g' φ) : ∀ (fuel : Nat) (n : Node), n ∈ g.ids →
    g'.varsOf fuel (φ n) = g.varsOf fuel n := by
  intro fuel
  induction fuel with
  | zero => intro n _; rfl
  | succ fuel ih =>
    intro n hn
    unfold Graph.varsOf
    rw [Renamed.kind? h hn, Renamed.succ h hn]
    rcases g.kind? n with _ | ⟨d | _ | _⟩
    · rfl
    · rfl
    · cases hs : g.succ n with
      | nil => rfl
      | cons c cs => exact ih c (succ_mem_ids hw (n := n) (by rw [hs]; simp))
    · simp only [List.mapM_map]
      rw [mapM_congr_mem (f := g'.varsOf fuel ∘ φ) (f' := g.varsOf fuel) _ fun c hc => ih c (succ_mem_ids hw hc)]

theorem Renamed.circuitVars {g g' : Circuit} (hw : g.WF) (h : Renamed g g' φ) : g'.circuitVars = g.circuitVars := by
  have hl : g'.nodes.length = g.nodes.length := by rw [h.nodes, List.length_map]
  unfold Graph.circuitVars
  rw [Renamed.root hw h, hl]
  cases hr : g.root with
  | error e => rfl
  | ok r => exact Renamed.varsOf hw h _ r (root_mem hr).1

end Graph
end PM
