import Verif.Graph.Refine
import Verif.Spec.Eval

namespace PM.Graph

open Spec

variable {D V : Type}

theorem mapM_readWeight_ok {l : List Edge} (h : ∀ e ∈ l, e.weight.isSome) :
    l.mapM readWeight = .ok (l.map fun e => e.weight.getD 0) := by
  induction l with
  | nil => rfl
  | cons e l ih =>
    have h1 : readWeight e = .ok (e.weight.getD 0) := by
      have := h e (by simp)
      unfold readWeight
      cases hw : e.weight with
      | none => simp [hw] at this
      | some w => rfl
    rw [List.mapM_cons, h1, ih (fun e he => h e (by simp [he]))]
    rfl

theorem mapM_readWeight_inv {l : List Edge} {ws : List LogP} (h : l.mapM readWeight = .ok ws) :
    ∀ e ∈ l, e.weight.isSome := by
  induction l generalizing ws with
  | nil => simp
  | cons e l ih =>
    rw [List.mapM_cons] at h
    cases h1 : readWeight e with
    | error x => rw [h1] at h; cases h
    | ok w =>
      rw [h1] at h
      cases h2 : l.mapM readWeight with
      | error x => rw [h2] at h; cases h
      | ok ws' =>
        intro e' he'
        rcases List.mem_cons.1 he' with rfl | he'
        · unfold readWeight at h1
          cases hw : e'.weight with
          | none => rw [hw] at h1; cases h1
          | some w => rfl
        · exact ih h2 e' he'

theorem mapM_readResult_ok {m : Mem V} {l : List Node} {val : Node → V} (h : ∀ c ∈ l, m c = some (val c)) :
    l.mapM (readResult m) = .ok (l.map val) := by
  induction l with
  | nil => rfl
  | cons c l ih =>
    have h1 : readResult m c = .ok (val c) := by simp [readResult, h c (by simp)]
    rw [List.mapM_cons, h1, ih (fun e he => h e (by simp [he]))]
    rfl

theorem zip_map_out (g : Graph D) (n : Node) (child : Node → V) :
    ((g.outEdges n).map fun e => e.weight.getD 0).zip ((g.succ n).map child)
      = (g.outEdges n).map fun e => (e.weight.getD 0, child e.dst) := by
  simp only [succ]
  induction g.outEdges n with
  | nil => rfl
  | cons e l ih => simpa using ih

theorem Eval.det {g : Graph D} {A : Alg D V} {n : Node} {v : V} (h : Eval g A n v) :
    ∀ {v' : V}, Eval g A n v' → v = v' := by
  induction h with
  | leaf h1 h2 =>
    intro v' h'
    cases h' with
    | leaf h1' h2' => rw [h1] at h1'; cases h1'; rw [h2] at h2'; cases h2'; rfl
    | sum _ h1' => rw [h1] at h1'; cases h1'
    | prod _ h1' => rw [h1] at h1'; cases h1'
  | @sum n v child h1 h2 h3 h4 ih =>
    intro v' h'
    cases h' with
    | leaf h1' => rw [h1] at h1'; cases h1'
    | sum child' h1' h2' h3' h4' =>
      have : ((g.outEdges n).map fun e => (e.weight.getD 0, child e.dst))
          = ((g.outEdges n).map fun e => (e.weight.getD 0, child' e.dst)) := by
        apply List.map_congr_left
        intro e he
        have hc : e.dst ∈ g.succ n := List.mem_map.2 ⟨e, he, rfl⟩
        rw [ih _ hc (h2' _ hc)]
      rw [this, h4'] at h4; cases h4; rfl
    | prod _ h1' => rw [h1] at h1'; cases h1'
  | @prod n v child h1 h2 h3 ih =>
    intro v' h'
    cases h' with
    | leaf h1' => rw [h1] at h1'; cases h1'
    | sum _ h1' => rw [h1] at h1'; cases h1'
    | prod child' h1' h2' h3' =>
      have : (g.succ n).map child = (g.succ n).map child' :=
        List.map_congr_left (fun c hc => ih _ hc (h2' _ hc))
      rw [this, h3'] at h3; cases h3; rfl

theorem Eval.succ {g : Graph D} {A : Alg D V} {n : Node} {v : V} (hk : ∀ n d, g.kind? n = some (.leaf d) → g.succ n = [])
    (h : Eval g A n v) : ∀ c ∈ g.succ n, ∃ w, Eval g A c w := by
  cases h with
  | leaf h1 _ => intro c hc; rw [hk _ _ h1] at hc; simp at hc
  | sum child _ h2 => exact fun c hc => ⟨_, h2 c hc⟩
  | prod child _ h2 => exact fun c hc => ⟨_, h2 c hc⟩

/-- The local rule on the meanings of the children is the local rule of the relation. -/
theorem eval_of_evalUnit {g : Graph D} {A : Alg D V} {m : Mem V} {n : Node} {v : V}
    (hc : ∀ c ∈ g.succ n, ∃ w, m c = some w ∧ Eval g A c w) (h : g.evalUnit A m n = .ok v) : Eval g A n v := by
  classical
  by_cases hV : Nonempty V
  · have := Classical.inhabited_of_nonempty hV
    have hch : ∀ c ∈ g.succ n, m c = some ((m c).getD default) ∧ Eval g A c ((m c).getD default) := by
      intro c hcm
      obtain ⟨w, h1, h2⟩ := hc c hcm
      simp [h1, h2]
    unfold evalUnit at h
    split at h
    · cases h
    · exact .leaf (by assumption) h
    · rename_i hk
      cases hw : (g.outEdges n).mapM readWeight with
      | error e => rw [hw] at h; cases h
      | ok ws =>
        have hsome := mapM_readWeight_inv hw
        rw [mapM_readWeight_ok hsome, mapM_readResult_ok (fun c hcm => (hch c hcm).1)] at h
        refine .sum (fun c => (m c).getD default) hk (fun c hcm => (hch c hcm).2) hsome ?_
        have hz := zip_map_out g n (fun c => (m c).getD default)
        rw [← hz]
        exact h
    · rename_i hk
      rw [mapM_readResult_ok (fun c hcm => (hch c hcm).1)] at h
      exact .prod (fun c => (m c).getD default) hk (fun c hcm => (hch c hcm).2) h
  · exact absurd ⟨v⟩ hV

theorem evalUnit_of_eval {g : Graph D} {A : Alg D V} {n : Node} {v : V} {val : Node → V}
    (hval : ∀ c ∈ g.succ n, Eval g A c (val c)) (h : Eval g A n v) :
    g.evalUnit A (fun c => some (val c)) n = .ok v := by
  cases h with
  | leaf h1 h2 => simp [evalUnit, h1, h2]
  | sum child h1 h2 h3 h4 =>
    simp only [evalUnit, h1]
    rw [mapM_readWeight_ok h3, mapM_readResult_ok (val := val) (fun c _ => rfl)]
    have : ((g.outEdges n).map fun e => (e.weight.getD 0, child e.dst))
        = ((g.outEdges n).map fun e => (e.weight.getD 0, val e.dst)) := by
      apply List.map_congr_left
      intro e he
      have hc : e.dst ∈ g.succ n := List.mem_map.2 ⟨e, he, rfl⟩
      rw [Eval.det (h2 _ hc) (hval _ hc)]
    rw [this, ← zip_map_out] at h4
    exact h4
  | prod child h1 h2 h3 =>
    simp only [evalUnit, h1]
    rw [mapM_readResult_ok (val := val) (fun c _ => rfl)]
    have : (g.succ n).map child = (g.succ n).map val :=
      List.map_congr_left (fun c hc => Eval.det (h2 _ hc) (hval _ hc))
    rw [this] at h3
    exact h3

theorem passLoop_sound {g : Graph D} {A : Alg D V} :
    ∀ (ls : List (List Node)) (m m' : Mem V), Strat g ls → g.passLoop A ls.reverse.flatten m = (m', .ok ()) →
      ∀ n ∈ ls.flatten, ∃ v, m' n = some v ∧ Eval g A n v := by
  have layer : ∀ (l : List Node) (done : Node → Prop) (m m' : Mem V),
      (∀ c, done c → ∃ v, m c = some v ∧ Eval g A c v) → (∀ n ∈ l, ∀ c ∈ g.succ n, done c) →
      g.passLoop A l m = (m', .ok ()) → ∀ n, done n ∨ n ∈ l → ∃ v, m' n = some v ∧ Eval g A n v := by
    intro l
    induction l with
    | nil =>
      intro done m m' hd _ hp n hn
      simp only [passLoop, Prod.mk.injEq, and_true] at hp
      subst hp
      exact hd n (by simpa using hn)
    | cons x l ih =>
      intro done m m' hd hch hp
      simp only [passLoop] at hp
      split at hp
      · rename_i v hx
        have hEx : Eval g A x v := eval_of_evalUnit (fun c hc => hd c (hch x (by simp) c hc)) hx
        have := ih (fun c => done c ∨ c = x) (m.set x v) m'
          (by
            intro c hc
            by_cases h : c = x
            · subst h; exact ⟨v, Mem.set_same _ _ _, hEx⟩
            · rw [Mem.set_other _ _ h]
              exact hd c (hc.resolve_right h))
          (fun n hn c hc => .inl (hch n (by simp [hn]) c hc)) hp
        intro n hn
        refine this n ?_
        rcases hn with hn | hn
        · exact .inl (.inl hn)
        · rcases List.mem_cons.1 hn with rfl | hn
          · exact .inl (.inr rfl)
          · exact .inr hn
      · simp at hp
  intro ls
  induction ls with
  | nil => intro m m' _ _ n hn; simp at hn
  | cons l ls ih =>
    intro m m' hs hp n hn
    obtain ⟨hs1, hs2⟩ := hs
    rw [List.reverse_cons, List.flatten_append] at hp
    simp only [List.flatten_cons, List.flatten_nil, List.append_nil] at hp
    have hsplit : ∃ m1, g.passLoop A ls.reverse.flatten m = (m1, .ok ()) := by
      generalize ls.reverse.flatten = xs at hp
      clear ih hs1 hs2 hn
      induction xs generalizing m with
      | nil => exact ⟨m, rfl⟩
      | cons x xs ihx =>
        simp only [passLoop, List.cons_append] at hp ⊢
        cases hx : g.evalUnit A m x with
        | error e => simp [hx] at hp
        | ok v => simp only [hx] at hp ⊢; exact ihx _ hp
    obtain ⟨m1, hm1⟩ := hsplit
    rw [passLoop_append _ _ _ _ _ _ hm1] at hp
    refine layer l (fun c => c ∈ ls.flatten) m1 m' (ih m m1 hs2 hm1) ?_ hp n ?_
    · intro n hn c hc
      have := hs1 n hn c hc
      cases ls with
      | nil => simp at this
      | cons l' ls' => simp only [List.headD_cons] at this; simp [this]
    · rw [List.flatten_cons, List.mem_append] at hn
      exact hn.symm

/-- Leaves have no subcircuits (`LeafUnit.subcircuits` is `[]`, `nx/probabilistic_circuit.py:230-232`). -/
def LeafTerminal (g : Graph D) : Prop := ∀ n d, g.kind? n = some (.leaf d) → g.succ n = []

theorem query_iff_eval {g : Graph D} {A : Alg D V} {r : Node} (hw : g.WF) (hg : g.Graded) (hl : g.LeafTerminal)
    (hr : g.root = .ok r) (m : Mem V) (v : V) : (g.query A m).2 = .ok v ↔ Eval g A r v := by
  classical
  constructor
  · intro h
    obtain ⟨hri, _⟩ := root_mem hr
    obtain ⟨depth, hd⟩ := id hg
    obtain ⟨hs, -⟩ := layersFrom_strat hw hd hri
    simp only [query, hr, bottomUp] at h
    generalize hp : g.passLoop A (g.layersFrom r).reverse.flatten m = p at h
    obtain ⟨m', res⟩ := p
    cases res with
    | error e => simp at h
    | ok u =>
      obtain ⟨w, hw1, hw2⟩ := passLoop_sound _ _ _ hs hp r ((mem_layersFrom_iff hw hg hri).2 .refl)
      simp only [readResult, hw1] at h
      cases h
      exact hw2
  · intro h
    have hall : ∀ n, g.Reachable r n → ∃ w, Eval g A n w := by
      intro n hn
      induction hn with
      | refl => exact ⟨v, h⟩
      | tail _ hc ih =>
        obtain ⟨w, hw⟩ := ih
        exact Eval.succ hl hw _ hc
    have : Inhabited V := ⟨v⟩
    let val : Node → V := fun n => if hn : ∃ w, Eval g A n w then hn.choose else default
    have hval : ∀ n, g.Reachable r n → Eval g A n (val n) := by
      intro n hn
      have := hall n hn
      simp only [val, this, dite_true]
      exact this.choose_spec
    have hM : g.Meaning A r val := by
      intro n hn
      exact evalUnit_of_eval (fun c hc => hval c (hn.tail hc)) (hval n hn)
    rw [(query_eq_meaning hw hg hr hM m).1, Eval.det h (hval r .refl)]

end PM.Graph
