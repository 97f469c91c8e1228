import Verif.Heap.Frame

/-! Helper lemmas: `copy`, `conditional` and `marginal` on a heap compute what the functions on values compute, and change no old object. -/

namespace PM

open Spec Heap

namespace Heap

variable {h : Heap}

theorem read_newObj (o : Obj) (r : ℕ) (hr : r = h.nextObj) : (newObj o h).1.read r = match o with
    | .value d => d
    | .discrete true v k => .symbolic v (h.dict k)
    | .discrete false v k => .integer v (h.dict k) := by
  subst hr
  simp only [newObj, read, if_true]
  rcases o with d | ⟨_ | _, v, k⟩ <;> rfl

/-- The object exists since `n`. -/
def Since (n : ℕ) (h : Heap) (r : ℕ) : Prop := n ≤ r ∧ r < h.nextObj

theorem runs_newObj {S : ℕ → Prop} (o : Obj) (ho : ∀ s v k, o = .discrete s v k → k < h.nextDict) {n : ℕ} (hn : n ≤ h.nextObj)
    {d : Leaf} (hd : (newObj o h).1.read h.nextObj = d) : Runs S h (newObj o) (Sim (Since n) Heap.read (.ok d)) :=
  ⟨ext_newObj S h o ho, ⟨hn, Nat.lt_succ_self _⟩, congrArg Except.ok hd.symm⟩

theorem runs_newLeaf {S : ℕ → Prop} (d : Leaf) {n : ℕ} (hn : n ≤ h.nextObj) :
    Runs S h (newLeaf d) (Sim (Since n) Heap.read (.ok d)) := by
  have key : ∀ (sym : Bool) v probs, d = (if sym then .symbolic v probs else .integer v probs) →
      Runs S h (HM.bind (newDict probs) fun k => newObj (.discrete sym v k)) (Sim (Since n) Heap.read (.ok d)) := by
    intro sym v probs hd
    refine (Runs.mk (P := fun h' res => res = .ok h.nextDict ∧ h' = (newDict probs h).1) (ext_newDict S h probs) ⟨rfl, rfl⟩).bind ?_ ?_
    · rintro h' k he ⟨hk, rfl⟩
      injection hk with hk
      subst hk
      refine runs_newObj (h := (newDict probs h).1) _ ?_ hn ?_
      · intro s v' k' e
        injection e with _ _ e
        rw [← e]
        exact Nat.lt_succ_self _
      · rw [read_newObj _ _ rfl, hd]
        cases sym <;> simp [newDict]
    · rintro h' e ⟨hk, -⟩
      exact absurd hk (by simp)
  cases d with
  | symbolic v probs => exact key true v probs rfl
  | integer v probs => exact key false v probs rfl
  | uniform v a b l r => exact runs_newObj _ (by simp) hn (read_newObj _ _ rfl)
  | dirac v a b => exact runs_newObj _ (by simp) hn (read_newObj _ _ rfl)
  | gaussian v a b => exact runs_newObj _ (by simp) hn (read_newObj _ _ rfl)
  | truncGaussian v I a b => exact runs_newObj _ (by simp) hn (read_newObj _ _ rfl)

theorem runs_copyDist {S : ℕ → Prop} (hw : h.WF) {r : ℕ} (hr : r < h.nextObj) {n : ℕ} (hn : n ≤ h.nextObj) :
    Runs S h (copyDist r) (Sim (Since n) Heap.read (.ok (h.read r))) := by
  have := runs_newObj (S := S) (h.obj r) (fun s v k hk => hw r hr s v k hk) hn (d := h.read r) ?_
  · exact ⟨this.ext, this.post⟩
  · rw [read_newObj _ _ rfl]
    unfold read
    rcases h.obj r with d | ⟨_ | _, v, k⟩ <;> rfl

/-- What `conditionDiscrete` returns, on values. -/
noncomputable def discreteResult (d : Leaf) (A : VSet) : Except PyErr (Option Leaf × LogP) := d.logConditional A

theorem logConditional_symbolic (v : Var) (probs : List (ℤ × ℝ)) (A : VSet) :
    (Leaf.symbolic v probs).logConditional A = (keptProbs (.symbolic v probs) A).map (Leaf.discreteCond (.symbolic v)) := by
  cases A <;> rfl

theorem logConditional_integer (v : Var) (probs : List (ℤ × ℝ)) (A : VSet) :
    (Leaf.integer v probs).logConditional A = (keptProbs (.integer v probs) A).map (Leaf.discreteCond (.integer v)) := by
  cases A <;> rfl

/-- The optional object and the probability. -/
def SinceOpt (n : ℕ) (h : Heap) (q : Option ℕ × LogP) : Prop := ∀ r, q.1 = some r → Since n h r

theorem runs_conditionDiscrete {S : ℕ → Prop} {r : ℕ} {sym : Bool} {v : Var} {k0 : ℕ} (ho : h.obj r = .discrete sym v k0) (A : VSet)
    {n : ℕ} (hn : n ≤ h.nextObj) :
    Runs S h (conditionDiscrete r A)
      (Sim (SinceOpt n) (fun h q => (q.1.map h.read, q.2)) ((h.read r).logConditional A)) := by
  classical
  have hread : h.read r = if sym then .symbolic v (h.dict k0) else .integer v (h.dict k0) := by
    unfold read; rw [ho]; cases sym <;> rfl
  have hlog : (h.read r).logConditional A = (keptProbs (h.read r) A).map
      (Leaf.discreteCond fun p => if sym then .symbolic v p else .integer v p) := by
    rw [hread]
    cases sym
    · exact logConditional_integer _ _ _
    · exact logConditional_symbolic _ _ _
  have hdef : conditionDiscrete r A h = HM.bind (HM.lift (keptProbs (h.read r) A)) (fun kept =>
      if (kept.map Prod.snd).sum = 0 then HM.ret (none, .negInf)
      else
        HM.bind (newDict kept) fun k =>
          HM.bind (newObj (.discrete sym v k)) fun r' =>
            HM.bind (normalizeDist r') fun _ => HM.ret (some r', LogP.log (kept.map Prod.snd).sum)) h := by
    unfold conditionDiscrete; rw [ho]
  have := Runs.bindSim (S := S) (h := h) (x := HM.lift (keptProbs (h.read r) A)) (V := fun _ _ => True) (den := fun _ a => a)
    (y := keptProbs (h.read r) A) (V' := SinceOpt n) (den' := fun h q => (q.1.map h.read, q.2))
    (f := fun kept =>
      if (kept.map Prod.snd).sum = 0 then HM.ret (none, .negInf)
      else
        HM.bind (newDict kept) fun k =>
          HM.bind (newObj (.discrete sym v k)) fun r' =>
            HM.bind (normalizeDist r') fun _ => HM.ret (some r', LogP.log (kept.map Prod.snd).sum))
    (k := fun kept => .ok (Leaf.discreteCond (fun p => if sym then .symbolic v p else .integer v p) kept))
    (Runs.liftSim (by cases keptProbs (h.read r) A <;> rfl) (fun _ _ => trivial)) ?_
  · rw [hlog]
    refine ⟨?_, ?_⟩
    · rw [hdef]; exact this.ext
    · rw [hdef]
      have h2 : (keptProbs (h.read r) A >>= fun kept =>
          Except.ok (Leaf.discreteCond (fun p => if sym then Leaf.symbolic v p else Leaf.integer v p) kept)) =
          (keptProbs (h.read r) A).map (Leaf.discreteCond fun p => if sym then .symbolic v p else .integer v p) := by
        cases keptProbs (h.read r) A <;> rfl
      rw [← h2]
      exact this.post
  · intro h' kept he _
    unfold Leaf.discreteCond
    by_cases h0 : (kept.map Prod.snd).sum = 0
    · rw [if_pos h0, if_pos h0]
      exact Runs.ret ⟨by simp [SinceOpt], rfl⟩
    · rw [if_neg h0, if_neg h0]
      -- the three steps on new objects, in one go
      refine ⟨?_, ?_⟩
      · simp only [HM.bind, newDict, newObj, normalizeDist, if_true, HM.ret]
        refine ⟨Nat.le_succ _, Nat.le_succ _, fun i hi _ => if_neg (Nat.ne_of_lt hi), fun i hi => ?_, fun hw i hi s v' k hk => ?_⟩
        · simp only [if_neg (Nat.ne_of_lt hi)]
        · simp only at hi hk ⊢
          by_cases h1 : i = h'.nextObj
          · rw [if_pos h1] at hk
            injection hk with _ _ hk
            omega
          · rw [if_neg h1] at hk
            have := hw i (by omega) s v' k hk
            omega
      · simp only [HM.bind, newDict, newObj, normalizeDist, if_true, HM.ret]
        refine ⟨?_, ?_⟩
        · intro r' hr'
          simp only [Option.some.injEq] at hr'
          subst hr'
          exact ⟨hn.trans he.objs, Nat.lt_succ_self _⟩
        · simp only [Option.map_some, read, if_true]
          cases sym <;> simp

/-- The value of the result of conditioning a leaf. -/
def CondRef.den (h : Heap) : CondRef → LeafCond
  | .impossible => .impossible
  | .one r p => .one (h.read r) p
  | .several ps => .several (ps.map fun q => (h.read q.1, q.2))

/-- All objects in the result exist since `n`. -/
def CondRef.Since (n : ℕ) (h : Heap) : CondRef → Prop
  | .impossible => True
  | .one r _ => Heap.Since n h r
  | .several ps => ∀ q ∈ ps, Heap.Since n h q.1

/-- `CondRef.ofPair` on values. -/
def condOfPair : Option Leaf × LogP → LeafCond
  | (none, _) => .impossible
  | (some d, p) => .one d p

theorem Since.ext {S : ℕ → Prop} {n r : ℕ} {h h' : Heap} (hs : Since n h r) (he : Ext S h h') : Since n h' r :=
  ⟨hs.1, hs.2.trans_le he.objs⟩

theorem runs_condInPlace (hw : h.WF) (r : ℕ) (A : VSet) {n : ℕ} (hn : n ≤ h.nextObj) :
    Runs Graph.noOld h (condInPlace r A) (Sim (CondRef.Since n) CondRef.den ((h.read r).condInPlace A)) := by
  cases ho : h.obj r with
  | discrete sym v k0 =>
    have hdef : condInPlace r A h = HM.bind (conditionDiscrete r A) (fun res => HM.ret (CondRef.ofPair res)) h := by
      unfold condInPlace; simp only [ho]
    have hy : (h.read r).condInPlace A = ((h.read r).logConditional A >>= fun q => .ok (condOfPair q)) := by
      have : h.read r = if sym then .symbolic v (h.dict k0) else .integer v (h.dict k0) := by
        unfold read; rw [ho]; cases sym <;> rfl
      rw [this]
      cases sym
      · rw [if_neg (by simp)]
        simp only [Leaf.condInPlace]
        rcases (Leaf.integer v (h.dict k0)).logConditional A with e | ⟨_ | d, p⟩ <;> rfl
      · rw [if_pos rfl]
        simp only [Leaf.condInPlace]
        rcases (Leaf.symbolic v (h.dict k0)).logConditional A with e | ⟨_ | d, p⟩ <;> rfl
    have := (runs_conditionDiscrete (S := Graph.noOld) ho A hn).bindSim (V' := CondRef.Since n) (den' := CondRef.den)
      (f := fun res => HM.ret (CondRef.ofPair res)) (k := fun q => .ok (condOfPair q)) ?_
    · rw [hy]
      exact ⟨by rw [hdef]; exact this.ext, by rw [hdef]; exact this.post⟩
    · rintro h' ⟨_ | r', p⟩ he hv
      · exact Runs.ret ⟨trivial, rfl⟩
      · exact Runs.ret ⟨hv r' rfl, rfl⟩
  | value d =>
    have hread : h.read r = d := by unfold read; rw [ho]
    rw [hread]
    have hst : ∀ {x : HM CondRef}, Runs Graph.noOld h x (Sim (CondRef.Since n) CondRef.den (d.condInPlace A)) →
        condInPlace r A h = x h →
        Runs Graph.noOld h (condInPlace r A) (Sim (CondRef.Since n) CondRef.den (d.condInPlace A)) := by
      intro x hx he
      exact ⟨by rw [he]; exact hx.ext, by rw [he]; exact hx.post⟩
    cases hc : d.condInPlace A with
    | error e =>
      rw [hc] at hst
      refine hst (x := HM.raise e) ⟨Ext.refl _ _, rfl⟩ ?_
      simp only [condInPlace, ho, hc, HM.raise]
    | ok c =>
      rw [hc] at hst
      cases c with
      | impossible =>
        refine hst (x := HM.ret .impossible) ⟨Ext.refl _ _, trivial, rfl⟩ ?_
        simp only [condInPlace, ho, hc, HM.ret]
      | one d' p =>
        refine hst (x := HM.bind (newLeaf d') (fun r' => HM.ret (.one r' p))) ?_ (by simp only [condInPlace, ho, hc])
        exact (runs_newLeaf (S := Graph.noOld) d' hn).bindSim (V' := CondRef.Since n) (den' := CondRef.den)
          (f := fun r' => HM.ret (CondRef.one r' p)) (k := fun d => .ok (.one d p)) fun h' r' he hv => Runs.ret ⟨hv, rfl⟩
      | several ps =>
        refine hst (x := HM.bind (HM.map (fun q : Leaf × LogP => HM.bind (newLeaf q.1) fun r' => HM.ret (r', q.2)) ps)
          (fun rs => HM.ret (.several rs))) ?_ (by simp only [condInPlace, ho, hc])
        have h1 := Runs.mapSim (S := Graph.noOld) (f := fun q : Leaf × LogP => HM.bind (newLeaf q.1) fun r' => HM.ret (r', q.2))
          (k := fun q => .ok q) (V := fun h q => Heap.Since n h q.1) (den := fun h (q : ℕ × LogP) => (h.read q.1, q.2)) (h0 := h)
          (fun h1 h2 q he1 he2 hv => ⟨hv.ext he2, by rw [he2.read (he1.wf hw) hv.2 id]⟩) ps h (Ext.refl _ _)
          (fun q _ h' he => (runs_newLeaf (S := Graph.noOld) q.1 (hn.trans he.objs)).bindSim
            (k := fun d => .ok (d, q.2)) fun h'' r' he' hv => Runs.ret ⟨hv, rfl⟩)
        have h2 : ps.mapM (fun q : Leaf × LogP => (Except.ok q : Except PyErr (Leaf × LogP))) = .ok ps := by
          clear hc hst h1
          induction ps with
          | nil => rfl
          | cons a l ih => rw [List.mapM_cons, ih]; rfl
        rw [h2] at h1
        exact h1.bindSim (V' := CondRef.Since n) (den' := CondRef.den) (f := fun rs => HM.ret (CondRef.several rs))
          (k := fun rs => .ok (.several rs)) fun h' rs he hv => Runs.ret ⟨hv, rfl⟩

end Heap
end PM
