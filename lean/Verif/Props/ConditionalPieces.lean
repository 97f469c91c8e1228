import Verif.Props.ConditionalExamples

/-!
# Conditioning a continuous leaf on several intervals (C08)
-/

namespace PM.Props

open Graph Spec MeasureTheory PM.Bound

theorem inter_cc {a b c d : ℝ} : (cc a b).inter (cc c d) = cc (max a c) (min b d) := by
  simp only [cc, SimpleInterval.inter]
  congr 1
  · split_ifs <;> simp [SimpleInterval.meetBound]
  · split_ifs <;> simp [SimpleInterval.meetBound]

/-- `U[0,4]` as a circuit of one leaf. -/
noncomputable def unif4 : Circuit := ⟨[(0, .leaf (.uniform 0 0 4 .closed .closed))], []⟩

/-- `[0,1] ∪ [2,4]`. -/
noncomputable abbrev gap : VSet := .interval [cc 0 1, cc 2 4]

theorem cc_not_empty {a b : ℝ} (h : a ≤ b) : ¬ (cc a b).IsEmpty := by
  simp [cc, SimpleInterval.IsEmpty, h, not_lt]

theorem unif4_support_inter : (Leaf.uniform 0 0 4 .closed .closed).support.inter gap = gap := by
  have e : (Leaf.uniform 0 0 4 .closed .closed).support = .interval [cc 0 4] := rfl
  rw [e]
  simp only [VSet.inter, List.flatMap_cons, List.flatMap_nil, List.map_cons, List.map_nil, List.append_nil, inter_cc]
  norm_num
  exact ⟨cc_not_empty (by norm_num), cc_not_empty (by norm_num)⟩

theorem condSimple_unif4 {a b : ℝ} (h0 : 0 ≤ a) (hab : a < b) (h4 : b ≤ 4) :
    (Leaf.uniform 0 0 4 .closed .closed).condSimple (cc a b) =
      .ok (.uniform 0 a b .closed .closed, LogP.log ((b - a) / 4)) := by
  have hs : ¬ (cc a b).IsSingleton := by
    simp [cc, SimpleInterval.IsSingleton]; exact hab.ne
  unfold Leaf.condSimple
  rw [if_neg hs]
  simp only [cc, EReal.toReal_coe]
  congr 3
  have h1 : (a - 0) / (4 - 0) ≤ 1 := by rw [div_le_one] <;> linarith
  have h2 : (b - 0) / (4 - 0) ≤ 1 := by rw [div_le_one] <;> linarith
  have h3 : 0 ≤ (a - 0) / (4 - 0) := by apply div_nonneg <;> linarith
  have h5 : 0 ≤ (b - 0) / (4 - 0) := by apply div_nonneg <;> linarith
  simp only [Leaf.cdfSum, Leaf.uniformCdf, List.map_cons, List.map_nil, List.sum_cons, List.sum_nil, EReal.coe_ne_bot,
    EReal.coe_ne_top, if_false, EReal.toReal_coe, max_eq_right h3, max_eq_right h5, min_eq_right h1, min_eq_right h2]
  ring

theorem unif4_condInPlace : (Leaf.uniform 0 0 4 .closed .closed).condInPlace gap =
    .ok (.several [(.uniform 0 0 1 .closed .closed, LogP.log ((1 - 0) / 4)), (.uniform 0 2 4 .closed .closed, LogP.log ((4 - 2) / 4))]) := by
  unfold Leaf.condInPlace
  simp only
  rw [unif4_support_inter]
  simp only [List.mapM_cons, List.mapM_nil, bind, Except.bind, pure, Except.pure,
    condSimple_unif4 (a := 0) (b := 1) (by norm_num) (by norm_num) (by norm_num),
    condSimple_unif4 (a := 2) (b := 4) (by norm_num) (by norm_num) (by norm_num)]
  rw [List.filter_cons_of_pos, List.filter_cons_of_pos]
  · rfl
  · rw [LogP.exp_log (by norm_num)]; norm_num
  · rw [LogP.exp_log (by norm_num)]; norm_num

/-- The result for `U[0,4]` given `[0,1] ∪ [2,4]`. -/
noncomputable def pieces (w₁ w₂ : LogP) : Circuit where
  nodes := [(1, .sum), (2, .leaf (.uniform 0 0 1 .closed .closed)), (3, .leaf (.uniform 0 2 4 .closed .closed))]
  edges := [⟨1, 2, some w₁⟩, ⟨1, 3, some w₂⟩]

theorem unif4_conditional : ∃ w₁ w₂, unif4.conditional (fun _ => realLine) [[(0, gap)]] = .ok (some (pieces w₁ w₂), 3 / 4) ∧
    w₁.exp = Real.exp (1 / 4) / (Real.exp (1 / 4) + Real.exp (1 / 2)) ∧
    w₂.exp = Real.exp (1 / 2) / (Real.exp (1 / 4) + Real.exp (1 / 2)) := by
  have e1 : (LogP.log ((1 - 0) / 4)).exp = 1 / 4 := by rw [LogP.exp_log (by norm_num)]; norm_num
  have e2 : (LogP.log ((4 - 2) / 4)).exp = 1 / 2 := by rw [LogP.exp_log (by norm_num)]; norm_num
  set L := LogP.logsumexp [.fin (1 / 4), .fin (1 / 2)] with hLd
  have hL : L.exp = Real.exp (1 / 4) + Real.exp (1 / 2) := by
    rw [hLd, LogP.exp_logsumexp]; simp
  have hLn : L ≠ .negInf := by
    rw [← LogP.exp_pos, hL]; positivity
  have w1 : (LogP.fin (1 / 4) - L).exp = Real.exp (1 / 4) / (Real.exp (1 / 4) + Real.exp (1 / 2)) := by
    rw [LogP.exp_sub hLn, hL, LogP.exp_fin]
  have w2 : (LogP.fin (1 / 2) - L).exp = Real.exp (1 / 2) / (Real.exp (1 / 4) + Real.exp (1 / 2)) := by
    rw [LogP.exp_sub hLn, hL, LogP.exp_fin]
  refine ⟨.fin (1 / 4) - L, .fin (1 / 2) - L, ?_, w1, w2⟩
  have hv : unif4.circuitVars = .ok {0} := rfl
  have hexp : unif4.expandLeaf 0 [(.uniform 0 0 1 .closed .closed, LogP.log ((1 - 0) / 4)),
      (.uniform 0 2 4 .closed .closed, LogP.log ((4 - 2) / 4))] = .ok (pieces (.fin (1 / 4) - L) (.fin (1 / 2) - L)) := by
    have : unif4.rerouteLeaf 0 [(.uniform 0 0 1 .closed .closed, LogP.log ((1 - 0) / 4)),
      (.uniform 0 2 4 .closed .closed, LogP.log ((4 - 2) / 4))] = pieces (.fin (1 / 4)) (.fin (1 / 2)) := by
      rw [← e1, ← e2]; rfl
    unfold expandLeaf
    rw [this]
    rfl
  have hsum : (LogP.log ([((Leaf.uniform 0 0 1 .closed .closed), LogP.log ((1 - 0) / 4)),
      (.uniform 0 2 4 .closed .closed, LogP.log ((4 - 2) / 4))].map fun q => q.2.exp).sum) = LogP.log (3 / 4) := by
    simp only [List.map_cons, List.map_nil, e1, e2, List.sum_cons, List.sum_nil]
    norm_num
  have hfold : (unif4.bottomUp 0).foldlM (conditionUnit [(0, gap)]) (unif4, freshMem) =
      .ok (pieces (.fin (1 / 4) - L) (.fin (1 / 2) - L), fun k => if k = 1 then some (LogP.log (3 / 4)) else if 1 < k then none
        else freshMem k) := by
    have hb : unif4.bottomUp 0 = [0] := rfl
    have hk : unif4.kind? 0 = some (.leaf (.uniform 0 0 4 .closed .closed)) := rfl
    have hg : SimpleEvent.get [(0, gap)] (Leaf.uniform 0 0 4 .closed .closed).var = .ok gap := rfl
    have hf : unif4.fresh = 1 := rfl
    rw [hb]
    simp only [List.foldlM_cons, List.foldlM_nil, conditionUnit, hk, hg, bind, Except.bind, unif4_condInPlace, hexp, hsum, hf]
    rfl
  have hr : unif4.root = .ok 0 := rfl
  have hr1 : (pieces (.fin (1 / 4) - L) (.fin (1 / 2) - L)).root = .ok 1 := rfl
  have hlog : LogP.log (3 / 4) = .fin (Real.log (3 / 4)) := by unfold LogP.log; rw [if_neg (by norm_num)]
  have hw : WF (pieces (.fin (1 / 4) - L) (.fin (1 / 2) - L)) :=
    ⟨by simp [pieces, ids], by simp [pieces], by simp [pieces, ids], by simp [pieces, ids]⟩
  have hnorm : (pieces (.fin (1 / 4) - L) (.fin (1 / 2) - L)).normalize = .ok (pieces (.fin (1 / 4) - L) (.fin (1 / 2) - L)) := by
    refine normalize_id hw (Ex.weighted_of (by simp [pieces, outEdges])) (Ex.normalized_of ?_)
    have ho : (pieces (.fin (1 / 4) - L) (.fin (1 / 2) - L)).outEdges 1 =
      [⟨1, 2, some (.fin (1 / 4) - L)⟩, ⟨1, 3, some (.fin (1 / 2) - L)⟩] := rfl
    intro q hq hk
    have h1 : q.1 = 1 := by
      simp only [pieces, List.mem_cons, List.not_mem_nil, or_false] at hq
      rcases hq with rfl | rfl | rfl <;> simp_all
    rw [h1, ho]
    simp only [List.map_cons, List.map_nil, List.sum_cons, List.sum_nil, linWeight, w1, w2]
    rw [add_zero, ← add_div, div_self (by positivity)]
  have hsimp : (pieces (.fin (1 / 4) - L) (.fin (1 / 2) - L)).simplify = .ok (pieces (.fin (1 / 4) - L) (.fin (1 / 2) - L)) := by
    generalize hl1 : LogP.fin (1 / 4) - L = l1
    generalize hl2 : LogP.fin (1 / 2) - L = l2
    have n1 : l1.isNegInf = false := by
      rw [← Bool.not_eq_true, LogP.isNegInf_iff, ← ne_eq, ← LogP.exp_pos, ← hl1, w1]; positivity
    have n2 : l2.isNegInf = false := by
      rw [← Bool.not_eq_true, LogP.isNegInf_iff, ← ne_eq, ← LogP.exp_pos, ← hl2, w2]; positivity
    cases l1 with
    | negInf => cases n1
    | fin x =>
      cases l2 with
      | negInf => cases n2
      | fin y =>
        have h0 : (pieces (.fin x) (.fin y)).root = .ok 1 := rfl
        have h1 : (pieces (.fin x) (.fin y)).bottomUp 1 = [2, 3, 1] := rfl
        simp only [simplify, h0, h1]
        rfl
  have hrest : ((pieces (.fin (1 / 4) - L) (.fin (1 / 2) - L)).induced fun n => decide (n ∉ ([] : List Node))).removeUnreachable 1
      = pieces (.fin (1 / 4) - L) (.fin (1 / 2) - L) := rfl
  have hdead : ((pieces (.fin (1 / 4) - L) (.fin (1 / 2) - L)).bottomUp 1).filter (impossibleIn fun k => if k = 1 then
      some (LogP.log (3 / 4)) else if 1 < k then none else freshMem k) = [] := by
    have hb : (pieces (.fin (1 / 4) - L) (.fin (1 / 2) - L)).bottomUp 1 = [2, 3, 1] := rfl
    rw [hb, hlog]
    rfl
  have hfill : SimpleEvent.fillMissing (fun _ => realLine) (({0} : Finset Var).sort (· ≤ ·)) [(0, gap)] = [(0, gap)] := by
    simp [SimpleEvent.fillMissing, SimpleEvent.keys]
  have hcopy : unif4.copy = unif4 := rfl
  have hcond : unif4.conditionSimple freshMem [(0, gap)] = .ok (some (pieces (.fin (1 / 4) - L) (.fin (1 / 2) - L), fun k => if k = 1 then
      some (LogP.log (3 / 4)) else if 1 < k then none else freshMem k), LogP.log (3 / 4)) := by
    unfold conditionSimple
    simp only [hr, bind, Except.bind, hfold, hr1, hdead, List.not_mem_nil, if_false]
    rw [show (fun n : Node => decide (¬ False)) = fun n => decide (n ∉ ([] : List Node)) from by simp, hrest]
    simp only [hsimp, hnorm]
    rfl
  unfold conditional
  rw [hv]
  simp only [List.map_cons, List.map_nil, hfill, logConditional, hcopy, logConditionalInPlace, hcond, bind, Except.bind]
  rw [LogP.exp_log (by norm_num)]
  rfl

/-- **C08 is false for a leaf and several intervals**: `U[0,4]` given `[0,1] ∪ [2,4]` (of probability ¾) gives `[0,1]` more
than the third it should get, because the probabilities of the pieces are used as logarithms of weights. -/
theorem C08_pieces_false : ∃ g' q, unif4.conditional (fun _ => realLine) [[(0, gap)]] = .ok (some g', 3 / 4) ∧
    (unif4.probability freshMem (fun _ => realLine) [[(0, .interval [cc 0 1])]]).2 = .ok (1 / 4) ∧
    (g'.probability freshMem (fun _ => realLine) [[(0, .interval [cc 0 1])]]).2 = .ok q ∧ 1 / 3 < q := by
  obtain ⟨w₁, w₂, h, e1, e2⟩ := unif4_conditional
  refine ⟨_, Real.exp (1 / 4) / (Real.exp (1 / 4) + Real.exp (1 / 2)), h, ?_, ?_, ?_⟩
  · have hL : Layered unif4 0 :=
      { wf := ⟨by simp [unif4, ids], by simp [unif4], by simp [unif4], by simp [unif4]⟩
        graded := ⟨fun _ => 0, by simp [unif4]⟩
        leaves := Ex.leafTerminal_of (by simp [unif4, succ, outEdges])
        weighted := Ex.weighted_of (by simp [unif4, outEdges])
        root := rfl }
    have hlf : ∀ {Q : Leaf → Prop}, Q (.uniform 0 0 4 .closed .closed) → ∀ n d, unif4.kind? n = some (.leaf d) → Q d :=
      fun {Q} h1 n d h => Ex.forall_kind (P := fun _ k => ∀ d, k = .leaf d → Q d) (by simpa [unif4] using h1) n _ h d rfl
    have hs : Scoped unif4 (fun _ => {0}) :=
      Ex.scoped_of (by simp [unif4, Leaf.var]) (by simp [unif4]) (by simp [unif4])
    have hd : DomainFor unif4 (fun _ => realLine) :=
      ⟨fun _ => realLine_disjoint, hlf (by simp [Fits, realLine]), fun _ _ _ => by simp [realLine_toSet]⟩
    rw [probability_eq hL hs (hlf (Q := Leaf.Valid) (by simp [Leaf.Valid])) hd (by
      intro E hE
      simp only [List.mem_singleton] at hE
      subst hE
      exact ⟨by simp [SimpleEvent.keys], by simp [SimpleEvent.keys], by simpa using cc_disjoint (by norm_num), by
        intro p hp n d hk _
        simp only [List.mem_singleton] at hp
        subst hp
        exact hlf (Q := fun d => Fits d _) (by simp [Fits]) n d hk⟩) (p := fun _ _ => 1 / 4) (by
      intro E hE
      simp only [List.mem_singleton] at hE
      subst hE
      refine Ex.value_of ?_ (by simp [unif4]) (by simp [unif4])
      have := uniform_real 0 (show (0 : ℝ) < 4 by norm_num) 0 1
      norm_num at this
      simp [unif4, Leaf.var, allowed_single, this])]
    simp
  · have hL : Layered (pieces w₁ w₂) 1 :=
      { wf := ⟨by simp [pieces, ids], by simp [pieces], by simp [pieces, ids], by simp [pieces, ids]⟩
        graded := ⟨fun n => if n = 1 then 0 else 1, by simp [pieces]⟩
        leaves := Ex.leafTerminal_of (by simp [pieces, succ, outEdges])
        weighted := Ex.weighted_of (by simp [pieces, outEdges])
        root := rfl }
    have hlf : ∀ {Q : Leaf → Prop}, Q (.uniform 0 0 1 .closed .closed) → Q (.uniform 0 2 4 .closed .closed) →
        ∀ n d, (pieces w₁ w₂).kind? n = some (.leaf d) → Q d :=
      fun {Q} h1 h2 n d h => Ex.forall_kind (P := fun _ k => ∀ d, k = .leaf d → Q d)
        (by simp [pieces]; exact ⟨h1, h2⟩) n _ h d rfl
    have hs : Scoped (pieces w₁ w₂) (fun _ => {0}) :=
      Ex.scoped_of (by simp [pieces, Leaf.var]) (by simp [pieces, succ, outEdges]) (by simp [pieces])
    have hd : DomainFor (pieces w₁ w₂) (fun _ => realLine) :=
      ⟨fun _ => realLine_disjoint, hlf (by simp [Fits, realLine]) (by simp [Fits, realLine]),
        fun _ _ _ => by simp [realLine_toSet]⟩
    rw [probability_eq hL hs (hlf (Q := Leaf.Valid) (by simp [Leaf.Valid]) (by simp [Leaf.Valid]; norm_num)) hd (by
      intro E hE
      simp only [List.mem_singleton] at hE
      subst hE
      exact ⟨by simp [SimpleEvent.keys], by simp [SimpleEvent.keys], by simpa using cc_disjoint (by norm_num), by
        intro p hp n d hk _
        simp only [List.mem_singleton] at hp
        subst hp
        exact hlf (Q := fun d => Fits d _) (by simp [Fits]) (by simp [Fits]) n d hk⟩)
      (p := fun _ n => if n = 1 then Real.exp (1 / 4) / (Real.exp (1 / 4) + Real.exp (1 / 2)) else if n = 2 then 1 else 0) (by
      intro E hE
      simp only [List.mem_singleton] at hE
      subst hE
      refine Ex.value_of ?_ ?_ (by simp [pieces])
      · have a1 := uniform_real 0 (show (0 : ℝ) < 1 by norm_num) 0 1
        have a2 := uniform_real 0 (show (2 : ℝ) < 4 by norm_num) 0 1
        norm_num at a1 a2
        simp [pieces, Leaf.var, allowed_single, a1, a2]
      · have ho : (pieces w₁ w₂).outEdges 1 = [⟨1, 2, some w₁⟩, ⟨1, 3, some w₂⟩] := rfl
        intro q hq hk
        have h1 : q.1 = 1 := by
          simp only [pieces, List.mem_cons, List.not_mem_nil, or_false] at hq
          rcases hq with rfl | rfl | rfl <;> simp_all
        rw [h1, ho]
        simp [linWeight, e1])]
    simp
  · have h1 : Real.exp (1 / 2) = Real.exp (1 / 4) * Real.exp (1 / 4) := by rw [← Real.exp_add]; norm_num
    have h2 := Real.add_one_le_exp (-(1 / 4))
    have h3 : Real.exp (-(1 / 4)) * Real.exp (1 / 4) = 1 := by rw [← Real.exp_add]; norm_num
    have h4 := Real.exp_pos (1 / 4)
    rw [h1, lt_div_iff₀ (by positivity)]
    nlinarith

end PM.Props
