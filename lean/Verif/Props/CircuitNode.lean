import Verif.BN.CircuitNodeLemmas
import Verif.Props.ConditionalExamples

/-!
# C66: Bayesian network nodes with circuits as conditional distributions
-/

namespace PM.Props
open PM PM.Spec PM.BN PM.BN.Spec PM.Graph MeasureTheory
open PM.Leaf (lookup)

variable {v : Var} {own : Finset Var} {n : Node} {entries : List Entry} {message root : List (ℤ × ℝ)} {E : SimpleEvent} {S : List ℤ}

theorem stateLaw (v : Var) (s : ℤ) (S : List ℤ) : (leafLaw (.symbolic v [(s, 1)])).real (VSet.symbols S).toSet = if s ∈ S then 1 else 0 := by
  have hm : MeasurableSet (VSet.symbols S).toSet := VSet.measurableSet_toSet _
  have h := discrete_real [(s, (1 : ℝ))] (by simp) hm
  have he : leafLaw (.symbolic v [(s, 1)]) = (([(s, (1 : ℝ))]).map fun kp => ENNReal.ofReal kp.2 • Measure.dirac (kp.1 : ℝ)).sum := rfl
  rw [he, h]
  simp only [List.map_cons, List.map_nil, List.sum_cons, List.sum_nil, add_zero]
  by_cases hs : s ∈ S
  · rw [Set.indicator_of_mem, if_pos hs]
    exact ⟨s, hs, rfl⟩
  · rw [Set.indicator_of_notMem, if_neg hs]
    rintro ⟨k, hk, hks⟩
    have : k = s := by exact_mod_cast hks
    exact hs (this ▸ hk)

theorem conditionOn_mass (hm : IsMass root) (hS : S.Nodup) {c : List (ℤ × ℝ)} {p : ℝ} (h : conditionOn root S = (some c, p)) :
    IsMass c ∧ p = (S.map (lookup root)).sum ∧ p ≠ 0 ∧ ∀ t, lookup c t = if t ∈ S then lookup root t / p else 0 := by
  obtain ⟨h0, h1⟩ := conditionOn_spec hm hS
  have hne : (S.map (lookup root)).sum ≠ 0 := fun h2 => by rw [h0 h2] at h; cases h
  obtain ⟨d, hd, hk, hl⟩ := h1 hne
  rw [hd] at h
  simp only [Prod.mk.injEq, Option.some.injEq] at h
  obtain ⟨rfl, rfl⟩ := h
  refine ⟨⟨hk.1, fun kp hkp => ?_⟩, rfl, hne, hl⟩
  rw [← lookup_of_mem hk.1 hkp, hl]
  have hnn : ∀ x ∈ S.map (lookup root), (0 : ℝ) ≤ x := fun x hx => by
    obtain ⟨k, _, rfl⟩ := List.mem_map.1 hx
    exact lookup_nonneg hm.2 k
  split_ifs
  · exact div_nonneg (lookup_nonneg hm.2 _) (List.sum_nonneg hnn)
  · exact le_rfl

theorem stateDensity (v : Var) (s : ℤ) (t : ℝ) : leafDensity (.symbolic v [(s, 1)]) t = if t = s then 1 else 0 := by
  simp only [leafDensity]
  by_cases h : t = s
  · simp [h]
  · rw [if_neg h]
    have : ¬ (s : ℝ) = t := fun h' => h h'.symm
    simp [this]

theorem sum_unique {α : Type} [DecidableEq ℤ] {key : α → ℤ} {F : α → ℝ} : ∀ {l : List α} {a : α}, (l.map key).Nodup → a ∈ l →
    (∀ b ∈ l, key b ≠ key a → F b = 0) → (l.map F).sum = F a
  | [], _, _, h, _ => by simp at h
  | b :: l, a, hn, h, h0 => by
    rw [List.map_cons, List.nodup_cons] at hn
    rw [List.map_cons, List.sum_cons]
    rcases List.mem_cons.1 h with rfl | h
    · have : (l.map F).sum = 0 := List.sum_eq_zero fun x hx => by
        obtain ⟨c, hc, rfl⟩ := List.mem_map.1 hx
        exact h0 c (by simp [hc]) fun hk => hn.1 (hk ▸ List.mem_map_of_mem hc)
      rw [this, add_zero]
    · have : F b = 0 := h0 b (by simp) fun hk => hn.1 (hk ▸ List.mem_map_of_mem h)
      rw [this, zero_add, sum_unique hn.2 h fun c hc => h0 c (by simp [hc])]

theorem denotes_likelihood {g : Circuit} {r : Node} {V : Finset Var} {F : (Leaf → ℝ) → ℝ} (hD : Denotes g r V F) (x : Var → ℝ)
    (m : Mem LogP) : g.likelihood m x = .ok (F fun d => leafDensity d (x d.var)) := by
  obtain ⟨sc, hs, _, _⟩ := hD.scope
  obtain ⟨f, hf⟩ := exists_circuitValue hD.layered.graded.acyclic fun d => leafDensity d (x d.var)
  obtain ⟨_, _, _, _, hl⟩ := C01_loglikelihood hD.layered hs hD.valid x hf m
  rw [hl, hD.value _ _ hf]

/-- **C66 (the joint distribution with the parent).**  `joint_distribution_with_parent` builds a circuit over the variables of the parent
and the node.  Its likelihood at a state with a conditional distribution is the probability of the state in the parent's message times
the likelihood under that distribution, and it is zero at other states. -/
theorem C66_joint (hm : IsMass message) (h : GoodEntries v own n entries) (hpos : ∃ e ∈ entries, lookup message e.state ≠ 0) :
    ∃ g, jointWithParent v entries message n = .ok g ∧ IsCircuit g n (insert v own) ∧ ∀ (x : Var → ℝ) (m : Mem LogP),
      (∀ e ∈ entries, x v = e.state → ∀ (m' : Mem LogP) (p : ℝ), (distribution e).likelihood m' x = .ok p →
        g.likelihood m x = .ok (lookup message e.state * p)) ∧
      ((∀ e ∈ entries, x v ≠ e.state) → g.likelihood m x = .ok 0) := by
  have hF : ∀ e : Entry, ∃ F, e ∈ entries → Denotes (distribution e) e.root own F := fun e => by
    by_cases he : e ∈ entries
    · obtain ⟨F, hF⟩ := denotes_distribution (h.circuit e he)
      exact ⟨F, fun _ => hF⟩
    · exact ⟨fun _ => 0, fun h => absurd h he⟩
  choose F hF using hF
  obtain ⟨g, hg, hD, _⟩ := denotes_joint hm h hF hpos
  refine ⟨g, hg, ⟨hD.layered, hD.scope, hD.valid⟩, fun x m => ⟨fun e he hx m' p hp => ?_, fun hx => ?_⟩⟩
  · rw [denotes_likelihood (hF e he)] at hp
    injection hp with hp
    rw [denotes_likelihood hD, ← hp]
    congr 1
    simp only [Leaf.var, stateDensity]
    rw [sum_unique h.states he]
    · rw [if_pos hx, one_mul]
    · intro b _ hb
      rw [if_neg, zero_mul, mul_zero]
      rw [hx]
      exact fun hk => hb (by exact_mod_cast hk.symm)
  · rw [denotes_likelihood hD]
    congr 1
    simp only [Leaf.var, stateDensity]
    refine List.sum_eq_zero fun y hy => ?_
    obtain ⟨e, he, rfl⟩ := List.mem_map.1 hy
    rw [if_neg (hx e he), zero_mul, mul_zero]

/-- **C66 (forward pass).**  Whenever the forward pass through a parent with the distribution `root` and a node with circuits returns, the
product of their forward probabilities is the probability of the event in the network, and it is not zero.  Missing for the full
statement `C66_full`: this is about conditional distributions as they are before the pass. -/
theorem C66_forward_partial (hm : IsMass root) (h : GoodEntries v own n entries) (hE : NodeEvent v S entries E)
    (hc : ∀ s, lookup root s ≠ 0 → ∃ e ∈ entries, e.state = s) {f : Entry → ℝ} (hf : Answers entries E f) (m : Mem LogP)
    {after : List Entry} {p : ℝ} {g : Circuit}
    (hr : circuitForward v own entries (rootForward root S).1 n m E = .ok (after, p, g)) :
    (rootForward root S).2 * p = jointAnswer root S entries f ∧ jointAnswer root S entries f ≠ 0 := by
  rcases hrt : rootForward root S with ⟨_ | message, pr⟩
  · rw [hrt] at hr; cases hr
  rw [hrt] at hr
  obtain ⟨hmm, hpr, hne, hl⟩ := conditionOn_mass hm hE.nodup hrt
  have hpos : ∃ e ∈ entries, lookup message e.state ≠ 0 := by
    by_contra hno
    push Not at hno
    apply hne
    rw [hpr]
    refine List.sum_eq_zero fun y hy => ?_
    obtain ⟨s, hs, rfl⟩ := List.mem_map.1 hy
    by_contra hs0
    obtain ⟨e, he, rfl⟩ := hc s hs0
    have := hno e he
    rw [hl, if_pos hs, div_eq_zero_iff] at this
    exact this.elim hs0 hne
  have hF : ∀ e : Entry, ∃ F, e ∈ entries → Denotes (distribution e) e.root own F := fun e => by
    by_cases he : e ∈ entries
    · obtain ⟨F, hF⟩ := denotes_distribution (h.circuit e he)
      exact ⟨F, fun _ => hF⟩
    · exact ⟨fun _ => 0, fun h => absurd h he⟩
  choose F hF using hF
  obtain ⟨J, hJ, hD, hleaf⟩ := denotes_joint hmm h hF hpos
  obtain ⟨sc, hs, _, _⟩ := hD.scope
  obtain ⟨P, hP⟩ := exists_circuitValue hD.layered.graded.acyclic fun d => (leafLaw d).real (allowed E d.var)
  have hready := hleaf (fun d => d.Valid → ∃ A c, E.get d.var = .ok A ∧ d.condInPlace A = .ok c ∧ CondSpec d (allowed E d.var) c)
    (fun e _ hd => by
      obtain ⟨c, h1, h2⟩ := condInPlace_spec (A := .symbols S) hd trivial hE.nodup trivial
      exact ⟨_, c, get_ok_of_mem hE.keys hE.parent, h1, by
        rw [show allowed E (Leaf.symbolic v [(e.state, 1)]).var = (VSet.symbols S).toSet from allowed_of_mem hE.keys hE.parent]
        exact h2⟩)
    (fun e he k d hk hd => by
      obtain ⟨A, hA, h1, h2, h3⟩ := hE.own e he k d hk
      obtain ⟨c, h4, h5⟩ := condInPlace_spec hd h1 h2 h3
      exact ⟨A, c, get_ok_of_mem hE.keys hA, h4, by rw [show allowed E d.var = A.toSet from allowed_of_mem hE.keys hA]; exact h5⟩)
  have hsound := fun res q hq => conditionSimple_sound (E := E) (B := allowed E) hD.layered hs.sumNe hP
    (fun k d hk => hready k d hk (hD.valid k d hk)) (m := m) (res := res) (p := q) hq
  have hans : pr * P n = jointAnswer root S entries f := by
    rw [hD.value _ _ hP, jointAnswer, ← List.sum_map_mul_left]
    congr 1
    refine List.map_congr_left fun e he => ?_
    obtain ⟨Q, hQ, hQf⟩ := hf e he
    have hv : (leafLaw (.symbolic v [(e.state, 1)])).real (allowed E (Leaf.symbolic v [(e.state, 1)]).var) = if e.state ∈ S then 1 else 0 := by
      rw [show allowed E (Leaf.symbolic v [(e.state, 1)]).var = (VSet.symbols S).toSet from allowed_of_mem hE.keys hE.parent, stateLaw]
    simp only [hv]
    rw [← hQf, (hF e he).value _ _ hQ, hl]
    split_ifs
    · field_simp
    · ring
  unfold circuitForward at hr
  simp only [bind, Except.bind, hJ] at hr
  rcases hcs : J.conditionSimple m E with e | ⟨res, q⟩
  · rw [hcs] at hr; cases hr
  rw [hcs] at hr
  obtain ⟨h1, h2⟩ := hsound res q hcs
  rcases res with _ | ⟨g', m'⟩
  · cases hr
  simp only at hr
  rcases hmg : g'.copy.marginalInPlace own with e | _ | g''
  · rw [hmg] at hr; cases hr
  · rw [hmg] at hr; cases hr
  rw [hmg] at hr
  injection hr with hr
  simp only [Prod.mk.injEq] at hr
  have hPn : P n ≠ 0 := fun h0 => by simpa using h2.2 h0
  rw [← hr.2.1, h1, hans]
  exact ⟨rfl, by rw [← hans]; exact mul_ne_zero hne hPn⟩

/-- **C66 (impossible events).**  If the event has probability zero, the forward pass through the node raises. -/
theorem C66_impossible (hm : IsMass root) (h : GoodEntries v own n entries) (hE : NodeEvent v S entries E)
    (hc : ∀ s, lookup root s ≠ 0 → ∃ e ∈ entries, e.state = s) {f : Entry → ℝ} (hf : Answers entries E f)
    (h0 : jointAnswer root S entries f = 0) (m : Mem LogP) :
    ∃ err, circuitForward v own entries (rootForward root S).1 n m E = .error err := by
  rcases hr : circuitForward v own entries (rootForward root S).1 n m E with err | ⟨a, p, g⟩
  · exact ⟨err, rfl⟩
  · exact absurd h0 (C66_forward_partial hm h hE hc hf m hr).2

/-- The full claim: a pass answers for the conditional distributions the node was created with, whatever was asked before.  `n'` is the
first number that no unit has after the first pass. -/
def C66_full : Prop := ∀ (v : Var) (own : Finset Var) (n : Node) (entries : List Entry) (root : List (ℤ × ℝ)) (S S' : List ℤ)
    (E E' : SimpleEvent) (f f' : Entry → ℝ), IsMass root → GoodEntries v own n entries → NodeEvent v S entries E →
    NodeEvent v S' entries E' → (∀ s, lookup root s ≠ 0 → ∃ e ∈ entries, e.state = s) → Answers entries E f → Answers entries E' f' →
    jointAnswer root S entries f ≠ 0 → jointAnswer root S' entries f' ≠ 0 →
    ∃ after p g, circuitForward v own entries (rootForward root S).1 n freshMem E = .ok (after, p, g) ∧
      (rootForward root S).2 * p = jointAnswer root S entries f ∧
      ∀ n', (∀ e ∈ after, ∀ k ∈ e.circuit.ids, k < n') →
        ∃ after' p' g', circuitForward v own after (rootForward root S').1 n' freshMem E' = .ok (after', p', g') ∧
          (rootForward root S').2 * p' = jointAnswer root S' entries f'

/-- A child with two states that does not depend on the parent. -/
noncomputable def fairCoin (k : Node) : Circuit := newUnit k (.leaf (.symbolic 1 [(0, 1 / 2), (1, 1 / 2)]))

noncomputable def coins : List Entry := [⟨0, 0, fairCoin 0⟩, ⟨1, 1, fairCoin 1⟩]

noncomputable def coinRoot : List (ℤ × ℝ) := [(0, 1 / 2), (1, 1 / 2)]

def coinEvent : SimpleEvent := [(0, .symbols [0, 1]), (1, .symbols [0])]

theorem single_circuit {k : Node} {d : Leaf} (hd : d.Valid) : IsCircuit (newUnit k (.leaf d)) k {d.var} := by
  have := denotes_leaf k hd
  exact ⟨this.layered, this.scope, this.valid⟩

/-- Two entries whose distributions are single leaves over the variable 1. -/
structure TwoLeaves (entries : List Entry) (d₀ d₁ : Leaf) : Prop where
  shape : ∃ C₀ C₁, entries = [⟨0, 0, C₀⟩, ⟨1, 1, C₁⟩] ∧ C₀.WF ∧ 0 ∈ C₀.ids ∧ C₁.WF ∧ 1 ∈ C₁.ids ∧
    C₀.removeUnreachable 0 = newUnit 0 (.leaf d₀) ∧ C₁.removeUnreachable 1 = newUnit 1 (.leaf d₁)
  valid : d₀.Valid ∧ d₁.Valid
  var : d₀.var = 1 ∧ d₁.var = 1
  fits : (∀ A, Fits d₀ (.symbols A)) ∧ ∀ A, Fits d₁ (.symbols A)

theorem proper_of_fits {d : Leaf} {A B : List ℤ} (h : Fits d (.symbols A)) : ProperOn d (.symbols B) := by
  cases d <;> simp_all [Fits, ProperOn]

variable {d₀ d₁ : Leaf}

theorem TwoLeaves.good (h : TwoLeaves entries d₀ d₁) (hn : 2 ≤ n) : GoodEntries 0 {1} n entries := by
  obtain ⟨C₀, C₁, rfl, w₀, i₀, w₁, i₁, e₀, e₁⟩ := h.shape
  refine ⟨by simp, by simp [w₀, i₀, w₁, i₁], ?_, by decide, ?_, ?_⟩
  · simp only [List.mem_cons, List.not_mem_nil, or_false, forall_eq_or_imp, forall_eq, distribution, e₀, e₁]
    have h0 := single_circuit (k := 0) h.valid.1
    have h1 := single_circuit (k := 1) h.valid.2
    rw [h.var.1] at h0
    rw [h.var.2] at h1
    exact ⟨h0, h1⟩
  · simp only [List.mem_cons, List.not_mem_nil, or_false, forall_eq_or_imp, forall_eq, distribution, e₀, e₁, ids_newUnit]
    constructor <;> nomega
  · simp [distribution, e₀, e₁, DisjointIds, ids_newUnit]

theorem TwoLeaves.event (h : TwoLeaves entries d₀ d₁) : NodeEvent 0 [0, 1] entries coinEvent := by
  obtain ⟨C₀, C₁, rfl, w₀, i₀, w₁, i₁, e₀, e₁⟩ := h.shape
  refine ⟨by decide, by simp [coinEvent], by decide, ?_⟩
  have hk : ∀ (n k : Node) (d d' : Leaf), (newUnit n (.leaf d) : Circuit).kind? k = some (.leaf d') → d' = d := by
    intro n k d d' h
    exact Ex.forall_kind (g := newUnit n (.leaf d)) (P := fun _ k => ∀ d', k = .leaf d' → d' = d) (by simp [newUnit]) k _ h d' rfl
  simp only [List.mem_cons, List.not_mem_nil, or_false, forall_eq_or_imp, forall_eq, distribution, e₀, e₁]
  constructor
  · intro k d hd
    obtain rfl := hk _ _ _ _ hd
    exact ⟨.symbols [0], by simp [coinEvent, h.var.1], h.fits.1 _, by simp [VSet.Disjoint], proper_of_fits (h.fits.1 [])⟩
  · intro k d hd
    obtain rfl := hk _ _ _ _ hd
    exact ⟨.symbols [0], by simp [coinEvent, h.var.2], h.fits.2 _, by simp [VSet.Disjoint], proper_of_fits (h.fits.2 [])⟩

theorem coinAllowed : allowed coinEvent 1 = (VSet.symbols [0]).toSet :=
  allowed_of_mem (p := (1, .symbols [0])) (by decide) (by simp [coinEvent])

theorem TwoLeaves.answers (h : TwoLeaves entries d₀ d₁) (q : ℝ) (h0 : (leafLaw d₀).real (VSet.symbols [0]).toSet = q)
    (h1 : (leafLaw d₁).real (VSet.symbols [0]).toSet = q) : Answers entries coinEvent (fun _ => q) := by
  obtain ⟨C₀, C₁, rfl, w₀, i₀, w₁, i₁, e₀, e₁⟩ := h.shape
  have hv : ∀ (k : Node) (d : Leaf), d.Valid → d.var = 1 → (leafLaw d).real (VSet.symbols [0]).toSet = q →
      ∃ P, CircuitValue (newUnit k (.leaf d)) (fun d => (leafLaw d).real (allowed coinEvent d.var)) P ∧ P k = q := by
    intro k d hd hv hq
    have hD := denotes_leaf k hd
    obtain ⟨P, hP⟩ := exists_circuitValue hD.layered.graded.acyclic fun d => (leafLaw d).real (allowed coinEvent d.var)
    refine ⟨P, hP, ?_⟩
    rw [hD.value _ _ hP]
    simp only [hv, coinAllowed, hq]
  intro e he
  simp only [List.mem_cons, List.not_mem_nil, or_false] at he
  rcases he with rfl | rfl
  · simp only [distribution, e₀]; exact hv 0 d₀ h.valid.1 h.var.1 h0
  · simp only [distribution, e₁]; exact hv 1 d₁ h.valid.2 h.var.2 h1

theorem TwoLeaves.total (h : TwoLeaves entries d₀ d₁) (q : ℝ) : jointAnswer coinRoot [0, 1] entries (fun _ => q) = q := by
  obtain ⟨C₀, C₁, rfl, _⟩ := h.shape
  simp [jointAnswer, coinRoot, lookup]
  ring

theorem TwoLeaves.complete (h : TwoLeaves entries d₀ d₁) (s : ℤ) (hs : lookup coinRoot s ≠ 0) : ∃ e ∈ entries, e.state = s := by
  obtain ⟨C₀, C₁, rfl, _⟩ := h.shape
  by_contra hno
  simp only [List.mem_cons, List.not_mem_nil, or_false, exists_eq_or_imp, exists_eq_left, not_or] at hno
  exact hs (lookup_eq_zero (by simp [coinRoot]; exact ⟨fun h => hno.1 h.symm, fun h => hno.2 h.symm⟩))

theorem coinMass : IsMass coinRoot := ⟨by simp [coinRoot], by simp [coinRoot]⟩

theorem coins_two : TwoLeaves coins (.symbolic 1 [(0, 1 / 2), (1, 1 / 2)]) (.symbolic 1 [(0, 1 / 2), (1, 1 / 2)]) := by
  have hd : (Leaf.symbolic 1 [(0, 1 / 2), (1, 1 / 2)]).Valid := ⟨by simp, by simp⟩
  refine ⟨⟨fairCoin 0, fairCoin 1, rfl, (denotes_leaf 0 hd).layered.wf, by simp [fairCoin], (denotes_leaf 1 hd).layered.wf, by simp [fairCoin], rfl, rfl⟩,
    ⟨hd, hd⟩, ⟨rfl, rfl⟩, ⟨fun _ => trivial, fun _ => trivial⟩⟩

theorem coinLaw : (leafLaw (.symbolic 1 [(0, 1 / 2), (1, 1 / 2)])).real (VSet.symbols [0]).toSet = 1 / 2 := by
  have hm : MeasurableSet (VSet.symbols [0]).toSet := VSet.measurableSet_toSet _
  have h := discrete_real [((0 : ℤ), (1 / 2 : ℝ)), (1, 1 / 2)] (by simp) hm
  have he : leafLaw (.symbolic 1 [(0, 1 / 2), (1, 1 / 2)]) =
    (([((0 : ℤ), (1 / 2 : ℝ)), (1, 1 / 2)]).map fun kp => ENNReal.ofReal kp.2 • Measure.dirac (kp.1 : ℝ)).sum := rfl
  rw [he, h]
  simp [VSet.toSet, VSet.Mem, Set.indicator]

/-- The log weight of ½. -/
noncomputable def logHalf : LogP := .fin (Real.log (1 / 2))

theorem logHalf_exp : logHalf.exp = 1 / 2 := Real.exp_log (by norm_num)

theorem logHalf_eq : LogP.log (1 / 2) = logHalf := by simp [LogP.log, logHalf]

/-- The joint distribution of the example. -/
noncomputable def coinJoint (a b c d : Leaf) : Circuit :=
  ⟨[(2, .sum), (3, .prod), (4, .leaf a), (0, .leaf b), (5, .prod), (6, .leaf c), (1, .leaf d)],
    [⟨3, 4, none⟩, ⟨3, 0, none⟩, ⟨2, 3, some logHalf⟩, ⟨5, 6, none⟩, ⟨5, 1, none⟩, ⟨2, 5, some logHalf⟩]⟩

theorem coins_joint {message : List (ℤ × ℝ)} (hm : IsMass message) (h0 : lookup message 0 = 1 / 2) (h1 : lookup message 1 = 1 / 2) :
    jointWithParent 0 coins message 2 = .ok (coinJoint (.symbolic 0 [(0, 1)])
      (.symbolic 1 [(0, 1 / 2), (1, 1 / 2)]) (.symbolic 0 [(1, 1)]) (.symbolic 1 [(0, 1 / 2), (1, 1 / 2)])) := by
  have hroot : ∀ e ∈ coins, e.root ∈ e.circuit.ids := by simp [coins, fairCoin]
  unfold jointWithParent
  rw [jointParts_eq hm hroot]
  simp only [coins, numbered, h0, h1]
  rw [if_neg (by norm_num), if_neg (by norm_num)]
  simp only [partsOf, List.map_cons, List.map_nil, h0, h1, logHalf_eq]
  rfl

/-- Conditioning the joint distribution of the example: the distributions in the node are now the conditioned leaves. -/
theorem coins_conditioned {J : Circuit} {a c b : Leaf} (hJ : J = coinJoint a b c b)
    (hL : Layered J 2) (hne : ∀ n, J.kind? n = some .sum → J.succ n ≠ []) (hU : Unsplit J coinEvent (allowed coinEvent))
    (ha : (leafLaw a).real (allowed coinEvent a.var) = 1) (hc : (leafLaw c).real (allowed coinEvent c.var) = 1)
    (hb : (leafLaw b).real (allowed coinEvent b.var) = 1 / 2) {res : Option (Circuit × Mem LogP)} {p : LogP}
    (h : J.conditionSimple freshMem coinEvent = .ok (res, p)) :
    ∃ m a' c', res = some (coinJoint a' (newLeaf coinEvent b) c' (newLeaf coinEvent b), m) := by
  have hval : CircuitValue J (fun d => (leafLaw d).real (allowed coinEvent d.var))
      (fun n => if n = 4 ∨ n = 6 then 1 else 1 / 2) := by
    subst hJ
    refine Ex.value_of ?_ ?_ ?_
    · simp only [coinJoint, List.mem_cons, List.not_mem_nil, or_false, forall_eq_or_imp, forall_eq]
      simp [ha, hb, hc]
    · simp only [coinJoint, List.mem_cons, List.not_mem_nil, or_false, forall_eq_or_imp, forall_eq]
      simp [outEdges, linWeight, logHalf_exp]
      norm_num
    · simp only [coinJoint, List.mem_cons, List.not_mem_nil, or_false, forall_eq_or_imp, forall_eq]
      simp [outEdges]
  obtain ⟨keep, m', p', hS, hp, hm', _, heq⟩ := conditionSimple_unsplit hL hne hval hU (by norm_num) freshMem
  have hall := rest_all hL hS (by intro n _; split_ifs <;> norm_num) (E := coinEvent)
  rw [heq, hall] at h
  generalize hg : J.mapLeavesOn (newLeaf coinEvent) (fun _ => true) = g1 at h
  have hg' : g1 = coinJoint (newLeaf coinEvent a) (newLeaf coinEvent b) (newLeaf coinEvent c)
      (newLeaf coinEvent b) := by rw [← hg, hJ]; rfl
  have hsimp : g1.simplify = .ok g1 := by
    have h0 : g1.root = .ok 2 := by subst hg'; rfl
    have h1 : g1.bottomUp 2 = [4, 0, 6, 1, 3, 5, 2] := by subst hg'; rfl
    simp only [simplify, h0, h1]
    subst hg'
    rfl
  have hnorm : g1.normalize = .ok g1 := by
    refine normalize_id ?_ ?_ ?_
    · rw [← hg]; exact hL.wf.mapLeavesOn _ _
    · subst hg'; exact Ex.weighted_of (by simp [coinJoint, outEdges])
    · subst hg'
      refine Ex.normalized_of ?_
      simp only [coinJoint, List.mem_cons, List.not_mem_nil, or_false, forall_eq_or_imp, forall_eq]
      simp [outEdges, linWeight, logHalf_exp]
      norm_num
  simp only [bind, Except.bind, hsimp, hnorm] at h
  injection h with h
  simp only [Prod.mk.injEq] at h
  exact ⟨m', _, _, by rw [← h.1, hg']⟩

theorem newUnit_leaf {n k : Node} {d d' : Leaf} (h : (newUnit n (.leaf d) : Circuit).kind? k = some (.leaf d')) : d' = d :=
  Ex.forall_kind (g := newUnit n (.leaf d)) (P := fun _ k => ∀ d', k = .leaf d' → d' = d) (by simp [newUnit]) k _ h d' rfl

/-- The leaf of the coins. -/
noncomputable def fair : Leaf := .symbolic 1 [(0, 1 / 2), (1, 1 / 2)]

theorem coins_ready {message : List (ℤ × ℝ)} (hmm : IsMass message) (h0 : lookup message 0 = 1 / 2) (h1 : lookup message 1 = 1 / 2) :
    let J := coinJoint (.symbolic 0 [(0, 1)]) fair (.symbolic 0 [(1, 1)]) fair
    Layered J 2 ∧ (∀ n, J.kind? n = some .sum → J.succ n ≠ []) ∧ Unsplit J coinEvent (allowed coinEvent) := by
  intro J
  have hE := coins_two.event
  have hF : ∀ e ∈ coins, Denotes (distribution e) e.root {1} (fun ℓ => ℓ fair) := by
    have hd : fair.Valid := coins_two.valid.1
    simp only [coins, List.mem_cons, List.not_mem_nil, or_false, forall_eq_or_imp, forall_eq]
    exact ⟨denotes_leaf 0 hd, denotes_leaf 1 hd⟩
  obtain ⟨J', hJ, hD, hleaf⟩ := denotes_joint hmm (coins_two.good le_rfl) hF ⟨⟨0, 0, fairCoin 0⟩, by simp [coins], by simp [h0]⟩
  rw [coins_joint hmm h0 h1] at hJ
  injection hJ with hJ
  have hJ : J = J' := hJ
  rw [hJ]
  obtain ⟨sc, hs, _, _⟩ := hD.scope
  refine ⟨hD.layered, hs.sumNe, fun k d hk => hleaf (fun d => d.Valid → ∃ A c, coinEvent.get d.var = .ok A ∧
      d.condInPlace A = .ok c ∧ CondSpec d (allowed coinEvent d.var) c ∧ ∀ ps, c ≠ .several ps) (fun e _ hd => ?_)
      (fun e he k d hk hd => ?_) k d hk (hD.valid k d hk)⟩
  · obtain ⟨c, h1, h2⟩ := condInPlace_spec (A := .symbols [0, 1]) hd trivial hE.nodup trivial
    exact ⟨_, c, get_ok_of_mem hE.keys hE.parent, h1, by
      rw [show allowed coinEvent (Leaf.symbolic 0 [(e.state, 1)]).var = (VSet.symbols [0, 1]).toSet from
        allowed_of_mem hE.keys hE.parent]
      exact h2, condInPlace_not_several (d := .symbolic 0 [(e.state, 1)]) trivial h1⟩
  · obtain ⟨A, hA, h1, h2, h3⟩ := hE.own e he k d hk
    have hdb : d = fair := by
      simp only [coins, List.mem_cons, List.not_mem_nil, or_false] at he
      rcases he with rfl | rfl
      · exact newUnit_leaf hk
      · exact newUnit_leaf hk
    obtain ⟨c, h4, h5⟩ := condInPlace_spec hd h1 h2 h3
    exact ⟨A, c, get_ok_of_mem hE.keys hA, h4, by
      rw [show allowed coinEvent d.var = A.toSet from allowed_of_mem hE.keys hA]; exact h5,
      condInPlace_not_several (by rw [hdb]; trivial) h4⟩

theorem state_one {s : ℤ} (hs : s ∈ [(0 : ℤ), 1]) :
    (leafLaw (.symbolic 0 [(s, 1)])).real (allowed coinEvent (Leaf.symbolic 0 [(s, 1)]).var) = 1 := by
  rw [show allowed coinEvent (Leaf.symbolic 0 [(s, 1)]).var = _ from
    allowed_of_mem coins_two.event.keys coins_two.event.parent, stateLaw, if_pos hs]

/-- After the first pass the distributions of the node are leaves that give the event the probability one. -/
theorem coins_after {message : List (ℤ × ℝ)} (hmm : IsMass message) (h0 : lookup message 0 = 1 / 2) (h1 : lookup message 1 = 1 / 2)
    {after : List Entry} {p : ℝ} {g : Circuit}
    (hr : circuitForward 0 {1} coins (some message) 2 freshMem coinEvent = .ok (after, p, g)) :
    ∃ d, TwoLeaves after d d ∧ (leafLaw d).real (VSet.symbols [0]).toSet = 1 ∧ ∀ e ∈ after, ∀ k ∈ e.circuit.ids, k < 7 := by
  obtain ⟨hL, hne, hU⟩ := coins_ready hmm h0 h1
  have hb : (leafLaw fair).real (allowed coinEvent fair.var) = 1 / 2 := by
    rw [show allowed coinEvent fair.var = _ from coinAllowed]; exact coinLaw
  obtain ⟨q, hq⟩ := hU.newLeaf (n := 0) (d := fair) rfl (by rw [hb]; norm_num)
  obtain ⟨_, _, qv, _, qvar, qfit, qlaw⟩ := hq
  rw [show allowed coinEvent fair.var = _ from coinAllowed] at qlaw
  unfold circuitForward at hr
  simp only [bind, Except.bind, coins_joint hmm h0 h1] at hr
  rcases hcs : (coinJoint (.symbolic 0 [(0, 1)]) fair (.symbolic 0 [(1, 1)]) fair).conditionSimple freshMem coinEvent with e | ⟨res, q'⟩
  · rw [fair] at hcs; rw [hcs] at hr; cases hr
  obtain ⟨m', a', c', rfl⟩ := coins_conditioned rfl hL hne hU (state_one (by simp)) (state_one (by simp)) hb hcs
  generalize hnew : newLeaf coinEvent fair = d at *
  rw [fair] at hcs; rw [hcs] at hr
  simp only at hr
  rcases hmg : (coinJoint a' d c' d).copy.marginalInPlace {1} with e | _ | g''
  · rw [hmg] at hr; cases hr
  · rw [hmg] at hr; cases hr
  rw [hmg] at hr
  injection hr with hr
  simp only [Prod.mk.injEq] at hr
  have hafter : after = [⟨0, 0, coinJoint a' d c' d⟩, ⟨1, 1, coinJoint a' d c' d⟩] := by
    rw [← hr.1]
    simp only [remount, coins, List.map_cons, List.map_nil, conditionOn_single hmm, h0, h1]
    norm_num
  have hw' : (coinJoint a' d c' d).WF := ⟨by simp [coinJoint, ids], by simp [coinJoint], by simp [coinJoint, ids],
    by simp [coinJoint, ids]⟩
  refine ⟨d, ⟨⟨_, _, hafter, hw', by simp [coinJoint, ids], hw', by simp [coinJoint, ids], rfl, rfl⟩, ⟨qv, qv⟩,
      ⟨qvar, qvar⟩, ⟨fun A => qfit _ trivial, fun A => qfit _ trivial⟩⟩, ?_, ?_⟩
  · rw [qlaw _ (VSet.measurableSet_toSet _), Set.inter_self, show leafLaw fair = leafLaw (.symbolic 1 [(0, 1 / 2), (1, 1 / 2)]) from rfl,
      coinLaw]
    norm_num
  · rw [hafter]
    simp only [List.mem_cons, List.not_mem_nil, or_false, forall_eq_or_imp, forall_eq, coinJoint, ids, List.map_cons, List.map_nil]
    decide

/-- **C66 is false**: the forward pass conditions the distributions of the node themselves.  With two equally likely parent states and a
fair fairCoin as the node, the event that the coin shows 0 has probability ½ when asked first, and 1 when asked again. -/
theorem C66_full_false : ¬ C66_full := by
  intro h
  have hE := coins_two.event
  have hA := coins_two.answers (1 / 2) coinLaw coinLaw
  obtain ⟨after, p, g, hr, hp, hsecond⟩ := h 0 {1} 2 coins coinRoot [0, 1] [0, 1] coinEvent coinEvent _ _ coinMass
    (coins_two.good le_rfl) hE hE coins_two.complete hA hA (by rw [coins_two.total]; norm_num) (by rw [coins_two.total]; norm_num)
  rw [coins_two.total] at hsecond
  rcases hrt : rootForward coinRoot [0, 1] with ⟨_ | message, pr⟩
  · rw [hrt] at hr; cases hr
  obtain ⟨hmm, hpr, hne, hl⟩ := conditionOn_mass coinMass (by decide) hrt
  have hpr1 : pr = 1 := by rw [hpr]; simp [coinRoot, lookup]; norm_num
  have h0 : lookup message 0 = 1 / 2 := by rw [hl, hpr1]; simp [coinRoot, lookup]
  have h1 : lookup message 1 = 1 / 2 := by rw [hl, hpr1]; simp [coinRoot, lookup]
  rw [hrt] at hr
  obtain ⟨d, htwo, hl1, hids⟩ := coins_after hmm h0 h1 hr
  obtain ⟨after', p', g', hr', hp'⟩ := hsecond 7 hids
  have hfinal := (C66_forward_partial coinMass (htwo.good (by decide)) htwo.event htwo.complete (htwo.answers 1 hl1 hl1) freshMem hr').1
  rw [hp', htwo.total] at hfinal
  norm_num at hfinal

/-- The hypotheses of `C66_joint` and `C66_forward_partial` hold for the coins. -/
example : GoodEntries 0 {1} 2 coins ∧ NodeEvent 0 [0, 1] coins coinEvent ∧ IsMass coinRoot ∧
    (∃ e ∈ coins, lookup coinRoot e.state ≠ 0) ∧ (∀ s, lookup coinRoot s ≠ 0 → ∃ e ∈ coins, e.state = s) ∧
    Answers coins coinEvent (fun _ => 1 / 2) :=
  ⟨coins_two.good le_rfl, coins_two.event, coinMass, ⟨⟨0, 0, fairCoin 0⟩, by simp [coins], by simp [coinRoot, lookup]⟩, coins_two.complete,
    coins_two.answers _ coinLaw coinLaw⟩

end PM.Props
