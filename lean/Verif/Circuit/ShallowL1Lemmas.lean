import Verif.Circuit.ShallowL1
import Verif.Spec.Shallow
import Verif.Props.Subgraph
import Verif.Props.Support

/-!
# Lemmas about the L1 metric of shallow circuits
-/

namespace PM

open Classical Spec Graph Props

/-- An interval with finite ends that is not empty, or nothing. -/
def BoxSide (A : VSet) : Prop :=
  A = .interval [] ∨ ∃ (a b : ℝ) (l r : Bound), A = .interval [⟨a, b, l, r⟩] ∧ (a < b ∨ a = b ∧ l = .closed ∧ r = .closed)

def IsBox (E : SimpleEvent) : Prop := ∀ p ∈ E, BoxSide p.2

theorem BoxSide.inter {A B : VSet} (hA : BoxSide A) (hB : BoxSide B) : BoxSide (A.inter B) := by
  rcases hA with rfl | ⟨a, b, l, r, rfl, hab⟩
  · rcases hB with rfl | ⟨a', b', l', r', rfl, _⟩ <;> left <;> simp [VSet.inter]
  rcases hB with rfl | ⟨a', b', l', r', rfl, _⟩
  · left; simp [VSet.inter]
  simp only [VSet.inter, List.flatMap_cons, List.flatMap_nil, List.map_cons, List.map_nil, List.append_nil, List.filter_cons,
    List.filter_nil]
  split
  case isFalse => left; rfl
  case isTrue h =>
    right
    have h' := of_decide_eq_true h
    unfold SimpleInterval.IsEmpty at h'
    push Not at h'
    obtain ⟨h1, h2⟩ := h'
    have e1 : (SimpleInterval.inter ⟨a, b, l, r⟩ ⟨a', b', l', r'⟩).lower = ((max a a' : ℝ) : EReal) := by
      simp only [SimpleInterval.inter, EReal.coe_strictMono.monotone.map_max]
    have e2 : (SimpleInterval.inter ⟨a, b, l, r⟩ ⟨a', b', l', r'⟩).upper = ((min b b' : ℝ) : EReal) := by
      simp only [SimpleInterval.inter, EReal.coe_strictMono.monotone.map_min]
    rw [e1, e2] at h1 h2
    refine ⟨max a a', min b b', (SimpleInterval.inter ⟨a, b, l, r⟩ ⟨a', b', l', r'⟩).left,
      (SimpleInterval.inter ⟨a, b, l, r⟩ ⟨a', b', l', r'⟩).right, by rw [← e1, ← e2], ?_⟩
    rcases (EReal.coe_le_coe_iff.1 h1).lt_or_eq with h3 | h3
    · exact .inl h3
    · right
      obtain ⟨h4, h5⟩ := h2 (by rw [h3])
      refine ⟨h3, ?_, ?_⟩
      · cases h6 : (SimpleInterval.inter ⟨a, b, l, r⟩ ⟨a', b', l', r'⟩).left
        · exact absurd h6 h4
        · rfl
      · cases h6 : (SimpleInterval.inter ⟨a, b, l, r⟩ ⟨a', b', l', r'⟩).right
        · exact absurd h6 h5
        · rfl

theorem IsBox.inter {E F : SimpleEvent} (hE : IsBox E) (hF : IsBox F) (hn : F.keys.Nodup) : IsBox (E.inter F) := by
  intro p hp
  rcases (SimpleEvent.mem_inter_iff hn).1 hp with ⟨a, ha, b, hb, _, rfl⟩ | ⟨h, _⟩ | ⟨h, _⟩
  · exact (hE a ha).inter (hF b hb)
  · exact hE p h
  · exact hF p h

/-- The event of a box. -/
def BoxEvent (sym : Var → Bool) (V : Finset Var) (Es : Event) : Prop := ∃ B, Es = [B] ∧ IsBox B ∧ B.Good sym V

theorem BoxEvent.inter {sym : Var → Bool} {V W : Finset Var} {Es Fs : Event} (hE : BoxEvent sym V Es) (hF : BoxEvent sym W Fs) :
    BoxEvent sym (V ∪ W) (Es.inter Fs) := by
  obtain ⟨B, rfl, h1, h2⟩ := hE
  obtain ⟨C, rfl, h3, h4⟩ := hF
  exact ⟨B.inter C, by simp [Event.inter], h1.inter h3 h4.nodup, h2.inter h4⟩

theorem BoxEvent.foldl {sym : Var → Bool} {V : Finset Var} : ∀ (l : List Event) (a : Event), BoxEvent sym V a → (∀ b ∈ l, BoxEvent sym V b) →
    BoxEvent sym V (l.foldl Event.inter a)
  | [], _, ha, _ => ha
  | b :: l, a, ha, hl => by
    have h := ha.inter (hl b (by simp))
    rw [Finset.union_idempotent] at h
    exact BoxEvent.foldl l _ h fun c hc => hl c (by simp [hc])

theorem BoxEvent.mono {sym : Var → Bool} {V W : Finset Var} {Es : Event} (h : BoxEvent sym V Es) (hVW : V ⊆ W) : BoxEvent sym W Es := by
  obtain ⟨B, rfl, h1, h2⟩ := h
  exact ⟨B, rfl, h1, h2.ne, h2.nodup, fun p hp => hVW (h2.keys p hp), h2.good⟩

/-- The centre of a box that is not empty lies in it. -/
theorem center_mem {sym : Var → Bool} {V : Finset Var} {Es : Event} (h : BoxEvent sym V Es) (hne : ¬ Es.IsEmpty) :
    ∃ x, Es.center = .ok x ∧ Es.Mem x := by
  obtain ⟨B, rfl, h1, h2⟩ := h
  have hB : ¬ B.IsEmpty := fun h => hne fun E hE => by rwa [List.mem_singleton.1 hE]
  have hside : ∀ p ∈ B, ∃ (a b : ℝ) (l r : Bound), p.2 = .interval [⟨a, b, l, r⟩] ∧ (a < b ∨ a = b ∧ l = .closed ∧ r = .closed) := by
    intro p hp
    rcases h1 p hp with h3 | h3
    · exact absurd (.inr ⟨p, hp, by rw [h3]; intro i hi; simp at hi⟩) hB
    · exact h3
  have hc : ∀ p ∈ B, ∃ c : Var × ℝ, centerOfEntry p = .ok c ∧ c.1 = p.1 ∧ p.2.Mem c.2 := by
    rintro ⟨v, A⟩ hp
    obtain ⟨a, b, l, r, h3, h4⟩ := hside _ hp
    simp only at h3
    subst h3
    refine ⟨(v, (a + b) / 2), ?_, rfl, _, List.mem_singleton.2 rfl, ?_⟩
    · simp [centerOfEntry, SimpleInterval.center]
    · rcases h4 with h4 | ⟨rfl, rfl, rfl⟩
      · have e1 : a < (a + b) / 2 := by linarith
        have e2 : (a + b) / 2 < b := by linarith
        constructor
        · cases l <;> simp only [SimpleInterval.leftOK, EReal.coe_lt_coe_iff, EReal.coe_le_coe_iff]
          exacts [e1, e1.le]
        · cases r <;> simp only [SimpleInterval.rightOK, EReal.coe_lt_coe_iff, EReal.coe_le_coe_iff]
          exacts [e2, e2.le]
      · have e : (a + a) / 2 = a := by ring
        simp only [e]
        exact ⟨le_rfl, le_rfl⟩
  choose! c hc1 hc2 hc3 using hc
  refine ⟨fun v => match (B.map c).find? fun c => c.1 == v with
      | some c => c.2
      | none => 0, ?_, B, List.mem_singleton.2 rfl, ?_⟩
  · unfold Event.center
    rw [List.filter_cons, if_pos (by simpa using hB)]
    simp only [bind, Except.bind]
    rw [mapM_ok_map hc1]
    rfl
  · intro p hp
    have hf : (B.map c).find? (fun q => q.1 == p.1) = some (c p) := by
      have hnd := h2.nodup
      clear h2 hne hB hside
      induction B with
      | nil => cases hp
      | cons q B ih =>
        rw [List.map_cons, List.find?_cons]
        rcases List.mem_cons.1 hp with rfl | hp'
        · rw [hc2 p (by simp)]; simp
        · have hq : q.1 ≠ p.1 := by
            intro h
            simp only [SimpleEvent.keys, List.map_cons, List.nodup_cons] at hnd
            exact hnd.1 (h ▸ List.mem_map_of_mem hp')
          rw [hc2 q (by simp)]
          simp only [beq_eq_false_iff_ne.2 hq]
          exact ih (fun p hp => h1 p (by simp [hp])) (fun p hp => hc1 p (by simp [hp])) (fun p hp => hc2 p (by simp [hp]))
            (fun p hp => hc3 p (by simp [hp])) hp' (by
              simp only [SimpleEvent.keys, List.map_cons, List.nodup_cons] at hnd
              exact hnd.2)
    simp only [hf]
    exact hc3 p hp

/-- The points of a unit of the subcircuit are the points of the unit in the circuit. -/
theorem possiblePoints_subgraph {g : Circuit} {r n : Node} (hL : Layered g r) (hn : n ∈ g.ids) {S : Node → Set (Var → ℝ)}
    (hS : PossiblePoints g S) : PossiblePoints (g.subgraphOf n) S := by
  have hm := mem_keep g hL.wf hn
  have hk : ∀ {k : Node} {K : Kind Leaf}, (g.subgraphOf n).kind? k = some K → g.Reachable n k ∧ g.kind? k = some K := by
    intro k K h
    obtain ⟨h3, h4⟩ := kind?_of_induced h
    exact ⟨(hm k).1 (by simpa using h4), h3⟩
  have hsucc : ∀ {k : Node}, g.Reachable n k → (g.subgraphOf n).succ k = g.succ k := by
    intro k h
    rw [succ, ((C90_contents hL hn).2 k h).2, succ]
  refine ⟨fun k d h => hS.leaf k d (hk h).2, fun k h => ?_, fun k h => ?_⟩
  · rw [hsucc (hk h).1]
    exact hS.sum k (hk h).2
  · rw [hsucc (hk h).1]
    exact hS.prod k (hk h).2

/-- All leaves are uniform distributions or distributions of one integer. -/
def FlatLeaves (g : Circuit) : Prop :=
  ∀ n d, g.kind? n = some (.leaf d) → (∃ v lo hi l r, d = .uniform v lo hi l r) ∨ ∃ v k w, d = .integer v [(k, w)]

theorem flat_side {d : Leaf} (hv : d.Valid) (h : (∃ v lo hi l r, d = .uniform v lo hi l r) ∨ ∃ v k w, d = .integer v [(k, w)]) :
    BoxSide d.support := by
  rcases h with ⟨v, lo, hi, l, r, rfl⟩ | ⟨v, k, w, rfl⟩
  · exact .inr ⟨lo, hi, l, r, rfl, .inl hv⟩
  · by_cases hw : 0 < w
    · exact .inr ⟨k, k, .closed, .closed, by simp [Leaf.support, hw], .inr ⟨rfl, rfl, rfl⟩⟩
    · exact .inl (by simp [Leaf.support, hw])

theorem flat_density_eq {d : Leaf} (h : (∃ v lo hi l r, d = .uniform v lo hi l r) ∨ ∃ v k w, d = .integer v [(k, w)]) {t t' : ℝ}
    (h1 : 0 < leafDensity d t) (h2 : 0 < leafDensity d t') : leafDensity d t = leafDensity d t' := by
  rcases h with ⟨v, lo, hi, l, r, rfl⟩ | ⟨v, k, w, rfl⟩
  · simp only [leafDensity] at h1 h2 ⊢
    split at h1
    case isFalse => exact absurd h1 (lt_irrefl _)
    split at h2
    case isFalse => exact absurd h2 (lt_irrefl _)
    rw [if_pos ‹_›, if_pos ‹_›]
  · have h3 : ∀ t : ℝ, 0 < leafDensity (.integer v [(k, w)]) t → t = k := by
      intro t ht
      by_contra hc
      simp [leafDensity, Ne.symm hc] at ht
    rw [h3 t h1, h3 t' h2]

/-- The support of a product of such leaves is a box. -/
theorem product_support {g : Circuit} {r c : Node} (hL : Layered g r) {sc : Node → Finset Var} (hs : Scoped g sc) (hd : Decomposable g sc)
    (hp : ProductsNonempty g) {sym : Var → Bool} (ht : Typed g sym) (hv : ∀ n d, g.kind? n = some (.leaf d) → d.Valid)
    (hu : FlatLeaves g) {S : Node → Set (Var → ℝ)} (hS : PossiblePoints g S) (hcn : c ∈ g.ids)
    (hc : g.kind? c = some .prod) (hl : ∀ l ∈ g.succ c, ∃ d, g.kind? l = some (.leaf d)) (m : Mem Event) :
    ∃ Es, ((g.subgraphOf c).support m).2 = .ok Es ∧ BoxEvent sym (sc c) Es ∧ ∀ x, Es.Mem x ↔ x ∈ S c := by
  obtain ⟨hL', hs', hd'⟩ := C90_valid hL hcn hs hd
  have hm := mem_keep g hL.wf hcn
  have hk : ∀ {k : Node} {K : Kind Leaf}, (g.subgraphOf c).kind? k = some K → g.Reachable c k ∧ g.kind? k = some K := by
    intro k K h
    obtain ⟨h3, h4⟩ := kind?_of_induced h
    exact ⟨(hm k).1 (by simpa using h4), h3⟩
  have hsucc : ∀ {k : Node}, g.Reachable c k → (g.subgraphOf c).succ k = g.succ k := by
    intro k h
    rw [succ, ((C90_contents hL hcn).2 k h).2, succ]
  have hp' : ProductsNonempty (g.subgraphOf c) := fun k h => by rw [hsucc (hk h).1]; exact hp k (hk h).2
  have ht' : Typed (g.subgraphOf c) sym := fun k d h => ht k d (hk h).2
  have hv' : ∀ n d, (g.subgraphOf c).kind? n = some (.leaf d) → d.Valid := fun k d h => hv k d (hk h).2
  obtain ⟨val, hval⟩ := support_eval hL'.wf hL'.graded.acyclic hL'.weighted hs' hp' ht' hv' (possiblePoints_subgraph hL hcn hS)
  have hri := (root_mem hL'.root).1
  have hq := query_eq_meaning hL'.wf hL'.graded hL'.root (meaning_of_eval hL'.wf hri fun n hn => (hval n hn).1) m
  refine ⟨val c, hq.1, ?_, (hval c hri).2.2⟩
  have hkc : (g.subgraphOf c).kind? c = some .prod := by
    rw [((C90_contents hL hcn).2 c (.refl)).1]; exact hc
  have hev := (hval c hri).1
  have hleafbox : ∀ k, k ∈ (g.subgraphOf c).succ c → ∀ E, Eval (g.subgraphOf c) supportAlg k E → BoxEvent sym (sc c) E := by
    intro k hkk E hE
    have hkr := (hk (k := k) (K := ((exists_kind? (succ_mem_ids hL'.wf hkk)).choose)) (exists_kind? (succ_mem_ids hL'.wf hkk)).choose_spec).1
    rw [hsucc .refl] at hkk
    obtain ⟨d, hd1⟩ := hl k hkk
    have hd2 : (g.subgraphOf c).kind? k = some (.leaf d) := by rw [((C90_contents hL hcn).2 k hkr).1, hd1]
    have hside := flat_side (hv k d hd1) (hu k d hd1)
    have hgood := leaf_support_good ht hd1 (hv k _ hd1)
    have hsub : sc k ⊆ sc c := by
      exact fun v hv => (hs.prod c hc v).2 ⟨k, hkk, hv⟩
    cases hE with
    | leaf h1 h2 =>
      rw [hd2] at h1
      cases h1
      have h2 := Except.ok.inj h2
      subst h2
      refine BoxEvent.mono (V := sc k) ⟨_, rfl, ?_, ?_⟩ hsub
      · intro p hp
        rw [List.mem_singleton.1 hp]
        exact hside
      · rw [hs.leaf k _ hd1]
        exact leafEvent_good hgood _ (List.mem_singleton.2 rfl)
    | sum _ h1 => rw [hd2] at h1; cases h1
    | prod _ h1 => rw [hd2] at h1; cases h1
  generalize val c = E at hev
  cases hev with
  | leaf h1 => rw [hkc] at h1; cases h1
  | sum _ h1 => rw [hkc] at h1; cases h1
  | prod child _ h2 h3 =>
    have hne := hp' c hkc
    cases hsc : (g.subgraphOf c).succ c with
    | nil => exact absurd hsc hne
    | cons a l =>
      rw [hsc] at h2 h3 hleafbox
      have h3 := Except.ok.inj h3
      subst h3
      exact BoxEvent.foldl _ _ (hleafbox a (by simp) _ (h2 a (by simp))) fun b hb => by
        obtain ⟨k, hk1, rfl⟩ := List.mem_map.1 hb
        exact hleafbox k (by simp [hk1]) _ (h2 k (by simp [hk1]))

/-- The support of a product of one uniform distribution. -/
theorem product_support_one {g : Circuit} {r c n : Node} (hL : Layered g r) {sc : Node → Finset Var} (hs : Scoped g sc) (hd : Decomposable g sc)
    (hp : ProductsNonempty g) {sym : Var → Bool} (ht : Typed g sym) (hv : ∀ n d, g.kind? n = some (.leaf d) → d.Valid)
    (hcn : c ∈ g.ids) (hc : g.kind? c = some .prod) (hn : g.succ c = [n]) {d : Leaf} (hkn : g.kind? n = some (.leaf d)) (m : Mem Event) :
    ((g.subgraphOf c).support m).2 = .ok [[(d.var, d.support)]] := by
  obtain ⟨S, hS⟩ := exists_possiblePoints hL.graded.acyclic
  obtain ⟨hL', hs', hd'⟩ := C90_valid hL hcn hs hd
  have hm := mem_keep g hL.wf hcn
  have hk : ∀ {k : Node} {K : Kind Leaf}, (g.subgraphOf c).kind? k = some K → g.Reachable c k ∧ g.kind? k = some K := by
    intro k K h
    obtain ⟨h3, h4⟩ := kind?_of_induced h
    exact ⟨(hm k).1 (by simpa using h4), h3⟩
  have hsucc : ∀ {k : Node}, g.Reachable c k → (g.subgraphOf c).succ k = g.succ k := by
    intro k h
    rw [succ, ((C90_contents hL hcn).2 k h).2, succ]
  have hp' : ProductsNonempty (g.subgraphOf c) := fun k h => by rw [hsucc (hk h).1]; exact hp k (hk h).2
  have ht' : Typed (g.subgraphOf c) sym := fun k d h => ht k d (hk h).2
  have hv' : ∀ n d, (g.subgraphOf c).kind? n = some (.leaf d) → d.Valid := fun k d h => hv k d (hk h).2
  obtain ⟨val, hval⟩ := support_eval hL'.wf hL'.graded.acyclic hL'.weighted hs' hp' ht' hv' (possiblePoints_subgraph hL hcn hS)
  have hri := (root_mem hL'.root).1
  have hq := query_eq_meaning hL'.wf hL'.graded hL'.root (meaning_of_eval hL'.wf hri fun n hn => (hval n hn).1) m
  refine hq.1.trans (congrArg _ ?_)
  have hkc : (g.subgraphOf c).kind? c = some .prod := by
    rw [((C90_contents hL hcn).2 c (.refl)).1]; exact hc
  have hrn : g.Reachable c n := .single (by rw [hn]; simp)
  have hkn' : (g.subgraphOf c).kind? n = some (.leaf d) := by rw [((C90_contents hL hcn).2 n hrn).1, hkn]
  have hev := (hval c hri).1
  generalize val c = E at hev
  cases hev with
  | leaf h1 => rw [hkc] at h1; cases h1
  | sum _ h1 => rw [hkc] at h1; cases h1
  | prod child _ h2 h3 =>
    rw [hsucc .refl, hn] at h2 h3
    have h3 := Except.ok.inj h3
    subst h3
    have h4 := h2 n (by simp)
    rw [List.map_nil, List.foldl_nil]
    generalize child n = E at h4
    cases h4 with
    | leaf h5 h6 =>
      rw [hkn'] at h5
      cases h5
      exact (Except.ok.inj h6).symm
    | sum _ h1 => rw [hkn'] at h1; cases h1
    | prod _ h1 => rw [hkn'] at h1; cases h1

/-- Where the value is not possible it is zero. -/
theorem value_zero {g : Circuit} (hw : g.WF) (ha : g.Acyclic) (hv : ∀ n d, g.kind? n = some (.leaf d) → d.Valid)
    {S : Node → Set (Var → ℝ)} (hS : PossiblePoints g S) {x : Var → ℝ} {f : Node → ℝ}
    (hf : CircuitValue g (fun d => leafDensity d (x d.var)) f) {n : Node} (hn : n ∈ g.ids) (hx : x ∉ S n) : f n = 0 := by
  by_contra h
  have h0 := circuitValue_nonneg hw ha hf (fun n d h => by rw [← exp_logLik (hv n d h)]; exact LogP.exp_nonneg _) n hn
  exact hx (possible_of_pos hw ha hv hS hf n hn (lt_of_le_of_ne h0 (Ne.symm h)))

/-- A deterministic shallow circuit of such leaves has the same value at all points of one of its products. -/
theorem value_constant {g : Circuit} {r c : Node} (hL : Layered g r) (hv : ∀ n d, g.kind? n = some (.leaf d) → d.Valid)
    (hu : FlatLeaves g) (hsh : ShallowForm g r) {S : Node → Set (Var → ℝ)} (hS : PossiblePoints g S)
    (hdet : (g.succ r).Pairwise fun a c => ∀ x, ¬ (x ∈ S a ∧ x ∈ S c)) (hc : c ∈ g.succ r)
    {x x' : Var → ℝ} (hx : x ∈ S c) (hx' : x' ∈ S c) {f f' : Node → ℝ}
    (hf : CircuitValue g (fun d => leafDensity d (x d.var)) f) (hf' : CircuitValue g (fun d => leafDensity d (x' d.var)) f') :
    f r = f' r := by
  obtain ⟨_, hr, _, hprod⟩ := hsh
  have hcc : f c = f' c := by
    obtain ⟨hk, hl⟩ := hprod c hc
    rw [hf.prod c hk, hf'.prod c hk]
    congr 1
    refine List.map_congr_left fun e he => ?_
    obtain ⟨d, hd⟩ := hl _ (dst_mem_succ he)
    rw [hf.leaf _ d hd, hf'.leaf _ d hd]
    have h1 := (hS.leaf _ d hd x).1 ((hS.prod c hk x).1 hx _ (dst_mem_succ he))
    have h2 := (hS.leaf _ d hd x').1 ((hS.prod c hk x').1 hx' _ (dst_mem_succ he))
    exact flat_density_eq (hu _ d hd) h1 h2
  rw [hf.sum r hr, hf'.sum r hr]
  congr 1
  refine List.map_congr_left fun e he => ?_
  by_cases hec : e.dst = c
  · rw [hec, hcc]
  · have : Std.Symm fun a c => ∀ x, ¬ (x ∈ S a ∧ x ∈ S c) := ⟨fun a b h x hx => h x ⟨hx.2, hx.1⟩⟩
    have hdis := hdet.forall (dst_mem_succ he) hc hec
    have hi := succ_mem_ids hL.wf (dst_mem_succ he)
    rw [value_zero hL.wf hL.graded.acyclic hv hS hf hi fun h => hdis x ⟨h, hx⟩,
      value_zero hL.wf hL.graded.acyclic hv hS hf' hi fun h => hdis x' ⟨h, hx'⟩]

/-- What `events_of_higher_density_product` gives: the points of both products, if one of them, and then all, have a higher density. -/
theorem higherProduct_spec {p q : Circuit} {own other : Node} {t : ℝ} {sym : Var → Bool} {V W : Finset Var} {A B : Event}
    (hA : ((p.subgraphOf own).support freshMem).2 = .ok A) (hB : ((q.subgraphOf other).support freshMem).2 = .ok B)
    (hAb : BoxEvent sym V A) (hBb : BoxEvent sym W B) {lp lq : (Var → ℝ) → ℝ}
    (hp : ∀ x, p.likelihood freshMem x = .ok (lp x)) (hq : ∀ x, q.likelihood freshMem x = .ok (lq x))
    (hcp : ∀ x x', A.Mem x → A.Mem x' → lp x = lp x') (hcq : ∀ x x', B.Mem x → B.Mem x' → lq x = lq x') :
    ∃ E, p.higherProduct q t own other = .ok E ∧ ∀ x, x ∈ E ↔ (A.Mem x ∧ B.Mem x) ∧ t < lp x - lq x := by
  have hG : ∀ {V : Finset Var} {E : Event}, BoxEvent sym V E → E.Good sym V := fun h => by
    obtain ⟨C, rfl, _, h2⟩ := h
    intro D hD
    rwa [List.mem_singleton.1 hD]
  have hmem : ∀ x, (A.inter B).Mem x ↔ A.Mem x ∧ B.Mem x := fun x => Event.mem_inter (hG hAb) (hG hBb)
  unfold higherProduct
  simp only [bind, Except.bind, pure, Except.pure, hA, hB]
  by_cases he : (A.inter B).IsEmpty
  · refine ⟨∅, by rw [if_pos he], fun x => ⟨fun h => h.elim, fun h => ?_⟩⟩
    obtain ⟨E, hE, hx⟩ := (hmem x).2 h.1
    rcases he E hE with rfl | ⟨a, ha, h1⟩
    · exact absurd rfl (hG (hAb.inter hBb) _ hE).ne
    · have hxa := hx a ha
      obtain ⟨C, hC, h3, _⟩ := hAb.inter hBb
      rw [hC, List.mem_singleton] at hE
      subst hE
      rcases h3 a ha with h4 | ⟨lo, hi, l, r, h4, h5⟩
      · rw [h4] at hxa
        obtain ⟨i, hi, _⟩ := hxa
        cases hi
      · rw [h4] at h1
        have h6 := h1 _ (List.mem_singleton.2 rfl)
        unfold SimpleInterval.IsEmpty at h6
        simp only [EReal.coe_lt_coe_iff, EReal.coe_eq_coe_iff] at h6
        rcases h5 with h5 | ⟨rfl, rfl, rfl⟩
        · rcases h6 with h6 | ⟨h6, _⟩ <;> linarith
        · rcases h6 with h6 | ⟨_, h6 | h6⟩
          · exact absurd h6 (lt_irrefl _)
          · cases h6
          · cases h6
  · obtain ⟨c, hc1, hc2⟩ := center_mem (hAb.inter hBb) he
    have hc3 := (hmem c).1 hc2
    simp only [if_neg he, hc1, hp, hq]
    by_cases ht : t < lp c - lq c
    · refine ⟨_, by rw [if_pos ht], fun x => ?_⟩
      rw [Set.mem_ofPred_eq, hmem]
      refine ⟨fun h => ⟨h, ?_⟩, fun h => h.1⟩
      rwa [hcp x c h.1 hc3.1, hcq x c h.2 hc3.2]
    · refine ⟨∅, by rw [if_neg ht], fun x => ⟨fun h => h.elim, fun h => ?_⟩⟩
      have h2 := h.2
      rw [hcp x c h.1.1 hc3.1, hcq x c h.1.2 hc3.2] at h2
      exact absurd h2 ht

theorem higherLoop_spec {p q : Circuit} {t : ℝ} {F : Node × Node → Set (Var → ℝ)} : ∀ (l : List (Node × Node)) (a : Set (Var → ℝ)),
    (∀ c ∈ l, p.higherProduct q t c.1 c.2 = .ok (F c)) →
    ∃ E, p.higherLoop q t l a = .ok E ∧ ∀ x, x ∈ E ↔ x ∈ a ∨ ∃ c ∈ l, x ∈ F c
  | [], a, _ => ⟨a, rfl, by simp⟩
  | c :: l, a, h => by
    obtain ⟨E, h1, h2⟩ := higherLoop_spec l (a ∪ F c) fun d hd => h d (by simp [hd])
    refine ⟨E, ?_, fun x => ?_⟩
    · unfold higherLoop
      simp only [bind, Except.bind, h c (by simp)]
      exact h1
    · rw [h2]
      simp [or_assoc]

end PM
