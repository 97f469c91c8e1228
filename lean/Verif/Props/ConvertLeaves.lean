import Verif.Props.Convert

/-! # C67: what the conversion to layers does to the leaves of a circuit -/

namespace PM.Props
open PM.Jax Graph Spec

theorem mapM_zip_mem {α β : Type} {f : α → Except PyErr β} : ∀ {l : List α} {l' : List β}, l.mapM f = .ok l' →
    ∀ a ∈ l, ∃ b, (a, b) ∈ l.zip l'
  | [], _, _, _, ha => by simp at ha
  | x :: l, l', h, a, ha => by
    rw [List.mapM_cons] at h
    simp only [bind, Except.bind] at h
    cases hx : f x with
    | error e => rw [hx] at h; cases h
    | ok b =>
      rw [hx] at h
      cases hl : l.mapM f with
      | error e => rw [hl] at h; cases h
      | ok bs =>
        rw [hl] at h
        have h := Except.ok.inj h
        subst h
        rcases List.mem_cons.1 ha with rfl | ha
        · exact ⟨b, by simp⟩
        · obtain ⟨b', hb'⟩ := mapM_zip_mem hl a ha
          exact ⟨b', by simp [hb']⟩

/-- There is no layer for integer leaves: a circuit with one cannot be converted. -/
theorem C67_integer (env : Env) {shuffle : {α : Type} → List α → List α} (hshuffle : ∀ {α : Type} (l : List α), (shuffle l).Perm l)
    {g : Circuit} {r : Node} (hL : Layered g r) {n : Node} {v : Var} {probs : List (ℤ × ℝ)} (hn : g.kind? n = some (.leaf (.integer v probs))) :
    ¬ ∃ L, fromNx env shuffle g = .ok L := by
  rintro ⟨L, h⟩
  have hni : n ∈ g.ids := mem_ids_of_kind? hn
  obtain ⟨level, hl, hnl⟩ : ∃ level ∈ g.layersFrom r, n ∈ level := by
    have := reachable_of_root hL.wf hL.graded.acyclic hL.root n hni
    obtain ⟨l, h1, h2⟩ := List.mem_flatten.1 ((mem_layersFrom_iff hL.wf hL.graded (root_mem hL.root).1).2 this)
    exact ⟨l, h1, h2⟩
  have hty : typeOf g n = .integer := by simp [typeOf, hn, unitType]
  simp only [fromNx, hL.root, bind, Except.bind] at h
  split at h
  · cases h
  split at h
  · cases h
  rename_i vs _ top htop
  obtain ⟨cs, out, hout⟩ := foldlM_ok_mem htop level (List.mem_reverse.2 hl)
  simp only [createLayers, bind, Except.bind] at hout
  split at hout
  · cases hout
  rename_i groups hgroups
  have ht : UnitType.integer ∈ shuffle (level.map (typeOf g)).dedup := by
    rw [(hshuffle _).mem_iff, List.mem_dedup]
    exact List.mem_map.2 ⟨n, hnl, hty⟩
  obtain ⟨ls, hls⟩ := mapM_ok_mem hgroups _ ht
  simp only [layersOfType, bind, Except.bind] at hls
  have hof : n ∈ level.filter fun k => (typeOf g k).isInstance .integer := List.mem_filter.2 ⟨hnl, by simp [hty, UnitType.isInstance]⟩
  have hint : ∀ k ∈ level.filter fun k => (typeOf g k).isInstance .integer, typeOf g k = .integer := by
    intro k hk
    have := (List.mem_filter.1 hk).2
    simpa [UnitType.isInstance] using this
  generalize (level.filter fun k => (typeOf g k).isInstance .integer) = units at hls hof hint
  split at hls
  · cases hls
  rename_i t hlt
  have htt : t = .integer := by
    cases level with
    | nil => simp at hnl
    | cons a as =>
      cases units with
      | nil => simp at hof
      | cons b bs =>
        simp only [layerType, hint b (by simp)] at hlt
        split at hlt
        · simpa [UnitType.isLeaf] using hlt.symm
        · exact (Except.ok.inj hlt).symm
  subst htt
  split at hls
  · cases hls
  rename_i scopes hscopes
  obtain ⟨s, hzip⟩ := mapM_zip_mem hscopes n hof
  have hsm : s ∈ shuffle scopes.dedup := by
    rw [(hshuffle _).mem_iff, List.mem_dedup]
    exact (List.of_mem_zip hzip).2
  obtain ⟨c, hc⟩ := mapM_ok_mem hls s hsm
  simp only [createLayer, inputLayer, bind, Except.bind] at hc
  split at hc
  · cases hc
  rename_i fs hfs
  obtain ⟨F, hF⟩ := mapM_ok_mem hfs n (List.mem_map.2 ⟨(n, s), List.mem_filter.2 ⟨hzip, by simp⟩, rfl⟩)
  simp [inputOf, leafOf, hn, inputNode] at hF

/-- The truncation of a truncated Gaussian distribution is lost: outside of its interval the circuit has density zero, the layers do not. -/
theorem C67_truncation_lost (env : Env) {shuffle : {α : Type} → List α → List α} (hshuffle : ∀ {α : Type} (l : List α), (shuffle l).Perm l)
    (v : Var) {I : SimpleInterval} (μ : ℝ) {σ : ℝ} (hσ : 0 < σ) (hI : I.lower < I.upper) :
    ∃ L, fromNx env shuffle ⟨[(0, .leaf (.truncGaussian v I μ σ))], []⟩ = .ok L ∧ ∀ y, ¬ I.Mem y →
      (∀ m, (Graph.logLikelihood ⟨[(0, .leaf (.truncGaussian v I μ σ))], []⟩ m fun _ => y).2 = .ok .negInf) ∧
      ∃ q, L.logLikelihood [y] = .ok [q] ∧ q ≠ .negInf := by
  refine ⟨_, fromNx_leaf env hshuffle (.truncGaussian v I μ σ) rfl, fun y hy => ⟨fun m => ?_, _, rfl, ?_⟩⟩
  · set g : Circuit := ⟨[(0, .leaf (.truncGaussian v I μ σ))], []⟩ with hg
    have hL : Layered g 0 := by
      refine ⟨⟨by simp [hg, ids], by simp [hg], by simp [hg], by simp [hg]⟩, ⟨fun _ => 0, by simp [hg]⟩, ?_, ?_, rfl⟩
      · intro n d _; rfl
      · intro n _ e he; simp [hg, outEdges] at he
    have hsc : Scoped g fun _ => {v} := Ex.scoped_of (by simp [hg, Leaf.var]) (by simp [hg]) (by simp [hg])
    obtain ⟨f, hf⟩ := exists_circuitValue hL.graded.acyclic (fun d => leafDensity d ((fun _ => y) d.var))
    obtain ⟨q, hq1, hq2, -⟩ := C01_loglikelihood hL hsc (Ex.valid_of (by simp [hg, Leaf.Valid, hσ, hI])) (fun _ => y) hf m
    rw [hf.leaf 0 _ rfl, leafDensity, if_neg hy, LogP.exp_eq_zero] at hq2
    rw [hq1, hq2]
  · rw [← LogP.exp_pos]
    refine lt_of_lt_of_eq ?_ (gaussian_layer hσ y).symm
    refine ProbabilityTheory.gaussianPDFReal_pos _ _ _ ?_
    have : 0 < (σ + 1 / 100) ^ 2 := by positivity
    simpa using this.ne'

/-! ### Where the density is positive -/

/-- No value of the row lies strictly between a closed border of a uniform distribution and the float next to it, and `jnp.nextafter` does
move the border; this holds for floats. -/
def FloatRow (env : Env) (g : Circuit) (x : Var → ℝ) : Prop :=
  ∀ n v lo hi l r, g.kind? n = some (.leaf (.uniform v lo hi l r)) →
    (l = .closed → env.below lo < lo ∧ ¬ (env.below lo < x v ∧ x v < lo)) ∧
    (r = .closed → hi < env.above hi ∧ ¬ (hi < x v ∧ x v < env.above hi))

theorem layerDensity_nonneg {env : Env} {d : Leaf} (hv : d.Valid) (hc : LayerLeaf env d) (y : ℝ) : 0 ≤ layerDensity env d y := by
  cases d with
  | uniform v lo hi l r =>
    rw [layerDensity_uniform]
    generalize (if l = .closed then env.below lo else lo) = a
    generalize (if r = .closed then env.above hi else hi) = b
    split
    · rename_i h
      exact one_div_nonneg.2 (by linarith [h.1, h.2])
    · exact le_rfl
  | gaussian v μ σ => exact ProbabilityTheory.gaussianPDFReal_nonneg _ _ _
  | truncGaussian v I μ σ => exact ProbabilityTheory.gaussianPDFReal_nonneg _ _ _
  | dirac v loc cap => exact leafDensity_nonneg hv y
  | symbolic v probs => exact leafDensity_nonneg hv y
  | integer v probs => exact absurd hc (by simp [LayerLeaf])

theorem uniform_float {env : Env} {v : Var} {lo hi : ℝ} {l r : Bound} (hlt : lo < hi) {y : ℝ}
    (hl : l = .closed → env.below lo < lo ∧ ¬ (env.below lo < y ∧ y < lo))
    (hr : r = .closed → hi < env.above hi ∧ ¬ (hi < y ∧ y < env.above hi)) :
    (layerDensity env (.uniform v lo hi l r) y = 0 ↔ leafDensity (.uniform v lo hi l r) y = 0) ∧
      layerDensity env (.uniform v lo hi l r) y ≤ leafDensity (.uniform v lo hi l r) y := by
  have hw : (0 : ℝ) < 1 / (hi - lo) := one_div_pos.2 (by linarith)
  have hmem : (SimpleInterval.mk lo hi l r).Mem y ↔
      (if l = .closed then env.below lo else lo) < y ∧ y < (if r = .closed then env.above hi else hi) := by
    cases l <;> cases r <;>
      simp [SimpleInterval.Mem, SimpleInterval.leftOK, SimpleInterval.rightOK] at hl hr ⊢
    · intro h
      exact ⟨fun h' => h'.trans_lt hr.1, fun h' => le_of_not_gt fun h'' => absurd h' (not_lt.2 (hr.2 h''))⟩
    · intro h
      exact ⟨fun h' => hl.1.trans_le h', fun h' => hl.2 h'⟩
    · constructor
      · exact fun h => ⟨hl.1.trans_le h.1, h.2.trans_lt hr.1⟩
      · exact fun h => ⟨hl.2 h.1, le_of_not_gt fun h'' => absurd h.2 (not_lt.2 (hr.2 h''))⟩
  have ha : (if l = .closed then env.below lo else lo) ≤ lo := by
    split
    · exact (hl (by assumption)).1.le
    · exact le_rfl
  have hb : hi ≤ (if r = .closed then env.above hi else hi) := by
    split
    · exact (hr (by assumption)).1.le
    · exact le_rfl
  rw [layerDensity_uniform]
  simp only [leafDensity, hmem]
  generalize (if l = .closed then env.below lo else lo) = a at ha
  generalize (if r = .closed then env.above hi else hi) = b at hb
  split
  · have h1 : 0 < b - a := by linarith
    refine ⟨⟨fun h => absurd h (one_div_pos.2 h1).ne', fun h => absurd h hw.ne'⟩, ?_⟩
    exact one_div_le_one_div_of_le (by linarith) (by linarith)
  · exact ⟨Iff.rfl, le_rfl⟩

/-- The values of a circuit under two densities of the leaves with the same zeros have the same zeros. -/
theorem value_zero_iff {g : Circuit} (hw : g.WF) (ha : g.Acyclic) {ℓ ℓ' : Leaf → ℝ} {f f' : Node → ℝ} (hf : CircuitValue g ℓ f)
    (hf' : CircuitValue g ℓ' f') (h : ∀ n d, g.kind? n = some (.leaf d) → 0 ≤ ℓ d ∧ 0 ≤ ℓ' d ∧ (ℓ' d = 0 ↔ ℓ d = 0)) :
    ∀ n, n ∈ g.ids → 0 ≤ f n ∧ 0 ≤ f' n ∧ (f' n = 0 ↔ f n = 0) := by
  refine ha.induct ?_
  intro n ih hn
  have ih' : ∀ e ∈ g.outEdges n, 0 ≤ f e.dst ∧ 0 ≤ f' e.dst ∧ (f' e.dst = 0 ↔ f e.dst = 0) := fun e he =>
    have hc : e.dst ∈ g.succ n := List.mem_map.2 ⟨e, he, rfl⟩
    ih _ hc (succ_mem_ids hw hc)
  obtain ⟨k, hk⟩ := exists_kind? hn
  cases k with
  | leaf d =>
    rw [hf.leaf n d hk, hf'.leaf n d hk]
    exact h n d hk
  | sum =>
    rw [hf.sum n hk, hf'.sum n hk]
    have zero : ∀ (F : Node → ℝ) (l : List Edge), (∀ e ∈ l, 0 ≤ F e.dst) →
        0 ≤ (l.map fun e => linWeight e * F e.dst).sum ∧
          ((l.map fun e => linWeight e * F e.dst).sum = 0 ↔ ∀ e ∈ l, linWeight e = 0 ∨ F e.dst = 0) := by
      intro F l hl
      induction l with
      | nil => simp
      | cons e l ihl =>
        obtain ⟨h1, h2⟩ := ihl fun e' he' => hl e' (by simp [he'])
        have h3 : 0 ≤ linWeight e * F e.dst := mul_nonneg (linWeight_nonneg e) (hl e (by simp))
        simp only [List.map_cons, List.sum_cons, List.forall_mem_cons]
        refine ⟨by linarith, ?_⟩
        rw [add_eq_zero_iff_of_nonneg h3 h1, h2, mul_eq_zero]
    obtain ⟨h1, h2⟩ := zero f (g.outEdges n) fun e he => (ih' e he).1
    obtain ⟨h3, h4⟩ := zero f' (g.outEdges n) fun e he => (ih' e he).2.1
    refine ⟨h1, h3, ?_⟩
    rw [h2, h4]
    exact forall₂_congr fun e he => or_congr_right (ih' e he).2.2
  | prod =>
    rw [hf.prod n hk, hf'.prod n hk]
    refine ⟨List.prod_nonneg ?_, List.prod_nonneg ?_, ?_⟩
    · intro a ha
      obtain ⟨e, he, rfl⟩ := List.mem_map.1 ha
      exact (ih' e he).1
    · intro a ha
      obtain ⟨e, he, rfl⟩ := List.mem_map.1 ha
      exact (ih' e he).2.1
    · rw [List.prod_eq_zero_iff, List.prod_eq_zero_iff, List.mem_map, List.mem_map]
      exact exists_congr fun e => and_congr_right fun he => (ih' e he).2.2

/-- A circuit whose leaves have smaller densities has smaller values. -/
theorem value_le {g : Circuit} (hw : g.WF) (ha : g.Acyclic) {ℓ ℓ' : Leaf → ℝ} {f f' : Node → ℝ} (hf : CircuitValue g ℓ f)
    (hf' : CircuitValue g ℓ' f') (h : ∀ n d, g.kind? n = some (.leaf d) → 0 ≤ ℓ' d ∧ ℓ' d ≤ ℓ d) :
    ∀ n, n ∈ g.ids → 0 ≤ f' n ∧ f' n ≤ f n := by
  refine ha.induct ?_
  intro n ih hn
  have ih' : ∀ e ∈ g.outEdges n, 0 ≤ f' e.dst ∧ f' e.dst ≤ f e.dst := fun e he =>
    have hc : e.dst ∈ g.succ n := List.mem_map.2 ⟨e, he, rfl⟩
    ih _ hc (succ_mem_ids hw hc)
  obtain ⟨k, hk⟩ := exists_kind? hn
  cases k with
  | leaf d =>
    rw [hf.leaf n d hk, hf'.leaf n d hk]
    exact h n d hk
  | sum =>
    rw [hf.sum n hk, hf'.sum n hk]
    refine ⟨List.sum_nonneg ?_, List.sum_le_sum ?_⟩
    · intro a ha
      obtain ⟨e, he, rfl⟩ := List.mem_map.1 ha
      exact mul_nonneg (linWeight_nonneg e) (ih' e he).1
    · intro e he
      exact mul_le_mul_of_nonneg_left (ih' e he).2 (linWeight_nonneg e)
  | prod =>
    rw [hf.prod n hk, hf'.prod n hk]
    revert ih'
    generalize g.outEdges n = l
    intro ih'
    induction l with
    | nil => simp
    | cons e l ihl =>
      obtain ⟨h1, h2⟩ := ihl fun e' he' => ih' e' (by simp [he'])
      obtain ⟨h3, h4⟩ := ih' e (by simp)
      simp only [List.map_cons, List.prod_cons]
      exact ⟨mul_nonneg h3 h1, mul_le_mul h4 h2 h1 (h3.trans h4)⟩

/-- Without truncated Gaussian leaves the layers have density zero exactly where the circuit has, at every row of floats: moving the borders
of closed intervals and adding to the scales adds no possible and no impossible rows.  Without Gaussian leaves the density of the layers is
never larger. -/
theorem C67_support {env : Env} {shuffle : {α : Type} → List α → List α} (hshuffle : ∀ {α : Type} (l : List α), (shuffle l).Perm l)
    {g : Circuit} {r : Node} {sc : Node → Finset Var} (hL : Layered g r) (hs : Scoped g sc) (hd : Decomposable g sc)
    (hn : NormalizedSums g) (hv : ∀ n d, g.kind? n = some (.leaf d) → d.Valid ∧ LayerLeaf env d)
    (ht : ∀ n v I μ σ, g.kind? n ≠ some (.leaf (.truncGaussian v I μ σ)))
    (hp : ∀ n, g.kind? n = some .prod → g.succ n ≠ []) (hl : ConvertibleLevels g sc (g.layersFrom r))
    (hi : InitialScopes g sc (sc r)) :
    ∃ L, fromNx env shuffle g = .ok L ∧ ∀ x, InDomain env.states g x → FloatRow env g x → ∀ m,
      ∃ q q', (g.logLikelihood m x).2 = .ok q ∧ L.logLikelihood (rowOf (sc r) x) = .ok [q'] ∧ (q' = .negInf ↔ q = .negInf) ∧
        ((∀ n v μ σ, g.kind? n ≠ some (.leaf (.gaussian v μ σ))) → q'.exp ≤ q.exp) := by
  obtain ⟨L, h1, h2⟩ := C67_converted hshuffle hL hs hd hn hv (fun _ _ _ _ _ m w I μ' σ' => ht m w I μ' σ') hp hl hi
  refine ⟨L, h1, fun x hx hfl m => ?_⟩
  obtain ⟨f, hf⟩ := exists_circuitValue hL.graded.acyclic (fun d => leafDensity d (x d.var))
  obtain ⟨f', hf'⟩ := exists_circuitValue hL.graded.acyclic (fun d => layerDensity env d (x d.var))
  obtain ⟨q, hq1, hq2, -⟩ := C01_loglikelihood hL hs (fun n d h => (hv n d h).1) x hf m
  obtain ⟨q', hq1', hq2'⟩ := h2 x hx f' hf'
  have hr := (root_mem hL.root).1
  refine ⟨q, q', hq1, hq1', ?_, fun hg => ?_⟩
  · rw [← LogP.exp_eq_zero, ← LogP.exp_eq_zero, hq2, hq2']
    refine (value_zero_iff hL.wf hL.graded.acyclic hf hf' (fun n d hk => ?_) r hr).2.2
    refine ⟨leafDensity_nonneg (hv n d hk).1 _, layerDensity_nonneg (hv n d hk).1 (hv n d hk).2 _, ?_⟩
    cases d with
    | uniform v lo hi l r => exact (uniform_float (hv n _ hk).1 (hfl n v lo hi l r hk).1 (hfl n v lo hi l r hk).2).1
    | dirac v loc cap => exact Iff.rfl
    | symbolic v probs => exact Iff.rfl
    | integer v probs => exact absurd (hv n _ hk).2 (by simp [LayerLeaf])
    | gaussian v μ σ =>
      have hσ : 0 < σ := (hv n _ hk).1
      have h1 : Real.toNNReal ((σ + 1 / 100) ^ 2) ≠ 0 := by
        have : 0 < (σ + 1 / 100) ^ 2 := by positivity
        simpa using this.ne'
      have h2 : Real.toNNReal (σ ^ 2) ≠ 0 := by
        have : 0 < σ ^ 2 := by positivity
        simpa using this.ne'
      exact iff_of_false (ProbabilityTheory.gaussianPDFReal_pos _ _ _ h1).ne' (ProbabilityTheory.gaussianPDFReal_pos _ _ _ h2).ne'
    | truncGaussian v I μ σ => exact absurd hk (ht n v I μ σ)
  · rw [hq2, hq2']
    refine (value_le hL.wf hL.graded.acyclic hf hf' (fun n d hk => ?_) r hr).2
    refine ⟨layerDensity_nonneg (hv n d hk).1 (hv n d hk).2 _, ?_⟩
    cases d with
    | uniform v lo hi l r => exact (uniform_float (hv n _ hk).1 (hfl n v lo hi l r hk).1 (hfl n v lo hi l r hk).2).2
    | dirac v loc cap => exact le_rfl
    | symbolic v probs => exact le_rfl
    | integer v probs => exact absurd (hv n _ hk).2 (by simp [LayerLeaf])
    | gaussian v μ σ => exact absurd hk (hg n v μ σ)
    | truncGaussian v I μ σ => exact absurd hk (ht n v I μ σ)

/-- A mixture of a uniform distribution on a closed interval and a Gaussian distribution. -/
noncomputable def boxBell : Circuit :=
  ⟨[(0, .sum), (1, .leaf (.uniform 0 0 1 .closed .closed)), (2, .leaf (.gaussian 0 0 1))],
   [⟨0, 1, Ex.lw (1 / 2)⟩, ⟨0, 2, Ex.lw (1 / 2)⟩]⟩

/-- The hypotheses of `C67_converted` and `C67_support` are met by `boxBell`, and at the border of the interval. -/
example : let env : Env := ⟨fun y => y - 1 / 1000, fun y => y + 1 / 1000, fun _ => 0⟩
    Layered boxBell 0 ∧ Scoped boxBell (fun _ => {0}) ∧ Decomposable boxBell (fun _ => {0}) ∧ NormalizedSums boxBell ∧
    (∀ n d, boxBell.kind? n = some (.leaf d) → d.Valid ∧ LayerLeaf env d) ∧
    (∀ n v I μ σ, boxBell.kind? n ≠ some (.leaf (.truncGaussian v I μ σ))) ∧
    (∀ n, boxBell.kind? n = some .prod → boxBell.succ n ≠ []) ∧
    ConvertibleLevels boxBell (fun _ => {0}) (boxBell.layersFrom 0) ∧ InitialScopes boxBell (fun _ => {0}) {0} ∧
    InDomain env.states boxBell (fun _ => 1) ∧ FloatRow env boxBell (fun _ => 1) := by
  intro env
  have hk : ∀ {n k}, boxBell.kind? n = some k → (n, k) ∈ boxBell.nodes := fun {n k} h =>
    Ex.forall_kind (g := boxBell) (P := fun n k => (n, k) ∈ boxBell.nodes) (fun _ h => h) n k h
  have k0 : boxBell.kind? 0 = some .sum := rfl
  have s0 : boxBell.succ 0 = [1, 2] := rfl
  have hlev : boxBell.layersFrom 0 = [[0], [1, 2]] := rfl
  have noProd : ∀ n, boxBell.kind? n ≠ some .prod := fun n h => by simpa [boxBell] using hk h
  have sums : ∀ n, boxBell.kind? n = some .sum → n = 0 := fun n h => by simpa [boxBell] using hk h
  refine ⟨⟨⟨by simp [boxBell, ids], by simp [boxBell], by simp [boxBell, ids], by simp [boxBell, ids]⟩,
      ⟨fun n => if n = 0 then 0 else 1, by simp [boxBell]⟩, Ex.leafTerminal_of (by simp [boxBell, succ, outEdges]),
      Ex.weighted_of (by simp [boxBell, outEdges, Ex.lw]), rfl⟩,
    Ex.scoped_of (by simp [boxBell, Leaf.var]) (by simp [boxBell, succ, outEdges]) (by simp [boxBell]), Ex.decomposable_of (by simp [boxBell]),
    Ex.normalized_of ?_, ?_, ?_, fun n h => absurd h (noProd n), ?_, ⟨fun n _ => Or.inl rfl, fun n h => absurd h (noProd n)⟩, ?_, ?_⟩
  · have e : ((boxBell.outEdges 0).map linWeight).sum = 1 := by
      have : boxBell.outEdges 0 = [⟨0, 1, Ex.lw (1 / 2)⟩, ⟨0, 2, Ex.lw (1 / 2)⟩] := rfl
      simp only [this, List.map_cons, List.map_nil, List.sum_cons, List.sum_nil]
      rw [Ex.linWeight_lw (by norm_num), Ex.linWeight_lw (by norm_num)]
      norm_num
    intro p hp hpk
    simp only [boxBell, List.mem_cons, List.not_mem_nil, or_false] at hp
    rcases hp with rfl | rfl | rfl
    · exact e
    · simp at hpk
    · simp at hpk
  · intro n d h
    have := hk h
    simp only [boxBell, List.mem_cons, Prod.mk.injEq, reduceCtorEq, and_false, false_or, List.not_mem_nil, or_false, Kind.leaf.injEq] at this
    rcases this with ⟨-, rfl⟩ | ⟨-, rfl⟩ <;> norm_num [Leaf.Valid, LayerLeaf, env]
  · intro n v I μ σ h
    simpa [boxBell] using hk h
  · rw [hlev]
    refine ⟨⟨by decide, fun p _ h => absurd h (noProd p), fun p _ h => absurd h (noProd p), by simp, ?_⟩,
      ⟨by decide, fun p _ h => absurd h (noProd p), fun p _ h => absurd h (noProd p), by simp, ?_⟩, trivial⟩
    · intro s _ _ c hc _
      exact ⟨0, by simp, k0, by simpa [s0] using hc⟩
    · intro s hs h
      have := sums s h
      subst this
      simp at hs
  · intro n v probs h
    have := hk h
    simp [boxBell] at this
  · intro n v lo hi l r h
    have := hk h
    simp only [boxBell, List.mem_cons, Prod.mk.injEq, reduceCtorEq, and_false, false_or, List.not_mem_nil, or_false, Kind.leaf.injEq,
      Leaf.uniform.injEq] at this
    obtain ⟨-, -, rfl, rfl, rfl, rfl⟩ := this
    norm_num [env]

end PM.Props
