import Verif.Circuit.MomentValue
import Verif.Spec.Evidence
import Verif.Dist.MomentLemmas
import Verif.Circuit.ProbLemmas
import Verif.Circuit.BatchLemmas

/-! Helper lemmas: moments of a variable that has finitely many values. -/

namespace PM
open Spec Graph MeasureTheory Classical

variable {g : Circuit} {r : Node} {sc : Node → Finset Var}

/-- Values of a circuit depend linearly on the values of the leaves over one variable. -/
theorem linear_value (hw : g.WF) (ha : g.Acyclic) (hs : Scoped g sc) (hdec : Decomposable g sc) (hsn : NormalizedSums g) {v : Var} {K : Finset ℝ}
    {a : ℝ → ℝ} {x : Leaf → ℝ} {ℓ : ℝ → Leaf → ℝ} {M : Node → ℝ} {F : ℝ → Node → ℝ} (hM : CircuitValue g x M)
    (hF : ∀ k, CircuitValue g (ℓ k) (F k)) (hx1 : ∀ n d, g.kind? n = some (.leaf d) → d.var ≠ v → x d = 1)
    (hℓ1 : ∀ k n d, g.kind? n = some (.leaf d) → d.var ≠ v → ℓ k d = 1)
    (hx : ∀ n d, g.kind? n = some (.leaf d) → d.var = v → x d = ∑ k ∈ K, a k * ℓ k d) :
    ∀ n, n ∈ g.ids → v ∈ sc n → M n = ∑ k ∈ K, a k * F k n := by
  refine ha.induct ?_
  intro n ih hn hv
  obtain ⟨t, hk⟩ := exists_kind? hn
  have hch : ∀ e ∈ g.outEdges n, v ∈ sc e.dst → M e.dst = ∑ k ∈ K, a k * F k e.dst := fun e he =>
    ih _ (dst_mem_succ he) (succ_mem_ids hw (dst_mem_succ he))
  have hmem : ∀ e ∈ g.outEdges n, e.dst ∈ g.ids := fun e he => succ_mem_ids hw (dst_mem_succ he)
  cases t with
  | leaf d =>
    rw [hs.leaf n d hk, Finset.mem_singleton] at hv
    rw [hM.leaf n d hk, hx n d hk hv.symm]
    exact Finset.sum_congr rfl fun k _ => by rw [(hF k).leaf n d hk]
  | sum =>
    rw [hM.sum n hk]
    have h1 : ((g.outEdges n).map fun e => linWeight e * M e.dst)
        = (g.outEdges n).map fun e => ∑ k ∈ K, linWeight e * (a k * F k e.dst) := List.map_congr_left fun e he => by
      rw [hch e he (by rwa [hs.sum n hk _ (dst_mem_succ he)]), Finset.mul_sum]
    rw [h1]
    have h2 : ∀ es : List Edge, (es.map fun e => ∑ k ∈ K, linWeight e * (a k * F k e.dst)).sum
        = ∑ k ∈ K, a k * (es.map fun e => linWeight e * F k e.dst).sum := by
      intro es
      induction es with
      | nil => simp
      | cons e es ih =>
        simp only [List.map_cons, List.sum_cons, ih, ← Finset.sum_add_distrib]
        exact Finset.sum_congr rfl fun k _ => by ring
    rw [h2]
    exact Finset.sum_congr rfl fun k _ => by rw [(hF k).sum n hk]
  | prod =>
    obtain ⟨c, hc, hvc⟩ := (hs.prod n hk v).1 hv
    obtain ⟨e, he, rfl⟩ : ∃ e ∈ g.outEdges n, e.dst = c := by simpa [succ, List.mem_map] using hc
    have hd : ((g.outEdges n).map Edge.dst).Pairwise fun a b => Disjoint (sc a) (sc b) := hdec n hk
    rw [hM.prod n hk, prod_single_real _ hd M (fun e he h => value_one_off hw ha hs hsn hM hx1 _ (hmem e he) h) e he hvc, hch e he hvc]
    refine Finset.sum_congr rfl fun k _ => ?_
    rw [(hF k).prod n hk, prod_single_real _ hd (F k) (fun e he h => value_one_off hw ha hs hsn (hF k) (hℓ1 k) _ (hmem e he) h) e he hvc]

/-- The event that `v` has the value `k`. -/
def atPoint (v : Var) (k : ℝ) : SimpleEvent := [(v, .interval [⟨k, k, .closed, .closed⟩])]

theorem allowed_atPoint (v : Var) (k : ℝ) : allowed (atPoint v k) v = {k} := by
  ext t
  simp only [allowed, atPoint, List.mem_singleton, forall_eq, true_implies, VSet.Mem, exists_eq_left, SimpleInterval.Mem,
    SimpleInterval.leftOK, SimpleInterval.rightOK, Set.mem_ofPred_eq, Set.mem_singleton_iff, EReal.coe_le_coe_iff]
  exact ⟨fun h => le_antisymm h.2 h.1, fun h => ⟨h.ge, h.le⟩⟩

theorem allowed_atPoint_ne {v w : Var} (h : w ≠ v) (k : ℝ) : allowed (atPoint v k) w = Set.univ := by
  ext t
  simp only [allowed, atPoint, List.mem_singleton, forall_eq, Set.mem_ofPred_eq, Set.mem_univ, iff_true]
  exact fun h' => absurd h'.symm h

theorem integral_finite {μ : Measure ℝ} {K : Finset ℝ} (hK : μ (↑K : Set ℝ)ᶜ = 0) {f : ℝ → ℝ} (hf : Integrable f μ) :
    ∫ t, f t ∂μ = ∑ k ∈ K, f k * μ.real {k} := by
  have h1 : μ.restrict (↑K : Set ℝ) = μ := Measure.restrict_eq_self_of_ae_mem (by rwa [ae_iff])
  have h2 := setIntegral_finset K hf.integrableOn
  rw [h1] at h2
  rw [h2]
  exact Finset.sum_congr rfl fun k _ => by rw [smul_eq_mul, mul_comm]

/-- The moments of a variable with the values `K` are sums over `K`. -/
theorem finite_moment {dom : Var → VSet} (hM : EvidenceModel g r sc dom) (hnum : ∀ n d, g.kind? n = some (.leaf d) → ∀ v p, d ≠ .symbolic v p)
    {v : Var} (hv : v ∈ sc r) {K : Finset ℝ} (hK : ∀ n d, g.kind? n = some (.leaf d) → d.var = v → leafLaw d (↑K : Set ℝ)ᶜ = 0)
    {order : Var → Option ℕ} {center : Var → Option ℝ} {k : Var → ℕ} {c : Var → ℝ} (hord : ∀ w ∈ sc r, order w = some (k w))
    (hcen : ∀ w ∈ sc r, center w = some (c w)) {p : ℝ → ℝ} (hev : ∀ t, EventFor g (sc r) (atPoint v t))
    (hp : ∀ t, ∃ m, (g.probability m dom [atPoint v t]).2 = .ok (p t)) (m : Mem (Var → ℝ)) :
    ∃ res, (g.moment m order center).2 = .ok res ∧ (∀ w, res w = none ↔ w ∉ sc r) ∧ res v = some (∑ t ∈ K, (t - c v) ^ k v * p t) := by
  have hL := hM.layered
  have hmom : ∀ n d, g.kind? n = some (.leaf d) → Integrable (fun t : ℝ => (t - c d.var) ^ k d.var) (leafLaw d) ∧
      d.momentMap order center = .ok (∫ t, (t - c d.var) ^ k d.var ∂leafLaw d) := by
    intro n d hk
    have hw := leaf_var_mem hL hM.smooth hk
    obtain ⟨h1, h2⟩ := leaf_moment (hM.valid n d hk) (hnum n d hk) (k d.var) (c d.var) fun v l c h => absurd h (hM.noDirac n d hk v l c)
    refine ⟨h1, ?_⟩
    rw [← h2]
    have ho := hord _ hw
    have hc := hcen _ hw
    have hns := hnum n d hk
    clear h1 h2 hk hw
    cases d with
    | symbolic v p => exact absurd rfl (hns v p)
    | _ => simp only [Leaf.momentMap, ho, hc]
  choose F hF using fun w => exists_circuitValue (g := g) hL.graded.acyclic
    (fun d : Leaf => if d.var = w then ∫ t, (t - c d.var) ^ k d.var ∂leafLaw d else 1)
  choose P hP using fun t => exists_circuitValue (g := g) hL.graded.acyclic
    (fun d : Leaf => (leafLaw d).real (allowed (atPoint v t) d.var))
  refine ⟨_, moment_value hL hM.smooth hM.decomposable hM.normalized (x := fun d => ∫ t, (t - c d.var) ^ k d.var ∂leafLaw d)
    (fun n d hk => (hmom n d hk).2) hF m, fun w => by by_cases h : w ∈ sc r <;> simp [h], ?_⟩
  rw [if_pos hv]
  congr 1
  rw [linear_value hL.wf hL.graded.acyclic hM.smooth hM.decomposable hM.normalized (K := K) (a := fun t => (t - c v) ^ k v) (hF v) hP
    (fun n d _ hd => if_neg hd) (fun t n d hk hd => ?_) (fun n d hk hd => ?_) r (root_mem hL.root).1 hv]
  · refine Finset.sum_congr rfl fun t _ => ?_
    obtain ⟨m', hm'⟩ := hp t
    rw [probability_eq hL hM.smooth hM.valid hM.domain (by simpa using hev t) (p := fun _ => P t) (by simpa using hP t)] at hm'
    have := Except.ok.inj hm'
    simp only [List.map_cons, List.map_nil, List.sum_cons, List.sum_nil, add_zero] at this
    rw [this]
  · rw [allowed_atPoint_ne hd, measureReal_def, leafLaw_univ (hM.valid n d hk) (hM.leaves n d hk)]
    rfl
  · rw [if_pos hd, integral_finite (hK n d hk hd) (hmom n d hk).1, hd]
    exact Finset.sum_congr rfl fun t _ => by rw [allowed_atPoint]

end PM
