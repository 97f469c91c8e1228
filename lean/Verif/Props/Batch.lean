import Verif.Circuit.BatchLemmas
import Verif.Circuit.CondReady
import Verif.Props.Probability
import Verif.Props.Support

/-!
# C100, C101: arrays of events, and cumulative distributions

`rowPoint (sc r) row` is the assignment a row stands for: the columns are the variables in increasing order.
-/

namespace PM.Props

open Spec Graph MeasureTheory Classical
open scoped ENNReal

variable {g : Circuit} {r : Node} {sc : Node → Finset Var}

/-! ### C100 -/

/-- The array query, for the values of the single rows. -/
theorem logLikelihoodBatch_eq (hL : Layered g r) (hs : Scoped g sc) (hp : ProductsNonempty g) {T : EventTable}
    (hc : (sc r).card ≤ T.columns) {f : List ℝ → Node → ℝ}
    (hf : ∀ row, CircuitValue g (fun d => (d.logLik (rowPoint (sc r) row d.var)).exp) (f row)) (m : Mem (List LogP)) :
    (g.logLikelihoodBatch m T).2 = .ok (T.rows.map fun row => LogP.log (f row r)) := by
  have hA : ∀ row, g.Meaning (logLikAlg (sc r) (rowPoint (sc r) row)) r (fun n => LogP.log (f row n)) :=
    fun row => logLik_meaning hL hs _ (hf row)
  simp only [logLikelihoodBatch, circuitVars_eq hL.wf hL.graded.acyclic hs hL.root]
  refine (query_eq_meaning hL.wf hL.graded hL.root
    (val := fun n => T.rows.map fun row => LogP.log (f row n)) ?_ m).1
  intro n hn
  refine batch_meaning hL hs hp (A := fun row => logLikAlg (sc r) (rowPoint (sc r) row)) (fun row _ => hA row) ?_ ?_ n hn ?_
  · intro row l s h
    simp only [logLikAlg] at h
    split at h
    · cases h
    · injection h
  · intro row l s h
    simp only [logLikAlg] at h
    injection h
  · intro d hk
    have hd := leaf_var_mem hL hs hk
    rw [batch_leaf hd (lt_of_lt_of_le (rank_lt hd) hc), logLikBatch_eq, List.map_map]
    congr 1
    apply List.map_congr_left
    intro row _
    have h1 := hA row n hn
    simp only [evalUnit, hk, logLikAlg, if_pos hd] at h1
    injection h1

/-- **C100.** On an array of events `log_likelihood` returns one entry per row, and the entry is what `log_likelihood`
returns for this row alone, whatever the other rows are and whatever was asked before. -/
theorem C100_row_by_row (hL : Layered g r) (hs : Scoped g sc) (hp : ProductsNonempty g) {T : EventTable}
    (hc : (sc r).card ≤ T.columns) (m : Mem (List LogP)) :
    ∃ ls, (g.logLikelihoodBatch m T).2 = .ok ls ∧
      List.Forall₂ (fun row L => ∀ m', (g.logLikelihood m' (rowPoint (sc r) row)).2 = .ok L) T.rows ls := by
  choose f hf using fun row => exists_circuitValue hL.graded.acyclic
    (fun d : Leaf => (d.logLik (rowPoint (sc r) row d.var)).exp)
  refine ⟨_, logLikelihoodBatch_eq hL hs hp hc hf m, ?_⟩
  rw [List.forall₂_map_right_iff]
  refine List.forall₂_same.2 fun row _ m' => ?_
  simp only [logLikelihood, circuitVars_eq hL.wf hL.graded.acyclic hs hL.root]
  exact (query_eq_meaning hL.wf hL.graded hL.root (logLik_meaning hL hs _ (hf row)) m').1

/-- **C100.** On an array of events `likelihood` returns one entry per row: the value of the circuit's formula (weighted
sums and products of the leaf densities) at the row. -/
theorem C100_likelihood (hL : Layered g r) (hs : Scoped g sc) (hp : ProductsNonempty g)
    (hv : ∀ n d, g.kind? n = some (.leaf d) → d.Valid) {T : EventTable} (hc : (sc r).card ≤ T.columns) {f : List ℝ → Node → ℝ}
    (hf : ∀ row, CircuitValue g (fun d => leafDensity d (rowPoint (sc r) row d.var)) (f row)) (m : Mem (List LogP)) :
    g.likelihoodBatch m T = .ok (T.rows.map fun row => f row r) := by
  have hf' : ∀ row, CircuitValue g (fun d => (d.logLik (rowPoint (sc r) row d.var)).exp) (f row) := fun row =>
    ⟨fun n d h => by rw [(hf row).leaf n d h, exp_logLik (hv n d h)], (hf row).sum, (hf row).prod⟩
  rw [likelihoodBatch, logLikelihoodBatch_eq hL hs hp hc hf' m]
  simp only [Except.map, List.map_map]
  congr 1
  apply List.map_congr_left
  intro row _
  exact LogP.exp_log (circuitValue_nonneg hL.wf hL.graded.acyclic (hf' row) (fun n d _ => LogP.exp_nonneg _) r
    (root_mem hL.root).1)

/-- **C100.** Two arrays one after the other or stacked: the same answers. -/
theorem C100_stacked (hL : Layered g r) (hs : Scoped g sc) (hp : ProductsNonempty g) {columns : Nat}
    (hc : (sc r).card ≤ columns) (rows rows' : List (List ℝ)) (m m₁ m₂ : Mem (List LogP)) :
    ∃ ls ls', (g.logLikelihoodBatch m₁ ⟨columns, rows⟩).2 = .ok ls ∧ (g.logLikelihoodBatch m₂ ⟨columns, rows'⟩).2 = .ok ls' ∧
      (g.logLikelihoodBatch m ⟨columns, rows ++ rows'⟩).2 = .ok (ls ++ ls') := by
  choose f hf using fun row => exists_circuitValue hL.graded.acyclic
    (fun d : Leaf => (d.logLik (rowPoint (sc r) row d.var)).exp)
  refine ⟨_, _, logLikelihoodBatch_eq hL hs hp (T := ⟨columns, rows⟩) hc hf m₁,
    logLikelihoodBatch_eq hL hs hp (T := ⟨columns, rows'⟩) hc hf m₂, ?_⟩
  rw [logLikelihoodBatch_eq hL hs hp (T := ⟨columns, rows ++ rows'⟩) hc hf m, List.map_append]

theorem exists_last_variable {s : Finset Var} {k : Nat} (h : k < s.card) : ∃ v ∈ s, k ≤ (s.filter (· < v)).card := by
  have hne : s.Nonempty := Finset.card_pos.1 (by omega)
  refine ⟨s.max' hne, s.max'_mem hne, ?_⟩
  have : s.filter (· < s.max' hne) = s.erase (s.max' hne) := by
    ext x
    simp only [Finset.mem_filter, Finset.mem_erase]
    constructor
    · rintro ⟨h1, h2⟩; exact ⟨h2.ne, h1⟩
    · rintro ⟨h1, h2⟩; exact ⟨h2, lt_of_le_of_ne (s.le_max' x h2) h1⟩
  rw [this, Finset.card_erase_of_mem (s.max'_mem hne)]
  omega

/-- **C100.** An array with too few columns is rejected with an `IndexError`, even if it has no rows. -/
theorem C100_missing_column (hL : Layered g r) (hs : Scoped g sc) (hp : ProductsNonempty g) {T : EventTable}
    (hc : T.columns < (sc r).card) (m : Mem (List LogP)) : (g.logLikelihoodBatch m T).2 = .error .indexError := by
  choose f hf using fun row => exists_circuitValue hL.graded.acyclic
    (fun d : Leaf => (d.logLik (rowPoint (sc r) row d.var)).exp)
  have hA : ∀ row, g.Meaning (logLikAlg (sc r) (rowPoint (sc r) row)) r (fun n => LogP.log (f row n)) :=
    fun row => logLik_meaning hL hs _ (hf row)
  obtain ⟨v, hvm, hvr⟩ := exists_last_variable hc
  obtain ⟨n₀, d₀, hk₀, rfl⟩ := exists_leaf_var hL hs hvm
  simp only [logLikelihoodBatch, circuitVars_eq hL.wf hL.graded.acyclic hs hL.root]
  refine query_error_of_unit hL.wf hL.graded hL.root (val := fun n => T.rows.map fun row => LogP.log (f row n)) ?_
    ⟨n₀, reachable_of_root hL.wf hL.graded.acyclic hL.root n₀ (mem_ids_of_kind? hk₀), ?_⟩ m
  · intro n hn
    by_cases hbad : ∃ d, g.kind? n = some (.leaf d) ∧ T.columns ≤ ((sc r).filter (· < d.var)).card
    · obtain ⟨d, hk, hd⟩ := hbad
      right
      simp only [evalUnit, hk]
      exact batch_leaf_error (leaf_var_mem hL hs hk) hd
    · left
      refine batch_meaning hL hs hp (A := fun row => logLikAlg (sc r) (rowPoint (sc r) row)) (fun row _ => hA row) ?_ ?_ n
        hn ?_
      · intro row l s h
        simp only [logLikAlg] at h
        split at h
        · cases h
        · injection h
      · intro row l s h
        simp only [logLikAlg] at h
        injection h
      · intro d hk
        have hd := leaf_var_mem hL hs hk
        rw [batch_leaf hd (not_le.1 fun h => hbad ⟨d, hk, h⟩), logLikBatch_eq, List.map_map]
        congr 1
        apply List.map_congr_left
        intro row _
        have h1 := hA row n hn
        simp only [evalUnit, hk, logLikAlg, if_pos hd] at h1
        injection h1
  · simp only [evalUnit, hk₀]
    exact batch_leaf_error (leaf_var_mem hL hs hk₀) hvr

/-- Three events for the example circuit, whose first two columns are its variables. -/
example : ∃ ls, (Ex.dag.logLikelihoodBatch freshMem ⟨3, [[1 / 2, 1, 7], [1 / 2, 3, 8], [2, 3, 9]]⟩).2 = .ok ls ∧
    ls.length = 3 := by
  obtain ⟨ls, h, h2⟩ := C100_row_by_row Ex.dag_layered Ex.dag_scoped dag_products
    (T := ⟨3, [[1 / 2, 1, 7], [1 / 2, 3, 8], [2, 3, 9]]⟩) (by simp [Ex.dagScope]) freshMem
  exact ⟨ls, h, h2.length_eq.symm⟩

example : (Ex.dag.logLikelihoodBatch freshMem ⟨1, [[1 / 2]]⟩).2 = .error .indexError :=
  C100_missing_column Ex.dag_layered Ex.dag_scoped dag_products (by simp [Ex.dagScope]) freshMem

/-! ### C101 -/

/-- The property: for numeric circuits `cdf` returns, for every row, the probability of the event that every variable is
at most its value in the row. -/
def C101_full : Prop :=
  ∀ (g : Circuit) (r : Node) (sc : Node → Finset Var), Layered g r → Scoped g sc → ProductsNonempty g →
    (∀ n d, g.kind? n = some (.leaf d) → d.Valid) → (∀ n d, g.kind? n = some (.leaf d) → Numeric d) →
    ∀ (dom : Var → VSet), DomainFor g dom → ∀ (T : EventTable), (sc r).card ≤ T.columns → ∀ (m : Mem (List ℝ)),
      ∃ ps, (g.cdfBatch m T).2 = .ok ps ∧
        List.Forall₂ (fun row p => ∀ m', (g.probability m' dom [lowerOrthant (sc r) (rowPoint (sc r) row)]).2 = .ok p)
          T.rows ps

theorem cdfBatch_meaning (hL : Layered g r) (hs : Scoped g sc) (hp : ProductsNonempty g) {T : EventTable}
    (hc : (sc r).card ≤ T.columns) {F : Leaf → ℝ → ℝ} {f : List ℝ → Node → ℝ}
    (hf : ∀ row, CircuitValue g (fun d => F d (rowPoint (sc r) row d.var)) (f row)) (n : Node) (hn : g.Reachable r n)
    (hF : ∀ d, g.kind? n = some (.leaf d) → d.cdfBatch (T.rows.map fun row => rowPoint (sc r) row d.var)
      = .ok ((T.rows.map fun row => rowPoint (sc r) row d.var).map (F d))) :
    g.evalUnit (batchAlg (sc r) T Leaf.cdfBatch (fun l => (l.map fun wv => wv.1.exp * wv.2).sum) List.prod)
      (fun c => some (T.rows.map fun row => f row c)) n = .ok (T.rows.map fun row => f row n) := by
  refine batch_meaning hL hs hp (A := fun row => forwardAlg fun d => .ok (F d (rowPoint (sc r) row d.var)))
    (fun row _ => forward_meaning hL (fun _ _ _ => rfl) (hf row)) ?_ ?_ n hn ?_
  · intro row l s h
    simp only [forwardAlg] at h
    injection h
  · intro row l s h
    simp only [forwardAlg] at h
    injection h
  · intro d hk
    have hd := leaf_var_mem hL hs hk
    rw [batch_leaf hd (lt_of_lt_of_le (rank_lt hd) hc), hF d hk, List.map_map]
    congr 1
    apply List.map_congr_left
    intro row _
    exact ((hf row).leaf n d hk).symm

theorem keysIncreasing_integer {d : Leaf} (h : KeysIncreasing d) :
    ∀ v probs, d = .integer v probs → (probs.map Prod.fst).Pairwise (· < ·) := by
  rintro v probs rfl
  exact h

/-- **C101** for integer distributions with increasing keys and arrays with at least one row.  Missing from the full
property: other key orders (for which it is false, see below) and, for circuits with integer leaves, empty arrays. -/
theorem C101_cdf_partial (hL : Layered g r) (hs : Scoped g sc) (hp : ProductsNonempty g)
    (hv : ∀ n d, g.kind? n = some (.leaf d) → d.Valid) (hn : ∀ n d, g.kind? n = some (.leaf d) → Numeric d)
    (hk : ∀ n d, g.kind? n = some (.leaf d) → KeysIncreasing d) {dom : Var → VSet} (hdom : DomainFor g dom)
    {T : EventTable} (hT : T.rows ≠ []) (hc : (sc r).card ≤ T.columns) (m : Mem (List ℝ)) :
    ∃ ps, (g.cdfBatch m T).2 = .ok ps ∧
      List.Forall₂ (fun row p => ∀ m', (g.probability m' dom [lowerOrthant (sc r) (rowPoint (sc r) row)]).2 = .ok p)
        T.rows ps := by
  choose f hf using fun row => exists_circuitValue hL.graded.acyclic
    (fun d : Leaf => (leafLaw d).real (Set.Iic (rowPoint (sc r) row d.var)))
  refine ⟨T.rows.map fun row => f row r, ?_, ?_⟩
  · simp only [Graph.cdfBatch, circuitVars_eq hL.wf hL.graded.acyclic hs hL.root]
    refine (query_eq_meaning hL.wf hL.graded hL.root (val := fun n => T.rows.map fun row => f row n) ?_ m).1
    intro n hn'
    refine cdfBatch_meaning hL hs hp hc (F := fun d x => (leafLaw d).real (Set.Iic x)) hf n hn' ?_
    intro d hkd
    exact cdfBatch_eq (keysIncreasing_integer (hk n d hkd)) (leaf_cdf_eq (hv n d hkd) (hn n d hkd) (hk n d hkd))
      (by simpa using hT)
  · rw [List.forall₂_map_right_iff]
    refine List.forall₂_same.2 fun row _ m' => ?_
    have hE : ∀ E ∈ [lowerOrthant (sc r) (rowPoint (sc r) row)], EventFor g (sc r) E := by
      intro E hE
      rw [List.mem_singleton] at hE
      subst hE
      exact lowerOrthant_eventFor hn _
    have := probability_eq hL hs hv hdom hE (p := fun _ => f row) (fun E hE' => by
      rw [List.mem_singleton] at hE'
      subst hE'
      refine ⟨fun n d h => ?_, (hf row).sum, (hf row).prod⟩
      rw [allowed_lowerOrthant (leaf_var_mem hL hs h)]
      exact (hf row).leaf n d h) m'
    simpa using this

/-- **C101**, as an integral: the entry of a row is the integral of the likelihood over the points that are at most the row
in every variable. -/
theorem C101_integral_partial (hL : Layered g r) (hs : Scoped g sc) (hdec : Decomposable g sc) (hp : ProductsNonempty g)
    (hv : ∀ n d, g.kind? n = some (.leaf d) → d.Valid) (hn : ∀ n d, g.kind? n = some (.leaf d) → Numeric d)
    (hk : ∀ n d, g.kind? n = some (.leaf d) → KeysIncreasing d) {cont : Var → Bool}
    (hb : ∀ n d, g.kind? n = some (.leaf d) → HasBase cont d) {dom : Var → VSet} (hdom : DomainFor g dom)
    {lik : (Var → ℝ) → ℝ} (hlik : ∀ x, g.likelihood freshMem x = .ok (lik x)) {T : EventTable} (hT : T.rows ≠ [])
    (hc : (sc r).card ≤ T.columns) (m : Mem (List ℝ)) :
    ∃ ps, (g.cdfBatch m T).2 = .ok ps ∧ List.Forall₂ (fun row p => 0 ≤ p ∧
      ENNReal.ofReal p = integralOver (baseMeasure cont) (sc r) (fun x =>
        if ∀ v ∈ sc r, x v ≤ rowPoint (sc r) row v then ENNReal.ofReal (lik x) else 0)) T.rows ps := by
  obtain ⟨ps, h1, h2⟩ := C101_cdf_partial hL hs hp hv hn hk hdom hT hc m
  refine ⟨ps, h1, h2.imp fun row p h => ?_⟩
  obtain ⟨q, hq0, hq, hqi⟩ := C04_probability_is_integral hL hs hdec hv hb hdom
    (Es := [lowerOrthant (sc r) (rowPoint (sc r) row)]) (by
      intro E hE
      rw [List.mem_singleton] at hE
      subst hE
      exact lowerOrthant_eventFor hn _) (List.pairwise_singleton _ _) hlik freshMem
  rw [h freshMem] at hq
  injection hq with hq
  subst hq
  refine ⟨hq0, ?_⟩
  rw [hqi]
  congr 1
  funext x
  simp only [List.mem_singleton, exists_eq_left, mem_lowerOrthant]

/-- **C101.** Values of `cdf` are probabilities, and `cdf` is monotone: a row that is at least another row in every
variable has at least its value. -/
theorem C101_monotone_partial (hL : Layered g r) (hs : Scoped g sc) (hdec : Decomposable g sc) (hp : ProductsNonempty g)
    (hv : ∀ n d, g.kind? n = some (.leaf d) → d.Valid) (hn : ∀ n d, g.kind? n = some (.leaf d) → Numeric d)
    (hk : ∀ n d, g.kind? n = some (.leaf d) → KeysIncreasing d) (hln : ∀ n d, g.kind? n = some (.leaf d) → d.Normalized)
    (hsn : NormalizedSums g) {dom : Var → VSet} (hdom : DomainFor g dom) {T : EventTable} (hT : T.rows ≠ [])
    (hc : (sc r).card ≤ T.columns) (m : Mem (List ℝ)) :
    ∃ F : List ℝ → ℝ, (g.cdfBatch m T).2 = .ok (T.rows.map F) ∧ (∀ row ∈ T.rows, 0 ≤ F row ∧ F row ≤ 1) ∧
      ∀ row ∈ T.rows, ∀ row' ∈ T.rows, (∀ v ∈ sc r, rowPoint (sc r) row v ≤ rowPoint (sc r) row' v) →
        F row ≤ F row' := by
  have hE : ∀ row : List ℝ, ∀ E ∈ [lowerOrthant (sc r) (rowPoint (sc r) row)], EventFor g (sc r) E := by
    intro row E hE
    rw [List.mem_singleton] at hE
    subst hE
    exact lowerOrthant_eventFor hn _
  choose F hF using fun row : List ℝ => C05_bounds hL hs hdec hv hln hsn hdom (hE row) (List.pairwise_singleton _ _) freshMem
  obtain ⟨ps, h1, h2⟩ := C101_cdf_partial hL hs hp hv hn hk hdom hT hc m
  refine ⟨F, ?_, fun row _ => (hF row).2, fun row _ row' _ hle => ?_⟩
  · rw [h1]
    congr 1
    have h3 : List.Forall₂ (fun row p => p = F row) T.rows ps := h2.imp fun row p h => by
      have := h freshMem
      rw [(hF row).1] at this
      injection this with this
      exact this.symm
    clear h1 h2 hT
    revert h3
    generalize T.rows = rows
    intro h3
    induction h3 with
    | nil => rfl
    | cons h _ ih => rw [h, ih, List.map_cons]
  · obtain ⟨p, q, hp', hq, hpq⟩ := C05_monotone hL hs hdec hv hdom (hE row) (hE row') (List.pairwise_singleton _ _)
      (List.pairwise_singleton _ _) (by
        intro x
        simp only [List.mem_singleton, exists_eq_left, mem_lowerOrthant]
        exact fun h v hv' => (h v hv').trans (hle v hv')) freshMem freshMem
    rw [(hF row).1] at hp'
    rw [(hF row').1] at hq
    injection hp' with hp'
    injection hq with hq
    rw [hp', hq]
    exact hpq

theorem exists_cdfBatch {d : Leaf} (hn : Numeric d) {xs : List ℝ} (hx : xs ≠ []) :
    ∃ F, d.cdfBatch xs = .ok (xs.map F) := by
  cases d with
  | symbolic v probs => exact hn.elim
  | integer v probs =>
    obtain ⟨x, xs, rfl⟩ := List.exists_cons_of_ne_nil hx
    exact ⟨_, cdfArray_eq probs x xs⟩
  | uniform v lo hi l r => exact ⟨_, rfl⟩
  | gaussian v μ σ => exact ⟨_, rfl⟩
  | dirac v loc cap =>
    exact ⟨_, cdfBatch_eq (d := .dirac v loc cap) (by simp) (F := fun x => if loc ≤ x then 1 else 0) (fun _ => rfl) hx⟩
  | truncGaussian v I μ σ =>
    exact ⟨_, cdfBatch_eq (d := .truncGaussian v I μ σ) (by simp) (F := fun x => Leaf.truncCdf I μ σ x) (fun _ => rfl) hx⟩

/-- **C101.** A circuit with a symbolic variable has no `cdf`: `NotImplementedError`. -/
theorem C101_symbolic_raises (hL : Layered g r) (hs : Scoped g sc) (hp : ProductsNonempty g) {n₀ : Node} {v : Var}
    {probs : List (ℤ × ℝ)} (h0 : g.kind? n₀ = some (.leaf (.symbolic v probs))) {T : EventTable} (hT : T.rows ≠ [])
    (hc : (sc r).card ≤ T.columns) (m : Mem (List ℝ)) : (g.cdfBatch m T).2 = .error .notImplementedError := by
  have hF : ∀ d : Leaf, ∃ F : ℝ → ℝ, Numeric d →
      d.cdfBatch (T.rows.map fun row => rowPoint (sc r) row d.var)
        = .ok ((T.rows.map fun row => rowPoint (sc r) row d.var).map F) := by
    intro d
    by_cases hn : Numeric d
    · obtain ⟨F, h⟩ := exists_cdfBatch hn (xs := T.rows.map fun row => rowPoint (sc r) row d.var) (by simpa using hT)
      exact ⟨F, fun _ => h⟩
    · exact ⟨fun _ => 0, fun h => absurd h hn⟩
  choose F hF using hF
  choose f hf using fun row => exists_circuitValue hL.graded.acyclic
    (fun d : Leaf => F d (rowPoint (sc r) row d.var))
  have hsym : ∀ n d, g.kind? n = some (.leaf d) → ¬ Numeric d →
      (batchAlg (sc r) T Leaf.cdfBatch (fun l => (l.map fun wv => wv.1.exp * wv.2).sum) List.prod).leaf d
        = .error .notImplementedError := by
    intro n d hk hd
    have hd' := leaf_var_mem hL hs hk
    rw [batch_leaf hd' (lt_of_lt_of_le (rank_lt hd') hc)]
    cases d <;> first | rfl | exact absurd trivial hd
  simp only [Graph.cdfBatch, circuitVars_eq hL.wf hL.graded.acyclic hs hL.root]
  refine query_error_of_unit hL.wf hL.graded hL.root (val := fun n => T.rows.map fun row => f row n) ?_
    ⟨n₀, reachable_of_root hL.wf hL.graded.acyclic hL.root n₀ (mem_ids_of_kind? h0), ?_⟩ m
  · intro n hn
    by_cases hbad : ∃ d, g.kind? n = some (.leaf d) ∧ ¬ Numeric d
    · obtain ⟨d, hk, hd⟩ := hbad
      right
      simp only [evalUnit, hk]
      exact hsym n d hk hd
    · left
      refine cdfBatch_meaning hL hs hp hc hf n hn ?_
      intro d hk
      exact hF d (not_not.1 fun h => hbad ⟨d, hk, h⟩)
  · simp only [evalUnit, h0]
    exact hsym n₀ _ h0 id

/-- The integer distribution with the keys `2, 1` in this order. -/
noncomputable def twoOne : Circuit where
  nodes := [(0, .leaf (.integer 0 [(2, 1 / 2), (1, 1 / 2)]))]
  edges := []

theorem twoOne_layered : Layered twoOne 0 where
  wf := ⟨by simp [twoOne, ids], by simp [twoOne], by simp [twoOne], by simp [twoOne]⟩
  graded := ⟨fun _ => 0, by simp [twoOne]⟩
  leaves := Ex.leafTerminal_of (by simp [twoOne, Graph.succ, outEdges])
  weighted := Ex.weighted_of (by simp [twoOne])
  root := rfl

theorem twoOne_scoped : Scoped twoOne fun _ => {0} :=
  Ex.scoped_of (by simp [twoOne, Leaf.var]) (by simp [twoOne]) (by simp [twoOne])

theorem twoOne_cdf {rows : List (List ℝ)} {ps : List ℝ}
    (h : Leaf.integerCdfArray [(2, 1 / 2), (1, 1 / 2)] (rows.map fun row => row.getD 0 0) = .ok ps) (m : Mem (List ℝ)) :
    (twoOne.cdfBatch m ⟨1, rows⟩).2 = .ok ps := by
  simp only [Graph.cdfBatch,
    circuitVars_eq twoOne_layered.wf twoOne_layered.graded.acyclic twoOne_scoped twoOne_layered.root]
  refine (query_eq_meaning twoOne_layered.wf twoOne_layered.graded twoOne_layered.root (val := fun _ => ps) ?_ m).1
  intro n hn
  have hm := reachable_mem_ids twoOne_layered.wf (root_mem twoOne_layered.root).1 hn
  have hn0 : n = 0 := by simpa [twoOne, ids] using hm
  subst hn0
  have hk : twoOne.kind? 0 = some (.leaf (.integer 0 [(2, 1 / 2), (1, 1 / 2)])) := rfl
  simp only [evalUnit, hk]
  rw [batch_leaf (by simp [Leaf.var]) (by simp [Leaf.var])]
  simpa [Leaf.cdfBatch, rowPoint, Leaf.var] using h

/-- **C101.** The answer for a row can depend on the other rows: alone, the row `1` has the value `0`; together with the
row `2`, it has the value `1/2`. -/
theorem C101_other_rows (m : Mem (List ℝ)) :
    (twoOne.cdfBatch m ⟨1, [[1]]⟩).2 = .ok [0] ∧ (twoOne.cdfBatch m ⟨1, [[1], [2]]⟩).2 = .ok [1 / 2, 1] := by
  constructor
  · refine twoOne_cdf ?_ m
    simp [Leaf.integerCdfArray, Leaf.cdfLoop]
  · refine twoOne_cdf ?_ m
    simp [Leaf.integerCdfArray, Leaf.cdfLoop]
    norm_num

theorem twoOne_valid : ∀ n d, twoOne.kind? n = some (.leaf d) → d.Valid := by
  refine Ex.valid_of ?_
  simp [twoOne, Leaf.Valid]
  rintro a b (⟨-, rfl⟩ | ⟨-, rfl⟩) <;> norm_num

theorem twoOne_domain : DomainFor twoOne (fun _ => realLine) := by
  refine ⟨fun _ => realLine_disjoint, fun n d h => ?_, fun n d h => ?_⟩
  · have := Ex.forall_kind (g := twoOne) (P := fun n k => ∀ d, k = .leaf d → Fits d realLine)
      (by simp [twoOne, Fits, realLine]) n _ h
    exact this d rfl
  · simp [realLine_toSet]

/-- The full property is false: `cdf` of the row `1` is `0`, the probability of `(-∞, 1]` is `1/2`. -/
theorem C101_full_false : ¬ C101_full := by
  intro h
  obtain ⟨ps, h1, h2⟩ := h twoOne 0 (fun _ => {0}) twoOne_layered twoOne_scoped
    (fun n h => by
      have := Ex.forall_kind (g := twoOne) (P := fun n k => k = .prod → False) (by simp [twoOne]) n _ h
      exact (this rfl).elim)
    twoOne_valid
    (fun n d h => by
      have := Ex.forall_kind (g := twoOne) (P := fun n k => ∀ d, k = .leaf d → Numeric d) (by simp [twoOne, Numeric]) n _ h
      exact this d rfl)
    (fun _ => realLine) twoOne_domain ⟨1, [[1], [2]]⟩ (by simp) freshMem
  obtain ⟨ps', h1', h2'⟩ := h twoOne 0 (fun _ => {0}) twoOne_layered twoOne_scoped
    (fun n h => by
      have := Ex.forall_kind (g := twoOne) (P := fun n k => k = .prod → False) (by simp [twoOne]) n _ h
      exact (this rfl).elim)
    twoOne_valid
    (fun n d h => by
      have := Ex.forall_kind (g := twoOne) (P := fun n k => ∀ d, k = .leaf d → Numeric d) (by simp [twoOne, Numeric]) n _ h
      exact this d rfl)
    (fun _ => realLine) twoOne_domain ⟨1, [[1]]⟩ (by simp) freshMem
  rw [(C101_other_rows freshMem).2] at h1
  rw [(C101_other_rows freshMem).1] at h1'
  injection h1 with h1
  injection h1' with h1'
  subst h1 h1'
  simp only [List.forall₂_cons] at h2 h2'
  have ha := h2.1 freshMem
  have hb := h2'.1 freshMem
  rw [ha] at hb
  injection hb with hb
  norm_num at hb

theorem dag_numericLeaves : ∀ n d, Ex.dag.kind? n = some (.leaf d) → Numeric d ∧ KeysIncreasing d := fun n d h => by
  have := Ex.forall_kind (g := Ex.dag) (P := fun n k => ∀ d, k = .leaf d → Numeric d ∧ KeysIncreasing d)
    (by simp [Ex.dag, Numeric, KeysIncreasing]) n _ h
  exact this d rfl

/-- Two rows for the example circuit. -/
example : ∃ F : List ℝ → ℝ, (Ex.dag.cdfBatch freshMem ⟨2, [[1 / 2, 1], [1, 3]]⟩).2 = .ok [F [1 / 2, 1], F [1, 3]] ∧
    F [1 / 2, 1] ≤ F [1, 3] := by
  obtain ⟨F, h1, -, h3⟩ := C101_monotone_partial Ex.dag_layered Ex.dag_scoped Ex.dag_decomposable dag_products Ex.dag_valid
    (fun n d h => (dag_numericLeaves n d h).1) (fun n d h => (dag_numericLeaves n d h).2) dag_normalized.2 dag_normalized.1
    dag_domain (T := ⟨2, [[1 / 2, 1], [1, 3]]⟩) (by simp) (by simp [Ex.dagScope]) freshMem
  refine ⟨F, by simpa using h1, h3 _ (by simp) _ (by simp) ?_⟩
  intro v hv
  have : v = 0 ∨ v = 1 := by simpa [Ex.dagScope] using hv
  have e0 : ((Ex.dagScope 0).filter (· < 0)).card = 0 := rfl
  have e1 : ((Ex.dagScope 0).filter (· < 1)).card = 1 := rfl
  rcases this with rfl | rfl
  · rw [rowPoint, rowPoint, e0]
    norm_num
  · rw [rowPoint, rowPoint, e1]
    norm_num

end PM.Props
