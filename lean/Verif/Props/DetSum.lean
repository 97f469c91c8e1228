import Verif.Circuit.DetSumLemmas
import Verif.Props.Queries
import Verif.Props.Support
import Verif.Props.Transform
import Verif.Props.Mount

/-!
# C25: a discrete leaf and its deterministic sum describe the same law
-/

namespace PM.Props

open Graph Spec

variable {g : Circuit} {r n : Node} {sc : Node → Finset Var} {d : Leaf}

/-- C25.  `as_deterministic_sum` on any discrete leaf with a non-empty dictionary, anywhere in a circuit: the circuit afterwards
is well-formed, and the likelihood of every point is what it was. -/
theorem C25_likelihood (hL : Layered g r) (hs : Scoped g sc) (hv : ∀ n d, g.kind? n = some (.leaf d) → d.Valid)
    (hk : g.kind? n = some (.leaf d)) {probs : List (ℤ × ℝ)} (hne : probs ≠ [])
    (hd : d = .symbolic d.var probs ∨ d = .integer d.var probs) :
    ∃ g' s, g.asDeterministicSum n = .ok (g', s) ∧ g'.kind? s = some .sum ∧
      Layered g' (if r = n then s else r) ∧ (∀ k d, g'.kind? k = some (.leaf d) → d.Valid) ∧
      ∀ x m m', g'.likelihood m x = g.likelihood m' x := by
  obtain ⟨ps, hps, hne'⟩ : ∃ ps, d.oneHots = some ps ∧ ps ≠ [] := by
    rcases hd with h | h <;> rw [h] <;> exact ⟨_, rfl, by simpa using hne⟩
  have hsp := split_oneHots (hv n d hk) hps
  have hR := replaced hL.wf hk ps
  refine ⟨g.replaceLeaf n ps, g.fresh, ?_, hR.kindSum, hR.layered hL hk, hR.leaves_all hv hsp.valid, ?_⟩
  · simp only [asDeterministicSum, hk, hps]
  intro x m m'
  obtain ⟨f, hf⟩ := exists_circuitValue hL.graded.acyclic (fun d => leafDensity d (x d.var))
  have hf' := hR.circuitValue hL.wf hk hf (by
    show leafDensity d (x d.var) = _
    rw [hsp.sum]
    congr 1
    apply List.map_congr_left
    intro q hq
    rw [hsp.var q hq])
  obtain ⟨_, _, _, _, h1⟩ := C01_loglikelihood hL hs hv x hf m'
  obtain ⟨_, _, _, _, h2⟩ := C01_loglikelihood (hR.layered hL hk) (hR.isScoped hL.wf hs hk hne' hsp.var)
    (hR.leaves_all hv hsp.valid) x hf' m
  rw [h1, h2, Replaced.value_swap (root_mem hL.root).1]

/-- C25.  The new unit alone: its value at a point (as the mixture/product formula gives it) is the density of the leaf it
replaced, and at no point two of its children are possible. -/
theorem C25_unit (hL : Layered g r) (hv : ∀ n d, g.kind? n = some (.leaf d) → d.Valid)
    (hk : g.kind? n = some (.leaf d)) {g' : Circuit} {s : Node} (h : g.asDeterministicSum n = .ok (g', s)) :
    (∀ (x : Var → ℝ) f, CircuitValue g' (fun d => leafDensity d (x d.var)) f → f s = leafDensity d (x d.var)) ∧
    ∀ S, PossiblePoints g' S → (g'.succ s).Pairwise fun a c => ∀ x, ¬ (x ∈ S a ∧ x ∈ S c) := by
  simp only [asDeterministicSum, hk] at h
  cases hps : d.oneHots with
  | none => rw [hps] at h; simp at h
  | some ps =>
    rw [hps] at h
    injection h with h
    injection h with h1 h2
    subst h1 h2
    have hsp := split_oneHots (hv n d hk) hps
    have hR := replaced hL.wf hk ps
    refine ⟨?_, ?_⟩
    · intro x f hf
      rw [hf.sum _ hR.kindSum, hR.outSum, sumEdges, List.map_map, hsp.sum]
      rw [List.map_congr_left (g := (fun q : Leaf × LogP => q.2.exp * leafDensity q.1 (x d.var)) ∘ Prod.fst)]
      · rw [← List.map_map, List.zipIdx_map_fst]
      · intro q hq
        simp only [Function.comp, linWeight]
        rw [hf.leaf _ _ (hR.kindNew q hq), hsp.var q.1 (List.fst_mem_of_mem_zipIdx hq)]
    · intro S hS
      unfold succ
      rw [hR.outSum, sumEdges, List.map_map, List.pairwise_map]
      have hz : (ps.zipIdx).Pairwise fun p q => ∀ x, ¬ (0 < leafDensity p.1.1 x ∧ 0 < leafDensity q.1.1 x) := by
        have := hsp.disjoint
        rw [← List.zipIdx_map_fst 0 ps, List.pairwise_map] at this
        exact this
      refine (List.Pairwise.and_mem.1 hz).imp ?_
      rintro a c ⟨ha, hc, hac⟩ x ⟨hxa, hxc⟩
      rw [Function.comp, hS.leaf _ _ (hR.kindNew a ha), hsp.var a.1 (List.fst_mem_of_mem_zipIdx ha)] at hxa
      rw [Function.comp, hS.leaf _ _ (hR.kindNew c hc), hsp.var c.1 (List.fst_mem_of_mem_zipIdx hc)] at hxc
      exact hac _ ⟨hxa, hxc⟩

/-- C25.  `is_deterministic` of the whole circuit keeps its answer `True` if the dictionary has no entry with probability 0. -/
theorem C25_deterministic (hL : Layered g r) (hs : Scoped g sc) (hp : ProductsNonempty g) {sym : Var → Bool} (ht : Typed g sym)
    (hv : ∀ n d, g.kind? n = some (.leaf d) → d.Valid) (hk : g.kind? n = some (.leaf d)) {probs : List (ℤ × ℝ)}
    (hne : probs ≠ []) (hpos : ∀ kp ∈ probs, 0 < kp.2) (hd : d = .symbolic d.var probs ∨ d = .integer d.var probs)
    (m m' : Mem Event) (hdet : (g.isDeterministic m).2 = .ok true) :
    ∃ g' s, g.asDeterministicSum n = .ok (g', s) ∧ (g'.isDeterministic m').2 = .ok true := by
  obtain ⟨ps, hps, hne', hposs⟩ : ∃ ps, d.oneHots = some ps ∧ ps ≠ [] ∧ ∀ q ∈ ps, 0 < q.2.exp := by
    rcases hd with h | h <;> rw [h] <;> refine ⟨_, rfl, by simpa using hne, ?_⟩ <;>
    · intro q hq
      obtain ⟨kp, hkp, rfl⟩ := List.mem_map.1 hq
      simp only
      rw [LogP.exp_log (hpos kp hkp).le]
      exact hpos kp hkp
  have hsp := split_oneHots (hv n d hk) hps
  have hR := replaced hL.wf hk ps
  have hok : g.asDeterministicSum n = .ok (g.replaceLeaf n ps, g.fresh) := by simp only [asDeterministicSum, hk, hps]
  refine ⟨_, _, hok, ?_⟩
  obtain ⟨S, hS⟩ := exists_possiblePoints hL.graded.acyclic
  obtain ⟨b, hb1, hb2⟩ := C14_is_deterministic hL hs hp ht hv hS m
  rw [hdet] at hb1
  injection hb1 with hb1
  have hold := hb2.1 hb1.symm
  have hsum : ∀ x : Var → ℝ, 0 < leafDensity d (x d.var) ↔ ∃ q ∈ ps, 0 < leafDensity q.1 (x q.1.var) := by
    intro x
    rw [hsp.sum]
    have hnn : ∀ q ∈ ps, 0 ≤ q.2.exp * leafDensity q.1 (x d.var) := fun q hq =>
      mul_nonneg (LogP.exp_nonneg _) (leafDensity_nonneg (hsp.valid q hq) _)
    constructor
    · intro h
      by_contra hc
      push Not at hc
      have : (ps.map fun q => q.2.exp * leafDensity q.1 (x d.var)).sum = 0 := by
        apply List.sum_eq_zero
        intro y hy
        obtain ⟨q, hq, rfl⟩ := List.mem_map.1 hy
        have := hc q hq
        rw [hsp.var q hq] at this
        rw [le_antisymm this (leafDensity_nonneg (hsp.valid q hq) _), mul_zero]
      rw [this] at h
      exact lt_irrefl _ h
    · rintro ⟨q, hq, hx⟩
      rw [hsp.var q hq] at hx
      refine lt_of_lt_of_le (mul_pos (hposs q hq) hx) ?_
      exact List.single_le_sum (by
        intro y hy
        obtain ⟨p, hp, rfl⟩ := List.mem_map.1 hy
        exact hnn p hp) _ (List.mem_map.2 ⟨q, hq, rfl⟩)
  have hS' := hR.possiblePoints hL.wf hk hS hsum
  have ht' : Typed (g.replaceLeaf n ps) sym := by
    intro k d' hk'
    refine hR.leaves_all (P := fun d' => sym d'.var = true ↔ ∃ v probs, d' = .symbolic v probs) (fun k d' h => ht k d' h) ?_ k d' hk'
    intro q hq
    rw [hsp.var q hq, hsp.symbolic q hq]
    exact ht n d hk
  obtain ⟨b', hb1', hb2'⟩ := C14_is_deterministic (hR.layered hL hk) (hR.isScoped hL.wf hs hk hne' hsp.var)
    (hR.productsNonempty hp) ht' (hR.leaves_all hv hsp.valid) hS' m'
  rw [hb1']
  congr 1
  rw [hb2']
  intro k hkk
  rcases hR.cases_ids (mem_ids_of_kind? hkk) with ⟨h1, h2, h3⟩ | ⟨rfl, h3⟩ | ⟨q, hq, rfl, h3⟩
  · rw [h3] at hkk
    refine ((hR.succ_perm h1 h2).pairwise_iff (fun {a b} hab x hx => hab x hx.symm)).2 ?_
    rw [List.pairwise_map]
    refine (List.Pairwise.and_mem.1 (hold k hkk)).imp ?_
    rintro a b ⟨ha, hb, hab⟩
    rw [Replaced.points_swap (succ_mem_ids hL.wf ha), Replaced.points_swap (succ_mem_ids hL.wf hb)]
    exact hab
  · exact (C25_unit hL hv hk hok).2 _ hS'
  · rw [h3] at hkk; cases hkk

/-- What `from_mixture` computes: the entries are the values `F` of the support under their hashes. -/
theorem fromMixture_values (hL : Layered g r) (hs : Scoped g sc) {v : Var} (hr : sc r = {v}) (hp : ProductsNonempty g)
    {sym : Var → Bool} (ht : Typed g sym) (hv : ∀ n d, g.kind? n = some (.leaf d) → d.Valid)
    (hd : ∀ n d, g.kind? n = some (.leaf d) → (∃ v probs, d = .symbolic v probs) ∨ ∃ v probs, d = .integer v probs)
    {lik : ℝ → ℝ} (hlik : ∀ x : ℝ, g.likelihood freshMem (fun _ => x) = .ok (lik x)) (hpos : ∃ x, 0 < lik x)
    (m : Mem Event) (m' : Mem ℝ) :
    (∀ x, 0 ≤ lik x) ∧ ∃ F : Finset ℤ, F ≠ ∅ ∧ (∀ x, 0 < lik x → ∃ k ∈ F, (k : ℝ) = x) ∧
      (∀ k ∈ F, ∃ n d probs, g.kind? n = some (.leaf d) ∧ (d = .symbolic v probs ∨ d = .integer v probs) ∧
        k ∈ probs.map Prod.fst) ∧
      (((F.sort (· ≤ ·)).map fun k => if sym v then k else pyHash k).Nodup →
        let probs := (F.sort (· ≤ ·)).map fun k : ℤ => (if sym v then k else pyHash k, lik (k : ℝ))
        g.fromMixture sym m m' = .ok (if sym v then .symbolic v probs else .integer v probs)) := by
  classical
  obtain ⟨S, hS⟩ := exists_possiblePoints hL.graded.acyclic
  obtain ⟨val, hval⟩ := support_eval hL.wf hL.graded.acyclic hL.weighted hs hp ht hv hS
  have hri := (root_mem hL.root).1
  have hq := query_eq_meaning hL.wf hL.graded hL.root (meaning_of_eval hL.wf hri fun n hn => (hval n hn).1) m
  have hE : (g.support m).2 = .ok (val r) := hq.1
  have hmem := (hval r hri).2.2
  choose f hf using fun x : ℝ => exists_circuitValue hL.graded.acyclic (fun d : Leaf => leafDensity d ((fun _ => x : Var → ℝ) d.var))
  have hfl : ∀ x, lik x = f x r := by
    intro x
    obtain ⟨_, _, _, _, h1⟩ := C01_loglikelihood hL hs hv (fun _ => x) (hf x) freshMem
    rw [hlik] at h1
    injection h1
  have hfS : ∀ x : ℝ, 0 < lik x → (fun _ => x : Var → ℝ) ∈ S r := by
    intro x hx
    rw [hfl] at hx
    exact possible_of_pos hL.wf hL.graded.acyclic hv hS (hf x) r hri hx
  have hnn : ∀ x, 0 ≤ lik x := by
    intro x
    rw [hfl]
    exact circuitValue_nonneg hL.wf hL.graded.acyclic (hf x) (fun n d h => leafDensity_nonneg (hv n d h) _) r hri
  obtain ⟨F₀, hF₀, hcov⟩ := possible_values hL hs hr hp hd hS
  obtain ⟨F, hF, hFsub⟩ : ∃ F : Finset ℤ, (∀ x : ℝ, (val r).Mem (fun _ => x) ↔ ∃ k ∈ F, (k : ℝ) = x) ∧ F ⊆ F₀ := by
    refine ⟨F₀.filter fun k => (fun _ => (k : ℝ) : Var → ℝ) ∈ S r, ?_, Finset.filter_subset _ _⟩
    intro x
    rw [hmem]
    constructor
    · intro hx
      obtain ⟨k, hk, hkx⟩ := hcov _ hx
      refine ⟨k, Finset.mem_filter.2 ⟨hk, ?_⟩, hkx⟩
      rw [hkx]; exact hx
    · rintro ⟨k, hk, rfl⟩
      exact (Finset.mem_filter.1 hk).2
  have hFne : F ≠ ∅ := by
    obtain ⟨x, hx⟩ := hpos
    obtain ⟨k, hk, _⟩ := (hF x).1 ((hmem _).2 (hfS x hx))
    exact Finset.ne_empty_of_mem hk
  have hprob : ∀ k m, (g.probabilityOfSimpleEvent m [(v, elementSet (sym v) k)]).2 = .ok (lik (k : ℝ)) := by
    intro k m
    unfold probabilityOfSimpleEvent
    rw [hfl]
    refine (query_eq_meaning hL.wf hL.graded hL.root (forward_meaning hL (ℓ := fun d => leafDensity d (k : ℝ)) ?_ (hf k)) m).1
    intro n d hkn
    have := element_prob (hv n d hkn) hkn ht hd k
    rwa [scope_leaf_var hL hs hr hkn] at this
  refine ⟨hnn, F, hFne, fun x hx => (hF x).1 ((hmem _).2 (hfS x hx)), fun k hk => hF₀ k (hFsub hk), ?_⟩
  intro hnd
  have hloop := mixtureLoop_eq hprob (F.sort (· ≤ ·)) [] m' (by simpa using hnd)
  unfold fromMixture
  rw [circuitVars_eq hL.wf hL.graded.acyclic hs hL.root, hr]
  simp only [bind, Except.bind, Finset.sort_singleton, hE, valuesOf_eq hF hFne, hloop, List.nil_append]

/-- C25.  `from_mixture` of a circuit over one variable with discrete leaves, some value of which has positive likelihood: the
result is a discrete distribution with the likelihood of the circuit everywhere.  For integer variables the keys have to be
their own hashes: `hash(-1)` is `-2`, and numbers from `2⁶¹ - 1` on are reduced. -/
theorem C25_from_mixture_partial (hL : Layered g r) (hs : Scoped g sc) {v : Var} (hr : sc r = {v}) (hp : ProductsNonempty g)
    {sym : Var → Bool} (ht : Typed g sym) (hv : ∀ n d, g.kind? n = some (.leaf d) → d.Valid)
    (hd : ∀ n d, g.kind? n = some (.leaf d) → (∃ v probs, d = .symbolic v probs) ∨ ∃ v probs, d = .integer v probs)
    (hkeys : ∀ n v probs, g.kind? n = some (.leaf (.integer v probs)) → ∀ kp ∈ probs, kp.1 ≠ -1 ∧ kp.1.natAbs < 2 ^ 61 - 1)
    {lik : ℝ → ℝ} (hlik : ∀ x : ℝ, g.likelihood freshMem (fun _ => x) = .ok (lik x)) (hpos : ∃ x, 0 < lik x)
    (m : Mem Event) (m' : Mem ℝ) :
    ∃ d probs, g.fromMixture sym m m' = .ok d ∧ d.Valid ∧ d = (if sym v then .symbolic v probs else .integer v probs) ∧
      ∀ x, leafDensity d x = lik x := by
  classical
  obtain ⟨hnn, F, hFne, hcov, hFk, hfm⟩ := fromMixture_values hL hs hr hp ht hv hd hlik hpos m m'
  have hkey : ∀ k ∈ F, (if sym v then k else pyHash k) = k := by
    intro k hk
    obtain ⟨n, d, probs, hkn, hdp, hkp⟩ := hFk k hk
    obtain ⟨kp, hkp', rfl⟩ := List.mem_map.1 hkp
    rcases hdp with rfl | rfl
    · rw [show sym v = true from (ht n _ hkn).2 ⟨_, _, rfl⟩]; rfl
    · obtain ⟨h1, h2⟩ := hkeys n v probs hkn kp hkp'
      split
      · rfl
      · exact pyHash_eq h1 h2
  have hsorted : ((F.sort (· ≤ ·)).map fun k => if sym v then k else pyHash k) = F.sort (· ≤ ·) := by
    conv_rhs => rw [← List.map_id (F.sort (· ≤ ·))]
    apply List.map_congr_left
    intro k hk
    exact hkey k ((Finset.mem_sort _).1 hk)
  have hfm := hfm (by rw [hsorted]; exact F.sort_nodup _)
  have hpe : ((F.sort (· ≤ ·)).map fun k : ℤ => (if sym v then k else pyHash k, lik (k : ℝ))) =
      (F.sort (· ≤ ·)).map fun k : ℤ => (k, lik (k : ℝ)) := by
    apply List.map_congr_left
    intro k hk
    rw [hkey k ((Finset.mem_sort _).1 hk)]
  rw [hpe] at hfm
  set probs := (F.sort (· ≤ ·)).map fun k : ℤ => (k, lik (k : ℝ)) with hprobs
  have hkeysEq : probs.map Prod.fst = F.sort (· ≤ ·) := by
    rw [hprobs, List.map_map]
    exact List.map_id _
  have hvalid : (∀ kp ∈ probs, 0 ≤ kp.2) ∧ (probs.map Prod.fst).Nodup := by
    refine ⟨?_, by rw [hkeysEq]; exact F.sort_nodup _⟩
    intro kp hkp
    obtain ⟨k, _, rfl⟩ := List.mem_map.1 hkp
    exact hnn _
  have hdens : ∀ x, ((probs.filter fun kp => (kp.1 : ℝ) = x).map Prod.snd).sum = lik x := by
    intro x
    by_cases hx : ∃ k ∈ F, (k : ℝ) = x
    · obtain ⟨k, hk, rfl⟩ := hx
      rw [← lookup_eq_density probs hvalid.2]
      unfold Leaf.lookup
      cases hfind : probs.find? fun p => p.1 == k with
      | none =>
        have := List.find?_eq_none.1 hfind (k, lik k) (List.mem_map.2 ⟨k, (Finset.mem_sort _).2 hk, rfl⟩)
        simp at this
      | some p =>
        have h1 := List.find?_some hfind
        have h2 := List.mem_of_find?_eq_some hfind
        obtain ⟨k', _, rfl⟩ := List.mem_map.1 h2
        simp only [beq_iff_eq] at h1
        simp only [h1]
    · have h0 : probs.filter (fun kp => decide ((kp.1 : ℝ) = x)) = [] := by
        rw [List.filter_eq_nil_iff]
        intro kp hkp hc
        obtain ⟨k, hk, rfl⟩ := List.mem_map.1 hkp
        exact hx ⟨k, (Finset.mem_sort _).1 hk, of_decide_eq_true hc⟩
      rw [h0]
      by_contra hc
      exact hx (hcov x (lt_of_le_of_ne (hnn x) hc))
  refine ⟨_, probs, hfm, ?_, rfl, ?_⟩
  · split <;> exact hvalid
  · intro x
    split <;> exact hdens x

/-! ### The round trip -/

theorem leaf_scoped (n : Node) (d : Leaf) : Scoped (newUnit n (.leaf d)) fun _ => {d.var} :=
  Ex.scoped_of (by simp [newUnit]) (by simp [newUnit]) (by simp [newUnit])

theorem leaf_valid {n : Node} {d : Leaf} (hv : d.Valid) :
    ∀ k d', (newUnit n (.leaf d)).kind? k = some (.leaf d') → d'.Valid := Ex.valid_of (by simp [newUnit, hv])

theorem leaf_likelihood {n : Node} {d : Leaf} (hv : d.Valid) (m : Mem LogP) (x : Var → ℝ) :
    (newUnit n (.leaf d)).likelihood m x = .ok (leafDensity d (x d.var)) := by
  have hf : CircuitValue (newUnit n (.leaf d)) (fun d => leafDensity d (x d.var)) fun _ => leafDensity d (x d.var) :=
    Ex.value_of (by simp [newUnit]) (by simp [newUnit]) (by simp [newUnit])
  obtain ⟨_, _, _, _, h⟩ := C01_loglikelihood (layered_newUnit n _) (leaf_scoped n d) (leaf_valid hv) x hf m
  exact h

/-- C25 as stated: converting a discrete distribution into a sum unit and back gives the same probabilities.  `sym` says whether
the variable is symbolic. -/
def C25_full : Prop := ∀ (n : Node) (sym : Bool) (v : Var) (probs : List (ℤ × ℝ)), probs ≠ [] → (∃ kp ∈ probs, 0 < kp.2) →
  (∀ kp ∈ probs, 0 ≤ kp.2) → (probs.map Prod.fst).Nodup → ∀ (m : Mem Event) (m' : Mem ℝ),
  ∃ g s probs', (newUnit n (.leaf (if sym then .symbolic v probs else .integer v probs))).asDeterministicSum n = .ok (g, s) ∧
    g.fromMixture (fun _ => sym) m m' = .ok (if sym then .symbolic v probs' else .integer v probs') ∧
    ∀ k, Leaf.lookup probs' k = Leaf.lookup probs k

theorem discrete_typed {g : Circuit} {sym : Bool} {v : Var}
    (h : ∀ n d, g.kind? n = some (.leaf d) → ∃ probs, d = if sym then .symbolic v probs else .integer v probs) :
    Typed g fun _ => sym := by
  intro n d hk
  obtain ⟨probs, rfl⟩ := h n d hk
  cases sym <;> simp

/-- C25, the round trip, for keys that are their own hashes. -/
theorem C25_round_trip_partial (n : Node) (sym : Bool) (v : Var) (probs : List (ℤ × ℝ)) (hne : probs ≠ [])
    (hpos : ∃ kp ∈ probs, 0 < kp.2) (hnn : ∀ kp ∈ probs, 0 ≤ kp.2) (hnd : (probs.map Prod.fst).Nodup)
    (hkeys : sym = false → ∀ kp ∈ probs, kp.1 ≠ -1 ∧ kp.1.natAbs < 2 ^ 61 - 1) (m : Mem Event) (m' : Mem ℝ) :
    ∃ g s probs', (newUnit n (.leaf (if sym then .symbolic v probs else .integer v probs))).asDeterministicSum n = .ok (g, s) ∧
      g.fromMixture (fun _ => sym) m m' = .ok (if sym then .symbolic v probs' else .integer v probs') ∧
      ∀ k, Leaf.lookup probs' k = Leaf.lookup probs k := by
  set d : Leaf := if sym then .symbolic v probs else .integer v probs with hdd
  have hvar : d.var = v := by rw [hdd]; split <;> rfl
  have hval : d.Valid := by rw [hdd]; split <;> exact ⟨hnn, hnd⟩
  have hdis : d = .symbolic d.var probs ∨ d = .integer d.var probs := by
    rw [hvar, hdd]; cases sym <;> simp
  have hdens : ∀ x, leafDensity d x = ((probs.filter fun kp => (kp.1 : ℝ) = x).map Prod.snd).sum := by
    intro x; rw [hdd]; split <;> rfl
  obtain ⟨ps, hps, hne', hcl, hkp⟩ : ∃ ps, d.oneHots = some ps ∧ ps ≠ [] ∧
      (∀ q ∈ ps, ∃ probs, q.1 = if sym then .symbolic v probs else .integer v probs) ∧
      ∀ q ∈ ps, ∀ v' probs', q.1 = .integer v' probs' → ∀ kp' ∈ probs', ∃ kp ∈ probs, kp.1 = kp'.1 := by
    rw [hdd]
    cases sym
    · refine ⟨_, rfl, by simpa using hne, ?_, ?_⟩
      · intro q hq
        obtain ⟨kp, _, rfl⟩ := List.mem_map.1 hq
        exact ⟨_, rfl⟩
      · intro q hq v' probs' h kp' hkp'
        obtain ⟨kp, hkp, rfl⟩ := List.mem_map.1 hq
        injection h with _ h
        subst h
        rw [List.mem_singleton.1 hkp']
        exact ⟨kp, hkp, rfl⟩
    · refine ⟨_, rfl, by simpa using hne, ?_, ?_⟩
      · intro q hq
        obtain ⟨kp, _, rfl⟩ := List.mem_map.1 hq
        exact ⟨_, rfl⟩
      · intro q hq v' probs' h
        obtain ⟨kp, hkp, rfl⟩ := List.mem_map.1 hq
        cases h
  have hk : (newUnit n (.leaf d)).kind? n = some (.leaf d) := kind?_newUnit n _
  have hL := layered_newUnit n (.leaf d)
  have hR := replaced hL.wf hk ps
  have hsp := split_oneHots hval hps
  have hok : (newUnit n (.leaf d)).asDeterministicSum n = .ok ((newUnit n (.leaf d)).replaceLeaf n ps, (newUnit n (.leaf d)).fresh) := by
    simp only [asDeterministicSum, hk, hps]
  have hLeaves : ∀ k d', ((newUnit n (.leaf d)).replaceLeaf n ps).kind? k = some (.leaf d') →
      ∃ q ∈ ps, d' = q.1 := by
    intro k d' hk'
    rcases hR.cases_ids (mem_ids_of_kind? hk') with ⟨h1, h2, _⟩ | ⟨_, h3⟩ | ⟨q, hq, _, h3⟩
    · rw [ids_newUnit, List.mem_singleton] at h1
      exact absurd h1 h2
    · rw [h3] at hk'; cases hk'
    · rw [h3] at hk'
      injection hk' with hk'
      injection hk' with hk'
      exact ⟨q.1, List.fst_mem_of_mem_zipIdx hq, hk'.symm⟩
  obtain ⟨g', s, hok', _, _, _, hlik⟩ := C25_likelihood hL (leaf_scoped n d) (leaf_valid hval) hk hne hdis
  rw [hok] at hok'
  injection hok' with hok'
  injection hok' with hg hs
  obtain ⟨d', probs', h1, hv', rfl, h3⟩ := C25_from_mixture_partial (v := v) (sym := fun _ => sym)
    (lik := fun x => leafDensity d x) (hR.layered hL hk)
    (hR.isScoped hL.wf (leaf_scoped n d) hk hne' hsp.var)
    (by rw [Replaced.scope_swap (leaf_scoped n d) hk (by simp), hvar])
    (hR.productsNonempty (by intro k hk'; rw [Graph.kind?] at hk'; simp [newUnit] at hk'))
    (discrete_typed fun k d' hk' => by
      obtain ⟨q, hq, rfl⟩ := hLeaves k d' hk'
      exact hcl q hq)
    (hR.leaves_all (leaf_valid hval) hsp.valid)
    (by
      intro k d' hk'
      obtain ⟨q, hq, rfl⟩ := hLeaves k d' hk'
      obtain ⟨probs, hq⟩ := hcl q hq
      rw [hq]
      cases sym
      · exact .inr ⟨_, _, rfl⟩
      · exact .inl ⟨_, _, rfl⟩)
    (by
      intro k v' probs' hk' kp' hkp'
      obtain ⟨q, hq, hqe⟩ := hLeaves k _ hk'
      obtain ⟨kp, hkp1, hkp2⟩ := hkp q hq v' probs' hqe.symm kp' hkp'
      rw [← hkp2]
      refine hkeys ?_ kp hkp1
      obtain ⟨probs, hcq⟩ := hcl q hq
      rw [← hqe] at hcq
      cases sym
      · rfl
      · cases hcq)
    (by intro x; rw [hg, hlik (fun _ => x) freshMem freshMem, leaf_likelihood hval])
    (by
      obtain ⟨kp, hkp1, hkp2⟩ := hpos
      refine ⟨kp.1, ?_⟩
      rw [hdens]
      refine lt_of_lt_of_le hkp2 (List.single_le_sum ?_ _ (List.mem_map.2 ⟨kp, List.mem_filter.2 ⟨hkp1, by simp⟩, rfl⟩))
      intro y hy
      obtain ⟨q, hq, rfl⟩ := List.mem_map.1 hy
      exact hnn q (List.mem_filter.1 hq).1)
    m m'
  refine ⟨_, _, probs', hok, h1, ?_⟩
  intro k
  have hv'' : (probs'.map Prod.fst).Nodup := by
    cases sym <;> exact hv'.2
  rw [lookup_eq_density probs' hv'', lookup_eq_density probs hnd, ← hdens, ← h3]
  cases sym <;> rfl

/-- C25 is false of the code for the integer value `-1`: it comes back as `-2`. -/
theorem C25_full_false : ¬ C25_full := by
  intro H
  obtain ⟨g, s, probs', hok, hfm, hlk⟩ := H 0 false 0 [(-1, 1)] (by simp) ⟨(-1, 1), by simp, by norm_num⟩ (by simp) (by simp)
    freshMem freshMem
  set d : Leaf := .integer 0 [(-1, 1)] with hdd
  have hval : d.Valid := ⟨by simp, by simp⟩
  have hk : (newUnit 0 (.leaf d)).kind? 0 = some (.leaf d) := kind?_newUnit 0 _
  have hL := layered_newUnit 0 (.leaf d)
  have hps : d.oneHots = some [(.integer 0 [(-1, 1)], LogP.log 1)] := rfl
  have hR := replaced hL.wf hk [(.integer 0 [(-1, 1)], LogP.log 1)]
  have hsp := split_oneHots hval hps
  have hok' : (newUnit 0 (.leaf d)).asDeterministicSum 0 = .ok ((newUnit 0 (.leaf d)).replaceLeaf 0 [(.integer 0 [(-1, 1)], LogP.log 1)],
      (newUnit 0 (.leaf d)).fresh) := by
    simp only [asDeterministicSum, hk, hps]
  obtain ⟨g', s', hok'', _, _, _, hlik⟩ := C25_likelihood hL (leaf_scoped 0 d) (leaf_valid hval) hk (probs := [(-1, 1)]) (by simp)
    (.inr rfl)
  have e1 : g = (newUnit 0 (.leaf d)).replaceLeaf 0 [(.integer 0 [(-1, 1)], LogP.log 1)] := by
    have := hok.symm.trans hok'
    injection this with this
    injection this
  have e2 : g' = (newUnit 0 (.leaf d)).replaceLeaf 0 [(.integer 0 [(-1, 1)], LogP.log 1)] := by
    have := hok''.symm.trans hok'
    injection this with this
    injection this
  subst e1 e2
  have hLeaves : ∀ k d', ((newUnit 0 (.leaf d)).replaceLeaf 0 [(.integer 0 [(-1, 1)], LogP.log 1)]).kind? k = some (.leaf d') →
      d' = d := by
    intro k d' hk'
    rcases hR.cases_ids (mem_ids_of_kind? hk') with ⟨h1, h2, _⟩ | ⟨_, h3⟩ | ⟨q, hq, _, h3⟩
    · rw [ids_newUnit, List.mem_singleton] at h1
      exact absurd h1 h2
    · rw [h3] at hk'; cases hk'
    · rw [h3] at hk'
      injection hk' with hk'
      injection hk' with hk'
      rw [← hk', List.mem_singleton.1 (List.fst_mem_of_mem_zipIdx hq)]
  obtain ⟨_, F, hFne, _, hFk, hF⟩ := fromMixture_values (v := 0) (sym := fun _ => false)
    (lik := fun x => leafDensity d x) (hR.layered hL hk)
    (hR.isScoped hL.wf (leaf_scoped 0 d) hk (by simp) hsp.var)
    (by rw [Replaced.scope_swap (leaf_scoped 0 d) hk (by simp)]; rfl)
    (hR.productsNonempty (by intro k hk'; rw [Graph.kind?] at hk'; simp [newUnit] at hk'))
    (discrete_typed (sym := false) (v := 0) fun k d' hk' => ⟨[(-1, 1)], hLeaves k d' hk'⟩)
    (hR.leaves_all (leaf_valid hval) hsp.valid)
    (fun k d' hk' => .inr ⟨_, _, hLeaves k d' hk'⟩)
    (by intro x; rw [hlik (fun _ => x) freshMem freshMem, leaf_likelihood hval])
    ⟨-1, by simp [hdd, leafDensity]⟩ freshMem freshMem
  have hF1 : F = {-1} := by
    apply Finset.eq_singleton_iff_nonempty_unique_mem.2
    refine ⟨Finset.nonempty_iff_ne_empty.2 hFne, ?_⟩
    intro k hk
    obtain ⟨n', d', probs, hkn, hdp, hkp⟩ := hFk k hk
    have := hLeaves n' d' hkn
    rw [this] at hdp
    rcases hdp with hdp | hdp
    · rw [hdd] at hdp; cases hdp
    · rw [hdd] at hdp
      injection hdp with _ hdp
      subst hdp
      simpa using hkp
  subst hF1
  have := hF (by simp)
  simp only [Finset.sort_singleton, List.map_cons, List.map_nil, Bool.false_eq_true, if_false] at this
  rw [this] at hfm
  simp only [Bool.false_eq_true, if_false] at hfm
  injection hfm with hfm
  injection hfm with _ hfm
  have := hlk (-1)
  rw [← hfm] at this
  have hh : pyHash (-1) = -2 := by decide
  simp [Leaf.lookup, hh] at this

/-! ### C54 -/

theorem replaceDiscreteLoop_none {g : Circuit} : ∀ (l : List Node), (∀ n ∈ l, ∀ d, g.kind? n = some (.leaf d) → d.oneHots = none) →
    replaceDiscreteLoop l g = (g, .ok ())
  | [], _ => rfl
  | n :: l, h => by
    have ih := replaceDiscreteLoop_none l fun k hk => h k (List.mem_cons_of_mem _ hk)
    unfold replaceDiscreteLoop
    cases hk : g.kind? n with
    | none => exact ih
    | some k =>
      cases k with
      | leaf d => simp only [h n List.mem_cons_self d hk, ih]
      | sum => exact ih
      | prod => exact ih

theorem replaceDiscreteLoop_some {g : Circuit} (hw : g.WF) : ∀ (l : List Node),
    (∃ n ∈ l, ∃ d ps, g.kind? n = some (.leaf d) ∧ d.oneHots = some ps) →
    ∃ n ∈ l, ∃ d ps, g.kind? n = some (.leaf d) ∧ d.oneHots = some ps ∧
      replaceDiscreteLoop l g = (g.replaceLeaf n ps, .error .networkXError)
  | [], h => by simp at h
  | n :: l, h => by
    by_cases hn : ∃ d ps, g.kind? n = some (.leaf d) ∧ d.oneHots = some ps
    · obtain ⟨d, ps, hk, hps⟩ := hn
      refine ⟨n, by simp, d, ps, hk, hps, ?_⟩
      have hni : n ∉ (g.replaceLeaf n ps).ids := by
        rw [(replaced hw hk ps).ids]
        rintro (⟨_, h⟩ | h | ⟨q, _, h⟩)
        · exact h rfl
        · exact Replaced.fresh_not_mem (h ▸ mem_ids_of_kind? hk)
        · exact Replaced.new_not_mem q.2 (h ▸ mem_ids_of_kind? hk)
      simp only [replaceDiscreteLoop, hk, hps, replaceDiscreteLeaf, if_neg hni]
    · have hl : ∃ n ∈ l, ∃ d ps, g.kind? n = some (.leaf d) ∧ d.oneHots = some ps := by
        obtain ⟨k, hk, h⟩ := h
        rcases List.mem_cons.1 hk with rfl | hk
        · exact absurd h hn
        · exact ⟨k, hk, h⟩
      obtain ⟨k, hk, d, ps, h1, h2, h3⟩ := replaceDiscreteLoop_some hw l hl
      refine ⟨k, by simp [hk], d, ps, h1, h2, ?_⟩
      rw [← h3]
      conv_lhs => unfold replaceDiscreteLoop
      cases hkn : g.kind? n with
      | none => rfl
      | some kd =>
        cases kd with
        | sum => rfl
        | prod => rfl
        | leaf d' =>
          cases ho : d'.oneHots with
          | none => simp only [ho]
          | some ps' => exact absurd ⟨d', ps', hkn, ho⟩ hn

/-- C54 as stated: the method replaces the discrete leaves and keeps all likelihoods. -/
def C54_full : Prop := ∀ (g : Circuit) (r : Node) (sc : Node → Finset Var), Layered g r → Scoped g sc →
  (∀ n d, g.kind? n = some (.leaf d) → d.Valid) → (∀ n v probs, g.kind? n = some (.leaf (.symbolic v probs)) → probs ≠ []) →
  (∀ n v probs, g.kind? n = some (.leaf (.integer v probs)) → probs ≠ []) →
  ∃ g', g.replaceDiscrete = (g', .ok ()) ∧ ∀ x m m', g'.likelihood m x = g.likelihood m' x

/-- C54, what holds: after the call — whether it returned or raised — every likelihood is what it was. -/
theorem C54_likelihood_partial (hL : Layered g r) (hs : Scoped g sc) (hv : ∀ n d, g.kind? n = some (.leaf d) → d.Valid)
    (h1 : ∀ n v probs, g.kind? n = some (.leaf (.symbolic v probs)) → probs ≠ [])
    (h2 : ∀ n v probs, g.kind? n = some (.leaf (.integer v probs)) → probs ≠ []) (x : Var → ℝ) (m m' : Mem LogP) :
    (g.replaceDiscrete.1).likelihood m x = g.likelihood m' x := by
  unfold replaceDiscrete
  rw [hL.root]
  simp only
  by_cases hd : ∃ n ∈ g.leavesOf r, ∃ d ps, g.kind? n = some (.leaf d) ∧ d.oneHots = some ps
  · obtain ⟨n, _, d, ps, hk, hps, he⟩ := replaceDiscreteLoop_some hL.wf _ hd
    rw [he]
    obtain ⟨probs, hne, hdp⟩ : ∃ probs, probs ≠ [] ∧ (d = .symbolic d.var probs ∨ d = .integer d.var probs) := by
      cases d with
      | symbolic v probs => exact ⟨probs, h1 n v probs hk, .inl rfl⟩
      | integer v probs => exact ⟨probs, h2 n v probs hk, .inr rfl⟩
      | _ => simp [Leaf.oneHots] at hps
    obtain ⟨g', s, hok, _, _, _, hlik⟩ := C25_likelihood hL hs hv hk hne hdp
    simp only [asDeterministicSum, hk, hps] at hok
    injection hok with hok
    injection hok with hok _
    rw [hok]
    exact hlik x m m'
  · rw [replaceDiscreteLoop_none]
    · obtain ⟨f, hf⟩ := exists_circuitValue hL.graded.acyclic (fun d => leafDensity d (x d.var))
      obtain ⟨_, _, _, _, e1⟩ := C01_loglikelihood hL hs hv x hf m
      obtain ⟨_, _, _, _, e2⟩ := C01_loglikelihood hL hs hv x hf m'
      rw [e1, e2]
    · intro n hn d hk
      cases ho : d.oneHots with
      | none => rfl
      | some ps => exact absurd ⟨n, hn, d, ps, hk, ho⟩ hd

/-- C54, the failure: on every circuit with an inner root and at least one discrete leaf the method raises `NetworkXError`, after
it replaced only one of the leaves. -/
theorem C54_raises (hL : Layered g r) (hr : ∀ d, g.kind? r ≠ some (.leaf d))
    (hd : ∃ n v probs, g.kind? n = some (.leaf (.symbolic v probs)) ∨ g.kind? n = some (.leaf (.integer v probs))) :
    ∃ n g' s, g.asDeterministicSum n = .ok (g', s) ∧ g.replaceDiscrete = (g', .error .networkXError) := by
  have hex : ∃ n ∈ g.leavesOf r, ∃ d ps, g.kind? n = some (.leaf d) ∧ d.oneHots = some ps := by
    obtain ⟨n, v, probs, h | h⟩ := hd
    · exact ⟨n, (mem_leavesOf hL hr).2 ⟨_, h⟩, _, _, h, rfl⟩
    · exact ⟨n, (mem_leavesOf hL hr).2 ⟨_, h⟩, _, _, h, rfl⟩
  obtain ⟨n, _, d, ps, hk, hps, he⟩ := replaceDiscreteLoop_some hL.wf _ hex
  refine ⟨n, g.replaceLeaf n ps, g.fresh, ?_, ?_⟩
  · simp only [asDeterministicSum, hk, hps]
  · unfold replaceDiscrete
    rw [hL.root]
    exact he

/-- A mixture with one discrete leaf. -/
noncomputable def coin : Circuit :=
  ⟨[(0, .sum), (1, .leaf (.symbolic 0 [(0, 1 / 2), (1, 1 / 2)]))], [⟨0, 1, Ex.lw 1⟩]⟩

theorem coin_layered : Layered coin 0 where
  wf := ⟨by simp [coin, ids], by simp [coin], by simp [coin, ids], by simp [coin, ids]⟩
  graded := ⟨fun n => n, by simp [coin]⟩
  leaves := Ex.leafTerminal_of (by simp [coin, succ, outEdges])
  weighted := Ex.weighted_of (by simp [coin, outEdges, Ex.lw_isSome])
  root := rfl

theorem coin_scoped : Scoped coin fun _ => {0} :=
  Ex.scoped_of (by simp [coin, Leaf.var]) (by simp [coin, succ, outEdges]) (by simp [coin])

theorem coin_valid : ∀ n d, coin.kind? n = some (.leaf d) → d.Valid := Ex.valid_of (by
  simp [coin, Leaf.Valid]
  rintro a b (⟨_, rfl⟩ | ⟨_, rfl⟩) <;> norm_num)

/-- C54 is false of the code. -/
theorem C54_full_false : ¬ C54_full := by
  intro H
  have h1 : ∀ n v probs, coin.kind? n = some (.leaf (.symbolic v probs)) → probs ≠ [] := fun n v probs h =>
    Ex.forall_kind (g := coin) (P := fun _ k => k = .leaf (.symbolic v probs) → probs ≠ []) (by
      intro p hp he
      rcases List.mem_cons.1 hp with rfl | hp
      · cases he
      · rw [List.mem_singleton.1 hp] at he
        injection he with he
        injection he with _ he
        rw [← he]; simp) n _ h rfl
  have h2 : ∀ n v probs, coin.kind? n = some (.leaf (.integer v probs)) → probs ≠ [] := fun n v probs h =>
    Ex.forall_kind (g := coin) (P := fun _ k => k = .leaf (.integer v probs) → probs ≠ []) (by
      intro p hp he
      rcases List.mem_cons.1 hp with rfl | hp
      · cases he
      · rw [List.mem_singleton.1 hp] at he
        injection he with he
        cases he) n _ h rfl
  obtain ⟨g', h, _⟩ := H coin 0 _ coin_layered coin_scoped coin_valid h1 h2
  obtain ⟨_, _, _, _, h'⟩ := C54_raises coin_layered (by intro d; simp [coin, kind?]) ⟨1, 0, [(0, 1 / 2), (1, 1 / 2)], .inl rfl⟩
  rw [h'] at h
  injection h with _ h
  cases h

/-! ### Examples -/

/-- The hypotheses of the round trip are met by `P(2) = 1/3, P(5) = 2/3`. -/
example : ∃ g s probs', (newUnit 0 (.leaf (.integer 7 [(2, 1 / 3), (5, 2 / 3)]))).asDeterministicSum 0 = .ok (g, s) ∧
    g.fromMixture (fun _ => false) freshMem freshMem = .ok (.integer 7 probs') ∧ Leaf.lookup probs' 5 = 2 / 3 := by
  obtain ⟨g, s, probs', h1, h2, h3⟩ := C25_round_trip_partial 0 false 7 [(2, 1 / 3), (5, 2 / 3)] (by simp)
    ⟨_, List.mem_cons_self, by norm_num⟩ (by simp; norm_num) (by simp) (by simp) freshMem freshMem
  exact ⟨g, s, probs', h1, h2, by rw [h3]; simp [Leaf.lookup]⟩

/-- The hypotheses of the theorems about `as_deterministic_sum` are met by a single symbolic leaf. -/
example : ∃ g' s, (newUnit 3 (.leaf (.symbolic 0 [(0, 1 / 4), (1, 3 / 4)]))).asDeterministicSum 3 = .ok (g', s) ∧
    ∀ m m' : Mem LogP, ∀ x, g'.likelihood m x = (newUnit 3 (.leaf (.symbolic 0 [(0, 1 / 4), (1, 3 / 4)]))).likelihood m' x := by
  have hv : (Leaf.symbolic 0 [(0, 1 / 4), (1, 3 / 4)]).Valid := ⟨by simp; norm_num, by simp⟩
  obtain ⟨g', s, h1, _, _, _, h2⟩ := C25_likelihood (layered_newUnit 3 _) (leaf_scoped 3 _) (leaf_valid hv) (kind?_newUnit 3 _)
    (probs := [(0, 1 / 4), (1, 3 / 4)]) (by simp) (.inl rfl)
  exact ⟨g', s, h1, fun m m' x => h2 x m m'⟩

end PM.Props
