import Verif.Circuit.Mount
import Verif.Circuit.Normalize
import Verif.Dist.Discrete

/-!
# Nyga distributions

`learning/nyga_distribution.py`.  Numbers are reals; weights are assumed to be positive (numpy gives `-inf` and `nan` for the
logarithms of other weights, Lean's `Real.log` some number).
-/

namespace PM.Learn.Nyga

open Classical

/-- `array[i]`, with negative indices counted from the end. -/
noncomputable def pyGet (l : List ℝ) (i : ℤ) : Except PyErr ℝ :=
  let j := if i < 0 then i + l.length else i
  if j < 0 then .error .indexError
  else match l[j.toNat]? with
    | some x => .ok x
    | none => .error .indexError

/-- `range(a, b)`. -/
def pyRange (a b : ℤ) : List ℤ := (List.range (b - a).toNat).map fun i : ℕ => a + (i : ℤ)

/-- `np.insert(np.cumsum(l), 0, 0)`. -/
noncomputable def cumsum (l : List ℝ) : List ℝ := l.scanl (· + ·) 0

/-- The parameters of a `NygaDistribution` (`learning/nyga_distribution.py:341-346`). -/
structure Params where
  var : Var
  minSamples : ℤ
  minImprovement : ℝ

/-- What all induction steps of a fit share (`learning/nyga_distribution.py:28-41`). -/
structure Arrays where
  data : List ℝ
  cumulative : List ℝ
  cumulativeLog : List ℝ

/-- `InductionStep.begin_index` and `end_index` (`learning/nyga_distribution.py:43-51`). -/
structure Step where
  first : ℤ
  last : ℤ

/-- `left_connecting_point_from_index` (`learning/nyga_distribution.py:106-116`). -/
noncomputable def leftPoint (A : Arrays) (i : ℤ) : Except PyErr ℝ :=
  if i > 0 then do
    let a ← pyGet A.data (i - 1)
    let b ← pyGet A.data i
    .ok ((a + b) / 2)
  else pyGet A.data i

/-- `right_connecting_point_from_index` (`learning/nyga_distribution.py:124-134`). -/
noncomputable def rightPoint (A : Arrays) (i : ℤ) : Except PyErr ℝ :=
  if i < A.data.length then do
    let a ← pyGet A.data i
    let b ← pyGet A.data (i - 1)
    .ok ((a + b) / 2)
  else pyGet A.data (i - 1)

/-- `create_uniform_distribution` (`learning/nyga_distribution.py:136-157`). -/
noncomputable def createUniform (P : Params) (A : Arrays) (s : Step) : Except PyErr Leaf := do
  let lo ← leftPoint A s.first
  let hi ← rightPoint A s.last
  if s.last = A.data.length then .ok (.uniform P.var lo hi .closed .closed)
  else .ok (.uniform P.var lo hi .closed .opn)

/-- `sum_weights_from_indices` and `sum_log_weights_from_indices` (`learning/nyga_distribution.py:159-181`), on the cumulative
weights or on the cumulative logarithms; also `total_weights` (`:92-97`). -/
noncomputable def sumFrom (c : List ℝ) (i j : ℤ) : Except PyErr ℝ := do
  let a ← pyGet c j
  let b ← pyGet c i
  .ok (a - b)

/-- `log_likelihood_without_split` (`learning/nyga_distribution.py:217-224`). -/
noncomputable def withoutSplit (A : Arrays) (s : Step) : Except PyErr ℝ := do
  let r ← rightPoint A s.last
  let l ← leftPoint A s.first
  let w ← sumFrom A.cumulativeLog s.first s.last
  .ok (w + ((s.last - s.first : ℤ) : ℝ) * -Real.log (r - l))

/-- `log_likelihood_of_split_side` (`learning/nyga_distribution.py:226-266`). -/
noncomputable def splitSide (A : Arrays) (s : Step) (k : ℤ) (point : ℝ) : Except PyErr ℝ := do
  let a ← pyGet A.data (k - 1)
  let b ← pyGet A.data k
  let density := (a + b) / 2 - point
  let isLeft := density > 0
  let logDensity := Real.log |density|
  let w ← if isLeft then sumFrom A.cumulative s.first k else sumFrom A.cumulative k s.last
  let total ← sumFrom A.cumulative s.first s.last
  let number : ℤ := if isLeft then k - s.first else s.last - k
  let logs ← if isLeft then sumFrom A.cumulativeLog s.first k else sumFrom A.cumulativeLog k s.last
  .ok (number * (Real.log w - Real.log total - logDensity) + logs)

/-- The test `log_likelihood > maximum_log_likelihood`, where the maximum is `-inf` at first
(`learning/nyga_distribution.py:211`). -/
def exceeds (x : ℝ) : LogP → Prop
  | .negInf => True
  | .fin y => x > y

/-- `compute_best_split` (`learning/nyga_distribution.py:183-215`). -/
noncomputable def computeBestSplit (P : Params) (A : Arrays) (s : Step) : Except PyErr (LogP × Option ℤ) := do
  let r ← rightPoint A s.last
  let l ← leftPoint A s.first
  (pyRange (s.first + P.minSamples) (s.last - P.minSamples + 1)).foldlM (fun best k => do
    let left ← splitSide A s k l
    let right ← splitSide A s k r
    if exceeds (left + right) best.1 then .ok (.fin (left + right), some k) else .ok best) (LogP.negInf, none)

/-- `improvement_is_good_enough` (`learning/nyga_distribution.py:286-293`). -/
noncomputable def goodEnough (P : Params) (A : Arrays) (s : Step) (best : LogP) : Except PyErr Prop := do
  let w ← withoutSplit A s
  .ok ((best - LogP.fin w).exp > P.minImprovement)

/-- `induce` (`learning/nyga_distribution.py:295-323`): the new steps and the circuit.  If no split exists and the improvement is
nevertheless good enough (a negative threshold), the new steps have the index `None`, and whatever is computed from them
raises `TypeError`; here it is raised at once. -/
noncomputable def induce (P : Params) (A : Arrays) (s : Step) (g : Circuit) : Except PyErr (List Step × Circuit) := do
  let best ← computeBestSplit P A s
  if ← goodEnough P A s best.1 then
    match best.2 with
    | some k => .ok ([⟨s.first, k⟩, ⟨k, s.last⟩], g)
    | none => .error .typeError
  else do
    let w ← sumFrom A.cumulative s.first s.last
    let total ← pyGet A.cumulative (-1)
    let d ← createUniform P A s
    let r ← g.root
    .ok ([], g.addSubcircuit (Graph.newUnit g.fresh (.leaf d)) r g.fresh (some (LogP.log (w / total))))

/-- The loop over the queue (`learning/nyga_distribution.py:390-393`), at most `fuel` rounds. -/
noncomputable def loop (P : Params) (A : Arrays) : ℕ → List Step → Circuit → Except PyErr Circuit
  | _, [], g => .ok g
  | 0, _ :: _, _ => .error .recursionError
  | fuel + 1, s :: q, g => do
    let (new, g') ← induce P A s g
    loop P A fuel (q ++ new) g'

/-- `NygaDistribution.fit` (`learning/nyga_distribution.py:348-396`); `cap` stands for the default `density_cap` (`inf`) of a
Dirac distribution.  The number of rounds is bounded by `2 * len(data)`; that this is enough is part of C39. -/
noncomputable def fit (P : Params) (cap : ℝ) (data : List ℝ) (weights : Option (List ℝ)) : Except PyErr Circuit :=
  let unique := (npUnique data).map Prod.fst
  match unique with
  | [x] => .ok (Graph.newUnit 0 (.leaf (.dirac P.var x cap)))
  | _ => do
    let ws := weights.getD ((npUnique data).map fun vc => (vc.2 : ℝ))
    let A : Arrays := ⟨unique, cumsum ws, cumsum (ws.map Real.log)⟩
    let g ← loop P A (2 * unique.length) [⟨0, unique.length⟩] (Graph.newUnit 0 .sum)
    g.normalize

end PM.Learn.Nyga
