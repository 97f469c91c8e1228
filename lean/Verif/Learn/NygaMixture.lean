import Verif.Circuit.LeafMix
import Verif.Circuit.Structure

/-!
# `NygaDistribution.from_uniform_mixture`
-/

namespace PM.Learn.Nyga

open Graph

/-- `[leaf.distribution.interval.lower, leaf.distribution.interval.upper]` (`learning/nyga_distribution.py:431-433`).  Leaves that are not
uniform are not modelled (most of them have no `interval`). -/
def bordersOf (g : Circuit) (n : Node) : Except PyErr (List ℝ) :=
  match g.kind? n with
  | some (.leaf (.uniform _ lo hi _ _)) => .ok [lo, hi]
  | _ => .error .attributeError

open Classical in
/-- `all_mixture_points` (`learning/nyga_distribution.py:430-435`). -/
noncomputable def mixturePoints (g : Circuit) (r : Node) : Except PyErr (List ℝ) := do
  let bs ← (g.leavesOf r).mapM (bordersOf g)
  return bs.flatten.toFinset.sort (· ≤ ·)

/-- The lower and upper border and the right bound of the `i`-th interval (`learning/nyga_distribution.py:437-441`). -/
def piece (pts : List ℝ) (i : ℕ) : ℝ × ℝ × Bound :=
  (pts.getD i 0, pts.getD (i + 1) 0, if i + 2 = pts.length then .closed else .opn)

/-- `zip(all_mixture_points[:-1], all_mixture_points[1:])` with `enumerate`. -/
def pieces (pts : List ℝ) : List (ℝ × ℝ × Bound) := (List.range (pts.length - 1)).map (piece pts)

/-- The weights of the pieces, `mixture.probability_of_simple_event(…)` (`learning/nyga_distribution.py:444`). -/
noncomputable def weigh (g : Circuit) (v : Var) : List (ℝ × ℝ × Bound) → Mem ℝ → Except PyErr (List ℝ)
  | [], _ => .ok []
  | I :: Is, m =>
    match g.probabilityOfSimpleEvent m [(v, .interval [⟨(I.1 : EReal), (I.2.1 : EReal), .closed, I.2.2⟩])] with
    | (_, .error e) => .error e
    | (m', .ok p) => do
      let ps ← weigh g v Is m'
      return p :: ps

/-- The unit, the uniform distribution and the weight `np.log(weight)` of the `i`-th piece
(`learning/nyga_distribution.py:442-445`). -/
noncomputable def pieceEntry (v : Var) (i : ℕ) (q : (ℝ × ℝ × Bound) × ℝ) : Node × Leaf × LogP :=
  (i + 1, .uniform v q.1.1 q.1.2.1 .closed q.1.2.2, LogP.log q.2)

/-- `NygaDistribution.from_uniform_mixture` (`learning/nyga_distribution.py:414-447`). -/
noncomputable def fromUniformMixture (g : Circuit) (m : Mem ℝ) : Except PyErr Circuit := do
  let vs ← g.circuitVars
  match vs.sort (· ≤ ·) with
  | [v] => do
    let r ← g.root
    let pts ← mixturePoints g r
    let ps ← weigh g v (pieces pts) m
    return leafMix 0 (((pieces pts).zip ps).mapIdx (pieceEntry v))
  | _ => .error .assertionError

end PM.Learn.Nyga
