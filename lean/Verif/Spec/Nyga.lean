import Verif.Spec.Density
import Verif.Circuit.Query
import Mathlib.Algebra.BigOperators.Intervals
import Mathlib.Algebra.BigOperators.Group.Finset.Basic
import Mathlib.Order.Interval.Finset.Nat

/-!
# Specification: quantile distributions

`data` are sorted, distinct points; a quantile is a range of indices.
-/

namespace PM.Spec

/-- The points of a uniform leaf: the interval it was built with. -/
def intervalOf (g : Circuit) (n : Node) : Set ℝ :=
  {x | ∃ v lo hi l r, g.kind? n = some (.leaf (.uniform v lo hi l r)) ∧ (SimpleInterval.mk lo hi l r).Mem x}

open Classical in
/-- The weight of the points in a set; `ws` has a weight for every point. -/
noncomputable def weightIn (data ws : List ℝ) (S : Set ℝ) : ℝ := (((data.zip ws).filter fun p => p.1 ∈ S).map Prod.snd).sum

/-- The borders between quantiles: the first point, the midpoints between neighbours, the last point. -/
noncomputable def border (data : List ℝ) (i : ℕ) : ℝ :=
  if i = 0 then data.getD 0 0
  else if i < data.length then (data.getD (i - 1) 0 + data.getD i 0) / 2
  else data.getD (data.length - 1) 0

/-- The weight of the points with indices `i, …, j - 1`. -/
noncomputable def massOf (ws : List ℝ) (i j : ℕ) : ℝ := ∑ t ∈ Finset.Ico i j, ws.getD t 0

/-- The log-likelihood of the (weighted) points `i, …, j - 1` under the uniform density between the borders `i` and `j`, scaled
with `share`. -/
noncomputable def uniformScore (data ws : List ℝ) (share : ℝ) (i j : ℕ) : ℝ :=
  ∑ t ∈ Finset.Ico i j, Real.log (ws.getD t 0 * (share / (border data j - border data i)))

/-- The log-likelihood of the points `b, …, e - 1` if they are split before the point `k`. -/
noncomputable def splitScore (data ws : List ℝ) (b e k : ℕ) : ℝ :=
  uniformScore data ws (massOf ws b k / massOf ws b e) b k + uniformScore data ws (massOf ws k e / massOf ws b e) k e

end PM.Spec
