import Verif.Spec.JptMarginal

/-!
# Specification: moments of the training data
-/

namespace PM.Spec

/-- The mean of `(x - c) ^ k` over the entries of an integer column. -/
noncomputable def sampleMoment (data : List Learn.Jpt.Row) (i k : ℕ) (c : ℝ) : ℝ :=
  (data.map fun x => ((x.int i : ℝ) - c) ^ k).sum / data.length

/-- The mean of the entries of an integer column. -/
noncomputable def sampleMean (data : List Learn.Jpt.Row) (i : ℕ) : ℝ := (data.map fun x => (x.int i : ℝ)).sum / data.length

/-- The mean squared distance from the mean. -/
noncomputable def sampleVariance (data : List Learn.Jpt.Row) (i : ℕ) : ℝ :=
  (data.map fun x => ((x.int i : ℝ) - sampleMean data i) ^ 2).sum / data.length

end PM.Spec
