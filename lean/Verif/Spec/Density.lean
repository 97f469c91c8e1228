import Verif.Dist.Leaf

/-!
# Specification: densities of the leaf distributions

Textbook densities (with respect to Lebesgue measure for continuous and counting measure for discrete variables).  The
density of a Dirac distribution at its location is its `density_cap`, as documented in the code.
-/

namespace PM.Spec

open Classical ProbabilityTheory MeasureTheory

noncomputable def leafDensity : Leaf → ℝ → ℝ
  | .uniform _ lo hi l r, x => if (SimpleInterval.mk lo hi l r).Mem x then 1 / (hi - lo) else 0
  | .dirac _ loc cap, x => if x = loc then cap else 0
  | .symbolic _ probs, x => ((probs.filter fun kp => (kp.1 : ℝ) = x).map Prod.snd).sum
  | .integer _ probs, x => ((probs.filter fun kp => (kp.1 : ℝ) = x).map Prod.snd).sum
  | .gaussian _ μ σ, x => gaussianPDFReal μ (Real.toNNReal (σ ^ 2)) x
  | .truncGaussian _ I μ σ, x =>
    if I.Mem x then gaussianPDFReal μ (Real.toNNReal (σ ^ 2)) x / (gaussianReal μ (Real.toNNReal (σ ^ 2))).real I.toSet
    else 0

end PM.Spec
