import Verif.Circuit.Probability
import Verif.Spec.Sample

/-!
# Specification: an object that answers no query
-/

namespace PM.Spec

/-- Every log-likelihood, every cumulative probability and every probability raises `ValueError`, and `sample` never returns. -/
def Unusable (g : Circuit) : Prop :=
  (∀ m x, (g.logLikelihood m x).2 = .error .valueError) ∧ (∀ m x, (g.cdf m x).2 = .error .valueError) ∧
    (∀ m dom E, (g.probability m dom E).2 = .error .valueError) ∧ ∀ amount, chance (g.sampleR amount) (fun _ => True) = 0

end PM.Spec
