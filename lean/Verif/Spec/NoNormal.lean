import Verif.Circuit.Query

/-! # Models without normal distributions -/

namespace PM.Spec

/-- No leaf is a normal distribution or a part of one. -/
def NoNormal (g : Circuit) : Prop :=
  ∀ n d, g.kind? n = some (.leaf d) → (∀ v μ σ, d ≠ .gaussian v μ σ) ∧ ∀ v I μ σ, d ≠ .truncGaussian v I μ σ

end PM.Spec
