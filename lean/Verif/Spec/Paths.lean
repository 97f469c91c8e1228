import Verif.Spec.Value

/-! # Specification: the number of paths from the root to the units -/

namespace PM.Spec
open PM.Graph

variable {D : Type}

/-- `c n` is the number of paths from `r` to `n`: one for `r` itself, and for every edge into `n` the paths to its source. -/
def PathCount (g : Graph D) (r : Node) (c : Node → ℕ) : Prop :=
  ∀ n, c n = (if n = r then 1 else 0) + ((g.inEdges n).map fun e => c e.src).sum

end PM.Spec
