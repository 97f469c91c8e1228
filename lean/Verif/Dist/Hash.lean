import Verif.Circuit.Equality

/-!
# `hash` of distributions
-/

namespace PM

/-- The tuples that are hashed: `(variable, location, density_cap)`, `(variable.name, hash(interval))` and
`(variable, tuple(probabilities.items()))` (`distributions/distributions.py:263, 581`, `distributions/uniform.py:134`). -/
inductive HashKey where
  | dirac (v : Var) (loc cap : ℝ)
  | uniform (v : Var) (lo hi : ℝ) (l r : Bound)
  | discrete (v : Var) (items : List (ℤ × ℝ))

/-- `hash(distribution)`: Dirac (`distributions/distributions.py:580-581`), uniform (`distributions/uniform.py:133-134`), symbolic and
integer (`distributions/distributions.py:262-263`).  `H` is Python's hash of tuples, of which only is used that it is a function.  A class
with `__eq__` but without `__hash__` has unhashable objects: Gaussians and truncated Gaussians (`distributions/gaussian.py:100, 253`). -/
def Leaf.hash (H : HashKey → ℤ) : Leaf → Except PyErr ℤ
  | .dirac v loc cap => .ok (H (.dirac v loc cap))
  | .uniform v lo hi l r => .ok (H (.uniform v lo hi l r))
  | .symbolic v p | .integer v p => .ok (H (.discrete v p))
  | .gaussian .. | .truncGaussian .. => .error .typeError

end PM
