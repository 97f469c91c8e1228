import Verif.Dist.Discrete
import Verif.Dist.Leaf

/-!
# `translate` and `scale` of the leaf distributions
-/

namespace PM

open Classical

/-- `translation[variable]` for a dictionary of numbers. -/
def readEntry (t : Var → Option ℝ) (v : Var) : Except PyErr ℝ := match t v with
  | some c => .ok c
  | none => .error .keyError

/-- The interval moved by `c` (`distributions/distributions.py:225-229`). -/
noncomputable def SimpleInterval.shift (I : SimpleInterval) (c : ℝ) : SimpleInterval := ⟨I.lower + c, I.upper + c, I.left, I.right⟩

namespace Leaf

/-- `distribution.translate(translation)`: uniform (`distributions/distributions.py:225-229`), Dirac (`:618-619`), integer
(`:496-500`, the translation of an integer variable is an `int`), Gaussian (`distributions/gaussian.py:125-126`), truncated
Gaussian (`:363-365`, both of the above).  Symbolic distributions have no such method. -/
noncomputable def translate (t : Var → Option ℝ) : Leaf → Except PyErr Leaf
  | uniform v lo hi l r => do
    let c ← readEntry t v
    .ok (.uniform v (lo + c) (hi + c) l r)
  | dirac v loc cap => do
    let c ← readEntry t v
    .ok (.dirac v (loc + c) cap)
  | symbolic _ _ => .error .attributeError
  | integer v probs =>
    if probs = [] then .ok (.integer v []) else do
    let c ← readEntry t v
    .ok (.integer v (probs.foldl (fun d kp => Dict.set d (kp.1 + ⌊c⌋) kp.2) []))
  | gaussian v μ σ => do
    let c ← readEntry t v
    .ok (.gaussian v (μ + c) σ)
  | truncGaussian v I μ σ => do
    let c ← readEntry t v
    .ok (.truncGaussian v (I.shift c) (μ + c) σ)

/-- `distribution.scale(scaling)`: uniform (`distributions/distributions.py:231-235`), Dirac (`:621-622`, which adds), integer
(`:502-506`, the factor of an integer variable is an `int`).  On Gaussians and truncated Gaussians the name `scale` is the
standard deviation, a number (`distributions/gaussian.py:29`), which hides the method: calling it is a `TypeError`.  Symbolic
distributions have no such method. -/
noncomputable def rescale (t : Var → Option ℝ) : Leaf → Except PyErr Leaf
  | uniform v lo hi l r => do
    let s ← readEntry t v
    .ok (.uniform v (lo * s) (hi * s) l r)
  | dirac v loc cap => do
    let s ← readEntry t v
    .ok (.dirac v (loc + s) cap)
  | symbolic _ _ => .error .attributeError
  | integer v probs =>
    if probs = [] then .ok (.integer v []) else do
    let s ← readEntry t v
    .ok (.integer v (probs.foldl (fun d kp => Dict.set d (kp.1 * ⌊s⌋) kp.2) []))
  | gaussian _ _ _ => .error .typeError
  | truncGaussian _ _ _ _ => .error .typeError

end Leaf
end PM
