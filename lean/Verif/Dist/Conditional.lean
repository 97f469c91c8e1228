import Verif.Dist.Leaf

/-!
# Supports and conditional distributions of the leaf distributions
-/

namespace PM

open Classical

namespace VSet

/-- `AbstractCompositeSet.is_empty` of `random_events`. -/
def IsEmpty : VSet → Prop
  | interval I => ∀ i ∈ I, i.IsEmpty
  | symbols S => S = []

/-- `AbstractCompositeSet.intersection_with` of `random_events`: the non-empty pairwise intersections of the simple
sets.  Sets of different type (never intersected by the modelled code) give the empty set of the first type. -/
noncomputable def inter : VSet → VSet → VSet
  | interval I, interval J =>
    interval ((I.flatMap fun i => J.map fun j => i.inter j).filter fun k => ¬ k.IsEmpty)
  | symbols S, symbols T => symbols (S.filter fun k => k ∈ T)
  | interval _, symbols _ => interval []
  | symbols _, interval _ => symbols []

end VSet

namespace Leaf

/-- `univariate_support`: finite-support distributions (`distributions/distributions.py:178-180`), Dirac (`:549-551`),
Gaussian (`distributions/gaussian.py:31-33`), symbolic (`distributions/distributions.py:398-401`, the keys are hashes of
elements of the domain), integer (`:453-459`; `random_events` sorts the singletons, here they are in the order of the
dictionary). -/
noncomputable def support : Leaf → VSet
  | uniform _ lo hi l r => .interval [⟨lo, hi, l, r⟩]
  | dirac _ loc _ => .interval [⟨loc, loc, .closed, .closed⟩]
  | symbolic _ probs => .symbols ((probs.filter fun kp => 0 < kp.2).map Prod.fst)
  | integer _ probs =>
    .interval ((probs.filter fun kp => 0 < kp.2).map fun kp => ⟨((kp.1 : ℝ) : EReal), ((kp.1 : ℝ) : EReal), .closed, .closed⟩)
  | gaussian .. => .interval [⟨⊥, ⊤, .opn, .opn⟩]
  | truncGaussian _ I _ _ => .interval [I]

/-- `log_conditional_from_simple_interval` (`distributions/distributions.py:134-144`): a singleton gives a Dirac
distribution and the log density (`:121-132`), otherwise uniform (`distributions/uniform.py:29-31`), Gaussian and
truncated Gaussian (`distributions/gaussian.py:94-98`; the truncated one inherits the method and uses its own `cdf`).
The other classes have no implementation for non-singletons (`distributions/distributions.py:146-152`). -/
noncomputable def condSimple (d : Leaf) (I : SimpleInterval) : Except PyErr (Leaf × LogP) :=
  if I.IsSingleton then
    .ok (.dirac d.var I.lower.toReal (d.logLik I.lower.toReal).exp, d.logLik I.lower.toReal)
  else
    match d with
    | uniform v lo hi _ _ =>
      .ok (.uniform v I.lower.toReal I.upper.toReal I.left I.right, LogP.log (cdfSum (uniformCdf lo hi) [I]))
    | gaussian v μ σ => .ok (.truncGaussian v I μ σ, LogP.log (gaussCdf μ σ I.upper - gaussCdf μ σ I.lower))
    | truncGaussian v J μ σ => .ok (.truncGaussian v I μ σ, LogP.log (truncCdf J μ σ I.upper - truncCdf J μ σ I.lower))
    | dirac .. | integer .. => .error .notImplementedError
    | symbolic .. => .error .attributeError

/-- `DiscreteDistribution.normalize` (`distributions/distributions.py:320-326`). -/
noncomputable def normalizeProbs (probs : List (ℤ × ℝ)) : List (ℤ × ℝ) :=
  probs.map fun kp => (kp.1, kp.2 / (probs.map Prod.snd).sum)

/-- The last steps of `log_conditional_of_composite_set` (`distributions/distributions.py:340-348, 386-393`). -/
noncomputable def discreteCond (mk : List (ℤ × ℝ) → Leaf) (kept : List (ℤ × ℝ)) : Option Leaf × LogP :=
  if (kept.map Prod.snd).sum = 0 then (none, .negInf)
  else (some (mk (normalizeProbs kept)), LogP.log (kept.map Prod.snd).sum)

/-- `log_conditional` given the set of the own variable (`composite_set_from_event`): continuous
(`distributions/distributions.py:108-119`; several pieces raise `NotImplementedError`, `:154-160`), discrete
(`:333-348`), symbolic (`:379-393`).  A set of the wrong type is a `TypeError` here. -/
noncomputable def logConditional (d : Leaf) (A : VSet) : Except PyErr (Option Leaf × LogP) :=
  match d, A with
  | symbolic v probs, .symbols S =>
    .ok (discreteCond (symbolic v) ((S.filter fun k => 0 < lookup probs k).map fun k => (k, lookup probs k)))
  | integer v probs, .interval I =>
    .ok (discreteCond (integer v) (probs.filter fun kp => (VSet.interval I).Mem (kp.1 : ℝ)))
  | symbolic .., _ | integer .., _ => .error .typeError
  | _, .symbols _ => .error .typeError
  | d, .interval I =>
    match (VSet.interval I).inter d.support with
    | .interval [] => .ok (none, .negInf)
    | .interval [K] => (d.condSimple K).map fun r => (some r.1, r.2)
    | _ => .error .notImplementedError

end Leaf
end PM
