import Verif.Dist.Leaf

/-!
# Sampling from truncated Gaussians

The rejection samplers of `distributions/gaussian.py`.  The random number generator is a parameter: `rng t n` is what
the `t`-th request for `n` numbers returns.  Loops and recursions that need not stop take a number of rounds and return
`none` while they are still running.
-/

namespace PM.TruncGauss

open Classical

/-- `TruncatedGaussianDistribution.rejection_sample` (`distributions/gaussian.py:184-197`).  `rng t n` is
`super().sample(n)` in the `t`-th recursion. -/
noncomputable def rejectionSample (v : Var) (I : SimpleInterval) (μ σ : ℝ) (rng : ℕ → ℕ → List ℝ) :
    ℕ → ℕ → ℕ → Option (List ℝ)
  | 0, _, _ => none
  | k + 1, t, amount =>
    let samples := (rng t amount).filter (fun x => (Leaf.truncGaussian v I μ σ).logLik x ≠ .negInf)
    let rejected := amount - samples.length
    if 0 < rejected then
      (rejectionSample v I μ σ rng k (t + 1) rejected).map (fun more => samples ++ more)
    else some samples

/-- `transform_to_standard_normal` (`distributions/gaussian.py:272-278`); infinities stay. -/
noncomputable def toStandard (μ σ : ℝ) (x : EReal) : EReal :=
  if x = ⊥ then ⊥ else if x = ⊤ then ⊤ else (((x.toReal - μ) / σ : ℝ) : EReal)

/-- The interval of `standard_distribution` (`distributions/gaussian.py:288-291`). -/
noncomputable def standardInterval (I : SimpleInterval) (μ σ : ℝ) : SimpleInterval :=
  { lower := toStandard μ σ I.lower, upper := toStandard μ σ I.upper, left := I.left, right := I.right }

/-- Replace infinite borders (`distributions/gaussian.py:293-299`): first the upper one, then the lower one. -/
noncomputable def cutInfinite (J : SimpleInterval) : SimpleInterval :=
  let J := if J.upper = ⊤ then { J with upper := J.lower + 10 } else J
  if J.lower = ⊥ then { J with lower := J.upper - 10 } else J

/-- The `limiting_function` of one proposal (`distributions/gaussian.py:335-347`). -/
noncomputable def limiting (J : SimpleInterval) (u : ℝ) : Except PyErr ℝ :=
  if J.Mem 0 then .ok (Real.exp (u ^ 2 / -2))
  else if J.upper ≤ 0 then .ok (Real.exp ((J.upper.toReal ^ 2 - u ^ 2) / 2))
  else if 0 ≤ J.lower then .ok (Real.exp ((J.lower.toReal ^ 2 - u ^ 2) / 2))
  else .error .valueError

/-- `np.random.uniform(low, high)` is `low + (high - low) * random()` with `random()` in `[0, 1)`. -/
noncomputable def scaleDraw (J : SimpleInterval) (a : ℝ) : ℝ :=
  J.lower.toReal + (J.upper.toReal - J.lower.toReal) * a

/-- `robert_…_double_truncation_helper` (`distributions/gaussian.py:325-356`).  `draws` holds for each of the `amount`
proposals the two standard uniform numbers used: the one for the proposal and the acceptance probability. -/
noncomputable def robertHelper (J : SimpleInterval) : List (ℝ × ℝ) → Except PyErr (List ℝ)
  | [] => .ok []
  | (a, p) :: rest => do
    let l ← limiting J (scaleDraw J a)
    let more ← robertHelper J rest
    .ok (if p ≤ l then scaleDraw J a :: more else more)

/-- The `while` loop of `robert_…_double_truncation` (`distributions/gaussian.py:318-322`); `rng t n` are the draws of
the `t`-th round. -/
noncomputable def robertLoop (J : SimpleInterval) (rng : ℕ → ℕ → List (ℝ × ℝ)) (amount : ℕ) :
    ℕ → ℕ → List ℝ → Option (Except PyErr (List ℝ))
  | 0, _, acc => if acc.length < amount then none else some (.ok acc)
  | k + 1, t, acc =>
    if acc.length < amount then
      match robertHelper J (rng t (amount - acc.length)) with
      | .error e => some (.error e)
      | .ok new => robertLoop J rng amount k (t + 1) (acc ++ new)
    else some (.ok acc)

/-- `robert_rejection_sample` (`distributions/gaussian.py:280-306`), at most `k` rounds. -/
noncomputable def robertSample (I : SimpleInterval) (μ σ : ℝ) (rng : ℕ → ℕ → List (ℝ × ℝ)) (k amount : ℕ) :
    Option (Except PyErr (List ℝ)) :=
  (robertLoop (cutInfinite (standardInterval I μ σ)) rng amount k 0 []).map
    (fun r => r.map (fun xs => xs.map (fun x => x * σ + μ)))

/-- `TruncatedGaussianDistribution.sample` (`distributions/gaussian.py:358-361`).  `normal n` is
`GaussianDistribution.sample(n)`. -/
noncomputable def sample (I : SimpleInterval) (μ σ : ℝ) (normal : ℕ → List ℝ) (rng : ℕ → ℕ → List (ℝ × ℝ))
    (k amount : ℕ) : Option (Except PyErr (List ℝ)) :=
  if I.upper = ⊤ ∧ I.lower = ⊥ then some (.ok (normal amount)) else robertSample I μ σ rng k amount

end PM.TruncGauss
