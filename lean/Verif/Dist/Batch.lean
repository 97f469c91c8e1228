import Verif.Dist.Discrete

/-!
# Leaf distributions on arrays of rows

The queries of `distributions/*.py` take an array with one row per event and are written with numpy masks.  Here they are
modelled on the column of the distribution's variable, one number per row.
-/

namespace PM

open Classical ProbabilityTheory

/-- `x[mask]` for a boolean mask (`distributions/distributions.py:212`, `distributions/gaussian.py:165`): the entries at
which the mask is true, in order. -/
def maskSelect {α : Type} (mask : List Bool) (xs : List α) : List α :=
  ((mask.zip xs).filter fun p => p.1).map Prod.snd

/-- `result[mask] = values` entry by entry. -/
def maskWrite {α : Type} : List Bool → List α → List α → List α
  | true :: mask, v :: values, _ :: result => v :: maskWrite mask values result
  | false :: mask, values, a :: result => a :: maskWrite mask values result
  | _, _, result => result

/-- `result[mask] = values` for a boolean mask and an array (`distributions/distributions.py:213`,
`distributions/gaussian.py:167`): the values go, in order, to the entries at which the mask is true.  A wrong number of
values is a `ValueError` (numpy would repeat a single value; that is an error here too). -/
def maskAssign {α : Type} (mask : List Bool) (values result : List α) : Except PyErr (List α) :=
  if values.length = mask.count true then .ok (maskWrite mask values result) else .error .valueError

/-- `result[mask] = value` for a boolean mask and one number (`distributions/distributions.py:269, 537, 542`). -/
def fillWhere {α : Type} (mask : List Bool) (value : α) (result : List α) : List α :=
  List.zipWith (fun b a => if b then value else a) mask result

namespace Leaf

/-- `log_likelihood` on the column of the variable.  Uniform and truncated Gaussian: start with `-inf`, compute the rows
inside the interval and write them back (`distributions/distributions.py:209-214`, `distributions/uniform.py:18-19`,
`distributions/gaussian.py:159-160`); discrete: overwrite the matching rows for every key (`distributions/distributions.py:
265-270`); Dirac: overwrite the rows at the location (`:535-538`); Gaussian: `norm.logpdf` of the column
(`distributions/gaussian.py:35-36`). -/
noncomputable def logLikBatch : Leaf → List ℝ → Except PyErr (List LogP)
  | uniform _ lo hi l r, xs =>
    maskAssign (xs.map fun x : ℝ => decide (SimpleInterval.leftOK l lo x ∧ SimpleInterval.rightOK r hi x))
      ((maskSelect (xs.map fun x : ℝ => decide (SimpleInterval.leftOK l lo x ∧ SimpleInterval.rightOK r hi x)) xs).map
        fun _ => .fin (-Real.log (hi - lo)))
      (List.replicate xs.length .negInf)
  | dirac _ loc cap, xs =>
    .ok (fillWhere (xs.map fun x => decide (x = loc)) (LogP.log cap) (List.replicate xs.length .negInf))
  | symbolic _ probs, xs | integer _ probs, xs =>
    .ok (probs.foldl (fun result kp => fillWhere (xs.map fun x => decide (x = (kp.1 : ℝ))) (LogP.log kp.2) result)
      (List.replicate xs.length .negInf))
  | gaussian _ μ σ, xs => .ok (xs.map fun x => LogP.log (gaussianPDFReal μ (nnvar σ) x))
  | truncGaussian _ I μ σ, xs =>
    maskAssign (xs.map fun x => decide (I.Mem x))
      ((maskSelect (xs.map fun x => decide (I.Mem x)) xs).map
        fun x => LogP.log (gaussianPDFReal μ (nnvar σ) x) - LogP.log (truncZ I μ σ))
      (List.replicate xs.length .negInf)

/-- `cdf` on the column of the variable: uniform (`distributions/uniform.py:21-24`), Dirac
(`distributions/distributions.py:540-543`), integer (`:461-470`), Gaussian (`distributions/gaussian.py:38-39`), truncated
Gaussian (`distributions/gaussian.py:162-169`); symbolic distributions have none (`probabilistic_model.py:94-108`). -/
noncomputable def cdfBatch : Leaf → List ℝ → Except PyErr (List ℝ)
  | uniform _ lo hi _ _, xs => .ok (xs.map fun x => min 1 (max 0 ((x - lo) / (hi - lo))))
  | dirac _ loc _, xs => .ok (fillWhere (xs.map fun x => decide (x ≥ loc)) 1 (List.replicate xs.length 0))
  | symbolic _ _, _ => .error .notImplementedError
  | integer _ probs, xs => integerCdfArray probs xs
  | gaussian _ μ σ, xs => .ok (xs.map fun x : ℝ => gaussCdf μ σ x)
  | truncGaussian _ I μ σ, xs => do
    let result ← maskAssign (xs.map fun x : ℝ => decide (SimpleInterval.leftOK I.left I.lower x))
      ((maskSelect (xs.map fun x : ℝ => decide (SimpleInterval.leftOK I.left I.lower x)) xs).map
        fun x : ℝ => (gaussCdf μ σ x - gaussCdf μ σ I.lower) / truncZ I μ σ)
      (List.replicate xs.length 0)
    pure (result.map fun a => min 1 a)

end Leaf
end PM
