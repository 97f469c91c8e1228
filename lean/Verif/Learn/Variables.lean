import Mathlib.Data.Real.Basic

/-!
# Standardized variables of joint probability trees
-/

namespace PM.Learn

/-- `ScaledContinuous` (`learning/jpt/variables.py:160-177`): the fields used by `encode` and `decode`. -/
structure ScaledContinuous where
  mean : ℝ
  std : ℝ

/-- `ScaledContinuous.encode` (`learning/jpt/variables.py:169-170`). -/
noncomputable def ScaledContinuous.encode (v : ScaledContinuous) (x : ℝ) : ℝ := (x - v.mean) / v.std

/-- `ScaledContinuous.decode` (`learning/jpt/variables.py:172-173`). -/
def ScaledContinuous.decode (v : ScaledContinuous) (y : ℝ) : ℝ := y * v.std + v.mean

end PM.Learn
