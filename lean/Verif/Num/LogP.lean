import Mathlib.Analysis.SpecialFunctions.Log.Basic
import Mathlib.Algebra.BigOperators.Group.List.Basic
import Mathlib.Algebra.Order.BigOperators.Group.List

/-!
# Log numbers

The code stores weights and likelihoods as logarithms (`np.log`, `-np.inf`).  A `LogP` is such a
number: either `-inf` or a real number.  Simplifications (see DESIGN.md): no rounding, no NaN, no `+inf`.
-/

namespace PM

/-- A float used as a logarithm: `-np.inf` or a finite number.
Models the values stored under `log_weight` and in `result_of_current_query` by `log_forward`
(`nx/probabilistic_circuit.py:399-406`). -/
inductive LogP where
  | negInf
  | fin (x : ℝ)

namespace LogP

/-- `np.exp` on log numbers (`probabilistic_model.py:82`, `nx/probabilistic_circuit.py:401`). -/
noncomputable def exp : LogP → ℝ
  | negInf => 0
  | fin x => Real.exp x

/-- `np.log` on non-negative numbers; `np.log(0) = -inf` (`doc/general_remarks.md`).
Negative arguments (NaN in numpy) do not occur in the modelled code and are mapped to `-inf`. -/
noncomputable def log (x : ℝ) : LogP :=
  if x ≤ 0 then negInf else fin (Real.log x)

/-- Float addition of log numbers. -/
noncomputable def add : LogP → LogP → LogP
  | fin x, fin y => fin (x + y)
  | _, _ => negInf

noncomputable instance : Add LogP := ⟨add⟩

/-- `0.`, the logarithm of one. -/
noncomputable instance : Zero LogP := ⟨fin 0⟩

/-- `w -= total` with a finite `total` (`nx/probabilistic_circuit.py:595`).
`total = -inf` gives NaN in numpy; the caller's guard excludes it, here it returns `w`. -/
noncomputable def sub : LogP → LogP → LogP
  | fin x, fin y => fin (x - y)
  | negInf, _ => negInf
  | fin x, negInf => fin x

noncomputable instance : Sub LogP := ⟨sub⟩

/-- the test `weight == -np.inf` (`nx/probabilistic_circuit.py:569`, `870`). -/
def isNegInf : LogP → Bool
  | negInf => true
  | fin _ => false

/-- `scipy.special.logsumexp` of a list, idealised: the logarithm of the sum of the exponentials. -/
noncomputable def logsumexp (l : List LogP) : LogP := log (l.map exp).sum

/-- Order of floats. -/
def le : LogP → LogP → Prop
  | negInf, _ => True
  | fin _, negInf => False
  | fin x, fin y => x ≤ y

instance : LE LogP := ⟨le⟩

@[simp] theorem exp_negInf : exp negInf = 0 := rfl
@[simp] theorem exp_fin (x : ℝ) : exp (fin x) = Real.exp x := rfl
theorem zero_def : (0 : LogP) = fin 0 := rfl
@[simp] theorem exp_zero : exp 0 = 1 := by simp [zero_def]
@[simp] theorem fin_add_fin (x y : ℝ) : fin x + fin y = fin (x + y) := rfl
@[simp] theorem negInf_add (a : LogP) : negInf + a = negInf := by cases a <;> rfl
@[simp] theorem add_negInf (a : LogP) : a + negInf = negInf := by cases a <;> rfl
@[simp] theorem fin_sub_fin (x y : ℝ) : fin x - fin y = fin (x - y) := rfl
@[simp] theorem negInf_sub (a : LogP) : negInf - a = negInf := by cases a <;> rfl
@[simp] theorem isNegInf_negInf : isNegInf negInf = true := rfl
@[simp] theorem isNegInf_fin (x : ℝ) : isNegInf (fin x) = false := rfl

theorem exp_nonneg (a : LogP) : 0 ≤ exp a := by
  cases a with
  | negInf => simp
  | fin x => simpa using (Real.exp_pos x).le

theorem exp_eq_zero {a : LogP} : exp a = 0 ↔ a = negInf := by
  cases a with
  | negInf => simp
  | fin x => simp [(Real.exp_pos x).ne']

theorem exp_pos {a : LogP} : 0 < exp a ↔ a ≠ negInf := by
  rw [ne_eq, ← exp_eq_zero]
  exact ⟨fun h => h.ne', fun h => lt_of_le_of_ne (exp_nonneg a) (Ne.symm h)⟩

theorem isNegInf_iff {a : LogP} : a.isNegInf = true ↔ a = negInf := by
  cases a <;> simp

theorem exp_add (a b : LogP) : exp (a + b) = exp a * exp b := by
  cases a <;> cases b <;> simp [Real.exp_add]

theorem exp_sub {a b : LogP} (h : b ≠ negInf) : exp (a - b) = exp a / exp b := by
  cases a <;> cases b <;> simp_all [Real.exp_sub]

theorem exp_log {x : ℝ} (h : 0 ≤ x) : exp (log x) = x := by
  unfold log
  split
  · simp only [exp_negInf]; linarith
  · rename_i h'; simp only [exp_fin]; exact Real.exp_log (by linarith)

theorem exp_injective : Function.Injective exp := by
  intro a b h
  cases a with
  | negInf =>
    cases b with
    | negInf => rfl
    | fin y => exact absurd h.symm (Real.exp_pos y).ne'
  | fin x =>
    cases b with
    | negInf => exact absurd h (Real.exp_pos x).ne'
    | fin y => exact congrArg fin (Real.exp_injective h)

@[simp] theorem log_exp (a : LogP) : log (exp a) = a :=
  exp_injective (exp_log (exp_nonneg a))

@[simp] theorem log_zero : log 0 = negInf := by simp [log]
@[simp] theorem log_one : log 1 = 0 := by simp [zero_def, log, show ¬ (1 : ℝ) ≤ 0 by norm_num]

theorem log_mul {x y : ℝ} (hx : 0 ≤ x) (hy : 0 ≤ y) : log (x * y) = log x + log y := by
  apply exp_injective
  rw [exp_add, exp_log hx, exp_log hy, exp_log (mul_nonneg hx hy)]

theorem log_eq_negInf {x : ℝ} (hx : 0 ≤ x) : log x = negInf ↔ x = 0 := by
  rw [← exp_eq_zero, exp_log hx]

theorem sum_exp_nonneg (l : List LogP) : 0 ≤ (l.map exp).sum := by
  apply List.sum_nonneg
  intro x hx
  obtain ⟨a, _, rfl⟩ := List.mem_map.1 hx
  exact exp_nonneg a

theorem exp_logsumexp (l : List LogP) : exp (logsumexp l) = (l.map exp).sum :=
  exp_log (sum_exp_nonneg l)

theorem zero_add' (a : LogP) : 0 + a = a := by cases a <;> simp [zero_def]

theorem le_iff {a b : LogP} : a ≤ b ↔ exp a ≤ exp b := by
  cases a with
  | negInf => simp [show negInf ≤ b from trivial, exp_nonneg]
  | fin x =>
    cases b with
    | negInf =>
      simp only [exp_fin, exp_negInf]
      exact ⟨fun h => absurd h (by intro h; exact h), fun h => absurd (Real.exp_pos x) (not_lt.2 h)⟩
    | fin y => simp only [exp_fin, Real.exp_le_exp]; rfl

end LogP
end PM
