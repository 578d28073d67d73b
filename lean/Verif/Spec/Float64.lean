import Mathlib.Data.Real.Basic
import Mathlib.Algebra.Order.Field.Power
import Mathlib.Analysis.SpecialFunctions.Log.Basic

/-!
# Specification: IEEE-754 double precision numbers and rounding to nearest

Nothing here refers to the model.
-/

namespace Pysatl.Spec

/-- The finite double precision numbers: `m * 2^e` with an integer `|m| < 2^53` and
`-1074 ≤ e ≤ 971` (subnormal numbers included). -/
def IsFloat64 (x : ℝ) : Prop :=
  ∃ m e : ℤ, |m| < 2 ^ 53 ∧ -1074 ≤ e ∧ e ≤ 971 ∧ x = (m : ℝ) * (2 : ℝ) ^ e

/-- `fl` rounds every real number to a nearest double precision number; nothing is said of
how ties are resolved.  (It agrees with IEEE-754 round-to-nearest up to the largest finite
number; beyond, where IEEE-754 gives an infinity, it gives the largest finite number.) -/
def RoundsToNearest (fl : ℝ → ℝ) : Prop :=
  ∀ x, IsFloat64 (fl x) ∧ ∀ y, IsFloat64 y → |fl x - x| ≤ |y - x|

/-- The operations on Python floats that the corrections use: rounding of the result of
`+ - * /` and of the conversion of an integer, the C library's `pow` with a non-negative
integer exponent and `log`, and Python's built-in `sum`. -/
structure FloatOps where
  fl : ℝ → ℝ
  pow : ℝ → ℕ → ℝ
  log : ℝ → ℝ
  sum : List ℝ → ℝ

/-- What is assumed of the operations: the four elementary ones are correctly rounded; `pow`
is exact in the trivial cases and monotone; `log` is right to within 1 and `sum` to within
one part in sixteen (both are far more accurate; the compensated `sum` of Python 3.12 and the
plain one of earlier versions are covered). -/
structure IsDouble (A : FloatOps) : Prop where
  nearest : RoundsToNearest A.fl
  pow_float : ∀ x m, IsFloat64 (A.pow x m)
  pow_one_base : ∀ m, A.pow 1 m = 1
  pow_zero_base : ∀ m, 0 < m → A.pow 0 m = 0
  pow_one : ∀ x, IsFloat64 x → A.pow x 1 = x
  pow_mono : ∀ x y m, 0 ≤ x → x ≤ y → A.pow x m ≤ A.pow y m
  log_error : ∀ n : ℕ, 10000 < n → |A.log n - Real.log n| ≤ 1
  sum_float : ∀ l, IsFloat64 (A.sum l)
  sum_one : A.sum [1] = 1
  sum_error : ∀ l, (∀ x ∈ l, IsFloat64 x ∧ 0 ≤ x ∧ x ≤ 1) → l.length ≤ 10000 →
    |A.sum l - l.sum| ≤ l.sum / 16

end Pysatl.Spec
