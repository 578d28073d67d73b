import Mathlib.Analysis.SpecialFunctions.Log.Basic

/-!
# Specification: Zhang's statistics

J. Zhang, "Powerful goodness-of-fit tests based on the likelihood ratio", J. R. Statist. Soc. B 64
(2002), for the values `F₁ ≤ ... ≤ Fₙ` of the hypothesised distribution function at the ordered
sample; here the index is zero-based, so that `i` of the paper is `i + 1`.
-/

namespace Pysatl.Spec

/-- `Z_A = -∑ (log Fᵢ / (n - i + 1/2) + log (1 - Fᵢ) / (i - 1/2))`. -/
noncomputable def zhangA {n : ℕ} (F : Fin n → ℝ) : ℝ :=
  -∑ i : Fin n, (Real.log (F i) / ((n : ℝ) - ((i : ℕ) + 1) + 1 / 2) +
    Real.log (1 - F i) / (((i : ℕ) : ℝ) + 1 - 1 / 2))

/-- `Z_C = ∑ (log ((1 / Fᵢ - 1) / ((n - 1/2) / (i - 3/4) - 1)))²`. -/
noncomputable def zhangC {n : ℕ} (F : Fin n → ℝ) : ℝ :=
  ∑ i : Fin n, Real.log ((1 / F i - 1) /
    (((n : ℝ) - 1 / 2) / (((i : ℕ) : ℝ) + 1 - 3 / 4) - 1)) ^ 2

/-- The terms of `Z_K = maxᵢ ((i - 1/2) log ((i - 1/2) / (n Fᵢ)) +
(n - i + 1/2) log ((n - i + 1/2) / (n (1 - Fᵢ))))`. -/
noncomputable def zhangKTerm {n : ℕ} (F : Fin n → ℝ) (i : Fin n) : ℝ :=
  (((i : ℕ) : ℝ) + 1 - 1 / 2) * Real.log ((((i : ℕ) : ℝ) + 1 - 1 / 2) / (n * F i)) +
    ((n : ℝ) - ((i : ℕ) + 1) + 1 / 2) *
      Real.log (((n : ℝ) - ((i : ℕ) + 1) + 1 / 2) / (n * (1 - F i)))

/-- `v` is Zhang's `Z_K`. -/
def IsZhangK {n : ℕ} (F : Fin n → ℝ) (v : ℝ) : Prop :=
  (∀ i, zhangKTerm F i ≤ v) ∧ ∃ i, zhangKTerm F i = v

/-- The midpoints `(i - 1/2) / n`. -/
noncomputable def midpoint (n : ℕ) (i : Fin n) : ℝ := (((i : ℕ) : ℝ) + 1 - 1 / 2) / n

end Pysatl.Spec
