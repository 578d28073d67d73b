import Mathlib.NumberTheory.Harmonic.EulerMascheroni
import Mathlib.Analysis.SpecialFunctions.Trigonometric.DerivHyp
import Mathlib.Analysis.SpecialFunctions.Log.Deriv
import Mathlib.Analysis.Complex.ExponentialBounds

/-!
# Sharp bounds of the harmonic numbers

`H n - log n - 1/(2n)` increases and `H n - log (n + 1/2)` decreases; both are compared with
their value at 64.
-/

namespace Pysatl

open Finset

/-- `log t ≤ (t - 1/t)/2` from one on. -/
theorem log_le_half_sub_inv {t : ℝ} (ht : 1 ≤ t) : Real.log t ≤ (t - t⁻¹) / 2 := by
  have h0 : 0 < t := by linarith
  have h := Real.self_le_sinh_iff.2 (Real.log_nonneg ht)
  rwa [Real.sinh_eq, Real.exp_neg, Real.exp_log h0] at h

/-- `2x ≤ log ((1+x)/(1-x))` on `[0, 1)`. -/
theorem two_mul_le_log_div {x : ℝ} (h0 : 0 ≤ x) (h1 : x < 1) :
    2 * x ≤ Real.log ((1 + x) / (1 - x)) := by
  have hs := Real.hasSum_log_sub_log_of_abs_lt_one (x := x) (by rw [abs_of_nonneg h0]; exact h1)
  rw [Real.log_div (by linarith) (by linarith)]
  have := hs.summable.sum_le_tsum {0} (fun k _ => by positivity)
  rw [hs.tsum_eq] at this
  simpa using this

theorem harmonic_lower_step (n : ℕ) (hn : 0 < n) :
    (harmonic n : ℝ) - Real.log n - 1 / (2 * n) ≤
      (harmonic (n + 1) : ℝ) - Real.log (n + 1 : ℕ) - 1 / (2 * (n + 1 : ℕ)) := by
  have h0 : (0 : ℝ) < n := by exact_mod_cast hn
  have h := log_le_half_sub_inv (t := (n + 1 : ℝ) / n) (by rw [le_div_iff₀ h0]; linarith)
  rw [Real.log_div (by positivity) h0.ne'] at h
  rw [harmonic_succ]
  push_cast
  have e : ((n + 1 : ℝ) / n - ((n + 1 : ℝ) / n)⁻¹) / 2 =
      (n + 1 : ℝ)⁻¹ + 1 / (2 * n) - 1 / (2 * (n + 1)) := by
    field_simp
    ring
  rw [e] at h
  linarith

theorem harmonic_upper_step (n : ℕ) :
    (harmonic (n + 1) : ℝ) - Real.log ((n + 1 : ℕ) + 1 / 2) ≤
      (harmonic n : ℝ) - Real.log (n + 1 / 2) := by
  have h0 : (0 : ℝ) ≤ n := Nat.cast_nonneg n
  have hx1 : 1 / (2 * (n + 1 : ℝ)) < 1 := by
    rw [div_lt_one (by positivity)]; linarith
  have h := two_mul_le_log_div (x := 1 / (2 * (n + 1 : ℝ))) (by positivity) hx1
  have e : (1 + 1 / (2 * (n + 1 : ℝ))) / (1 - 1 / (2 * (n + 1 : ℝ))) =
      ((n : ℝ) + 1 + 1 / 2) / (n + 1 / 2) := by
    have : (1 - 1 / (2 * (n + 1 : ℝ))) ≠ 0 := by linarith
    rw [div_eq_div_iff this (by positivity)]
    field_simp
    ring
  rw [e, Real.log_div (by positivity) (by positivity)] at h
  have e2 : 2 * (1 / (2 * (n + 1 : ℝ))) = (n + 1 : ℝ)⁻¹ := by field_simp
  rw [e2] at h
  rw [harmonic_succ]
  push_cast
  linarith

theorem harmonic_64_lower : 0.577195 ≤ (harmonic 64 : ℝ) - Real.log (64 : ℕ) - 1 / (2 * (64 : ℕ)) := by
  have h : Real.log ((64 : ℕ) : ℝ) = 6 * Real.log 2 := by
    rw [show ((64 : ℕ) : ℝ) = 2 ^ 6 by norm_num, Real.log_pow]; norm_num
  rw [h]
  have h2 := Real.log_two_lt_d9
  have h3 : (4.74389 : ℝ) ≤ (harmonic 64 : ℝ) := by
    have : (4.74389 : ℚ) ≤ harmonic 64 := by
      norm_num [harmonic, Finset.sum_range_succ]
    have h := (Rat.cast_le (K := ℝ)).2 this
    norm_num at h ⊢
  norm_num at h2 h3 ⊢
  linarith

theorem harmonic_64_upper : (harmonic 64 : ℝ) - Real.log ((64 : ℕ) + 1 / 2) ≤ 0.57723 := by
  have h : Real.log (((64 : ℕ) : ℝ) + 1 / 2) = 6 * Real.log 2 + Real.log (129 / 128) := by
    rw [show ((64 : ℕ) : ℝ) + 1 / 2 = 2 ^ 6 * (129 / 128) by norm_num,
      Real.log_mul (by norm_num) (by norm_num), Real.log_pow]; norm_num
  rw [h]
  have h2 := Real.log_two_gt_d9
  have h4 := two_mul_le_log_div (x := 1 / 257) (by norm_num) (by norm_num)
  rw [show (1 + 1 / 257 : ℝ) / (1 - 1 / 257) = 129 / 128 by norm_num] at h4
  have h3 : (harmonic 64 : ℝ) ≤ 4.743892 := by
    have : harmonic 64 ≤ (4.743892 : ℚ) := by
      norm_num [harmonic, Finset.sum_range_succ]
    have h := (Rat.cast_le (K := ℝ)).2 this
    norm_num at h ⊢
  norm_num at h2 h3 h4 ⊢
  linarith

theorem harmonic_lower (n : ℕ) (hn : 64 ≤ n) :
    Real.log n + 0.577195 + 1 / (2 * n) ≤ (harmonic n : ℝ) := by
  have : (0.577195 : ℝ) ≤ (harmonic n : ℝ) - Real.log n - 1 / (2 * n) := by
    induction n, hn using Nat.le_induction with
    | base => exact harmonic_64_lower
    | succ k hk ih => exact ih.trans (harmonic_lower_step k (by omega))
  linarith

theorem harmonic_upper (n : ℕ) (hn : 64 ≤ n) :
    (harmonic n : ℝ) ≤ Real.log n + 0.57723 + 1 / (2 * n) := by
  have h : (harmonic n : ℝ) - Real.log (n + 1 / 2) ≤ 0.57723 := by
    induction n, hn using Nat.le_induction with
    | base => exact harmonic_64_upper
    | succ k hk ih => exact (harmonic_upper_step k).trans ih
  have h0 : (0 : ℝ) < n := by exact_mod_cast (by omega : 0 < n)
  have h2 := Real.log_le_sub_one_of_pos (x := (n + 1 / 2 : ℝ) / n) (by positivity)
  rw [Real.log_div (by positivity) h0.ne'] at h2
  have e : (n + 1 / 2 : ℝ) / n - 1 = 1 / (2 * n) := by field_simp; ring
  rw [e] at h2
  linarith

end Pysatl
