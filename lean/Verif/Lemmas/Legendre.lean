import Mathlib.Algebra.Polynomial.Derivative
import Mathlib.Topology.Algebra.Polynomial
import Mathlib.Analysis.Calculus.Deriv.Polynomial
import Mathlib.MeasureTheory.Integral.IntervalIntegral.IntegrationByParts
import Verif.Model.Uniform

/-! # Legendre polynomials: orthogonality and norms from the three-term recurrence -/

namespace Pysatl.Props

open Pysatl.Uniform Polynomial

/-- The polynomial whose values `legendre` computes. -/
noncomputable def legPoly : ℕ → ℝ[X]
  | 0 => 1
  | 1 => X
  | j + 2 => C ((j + 2 : ℝ)⁻¹) *
      (C (2 * (j : ℝ) + 3) * X * legPoly (j + 1) - C ((j : ℝ) + 1) * legPoly j)

theorem legendre_eq : ∀ (j : ℕ) (x : ℝ), legendre j x = (legPoly j).eval x
  | 0, x => by simp [legendre, legPoly]
  | 1, x => by simp [legendre, legPoly]
  | j + 2, x => by
    rw [legendre, legPoly, legendre_eq j, legendre_eq (j + 1)]
    simp only [eval_mul, eval_sub, eval_C, eval_X]
    rw [div_eq_inv_mul]

theorem legPoly_rec (j : ℕ) : C ((j : ℝ) + 2) * legPoly (j + 2) =
    C (2 * (j : ℝ) + 3) * X * legPoly (j + 1) - C ((j : ℝ) + 1) * legPoly j := by
  rw [legPoly, ← mul_assoc, ← C_mul, mul_inv_cancel₀ (by positivity), C_1, one_mul]

theorem legPoly_derivs : ∀ j : ℕ,
    derivative (legPoly (j + 1)) = X * derivative (legPoly j) + C ((j : ℝ) + 1) * legPoly j ∧
    X * derivative (legPoly (j + 1)) - derivative (legPoly j) = C ((j : ℝ) + 1) * legPoly (j + 1)
  | 0 => by simp [legPoly]
  | j + 1 => by
    obtain ⟨hA, hB⟩ := legPoly_derivs j
    have hr := legPoly_rec j
    have hd := congrArg derivative hr
    simp only [derivative_mul, derivative_sub, derivative_C, derivative_X, zero_mul, zero_add,
      mul_one] at hd
    have hne : (C ((j : ℝ) + 2) : ℝ[X]) ≠ 0 := by
      rw [Ne, C_eq_zero]; positivity
    have e1 : (C ((j : ℝ) + 1) : ℝ[X]) = C (j : ℝ) + 1 := by simp
    have e2 : (C ((j : ℝ) + 2) : ℝ[X]) = C (j : ℝ) + 2 := by
      rw [C_add]; rfl
    have e3 : (C (2 * (j : ℝ) + 3) : ℝ[X]) = 2 * C (j : ℝ) + 3 := by
      rw [C_add, C_mul]; rfl
    have e4 : (C (((j + 1 : ℕ) : ℝ) + 1) : ℝ[X]) = C (j : ℝ) + 2 := by
      rw [← e2]; congr 1; push_cast; ring
    rw [e1] at hA hB hd hr
    rw [e2] at hd hr hne
    rw [e3] at hd hr
    rw [e4]
    have hA' : derivative (legPoly (j + 2)) =
        X * derivative (legPoly (j + 1)) + (C (j : ℝ) + 2) * legPoly (j + 1) := by
      apply mul_left_cancel₀ hne
      linear_combination hd + (C (j : ℝ) + 1) * hB
    refine ⟨hA', ?_⟩
    rw [show j + 1 + 1 = j + 2 from rfl, hA']
    linear_combination X * hB - hA - hr

theorem legPoly_ode : ∀ j : ℕ, derivative ((X ^ 2 - 1) * derivative (legPoly j)) =
    C ((j : ℝ) * (j + 1)) * legPoly j
  | 0 => by simp [legPoly]
  | j + 1 => by
    obtain ⟨hA, hB⟩ := legPoly_derivs j
    have h1 : (X ^ 2 - 1) * derivative (legPoly (j + 1)) =
        C ((j : ℝ) + 1) * (X * legPoly (j + 1) - legPoly j) := by
      linear_combination X * hB - hA
    rw [h1, derivative_mul, derivative_C, zero_mul, zero_add, derivative_sub, derivative_mul,
      derivative_X, one_mul]
    have : (C (((j + 1 : ℕ) : ℝ) * (((j + 1 : ℕ) : ℝ) + 1)) : ℝ[X]) =
        C ((j : ℝ) + 1) * (C ((j : ℝ) + 1) + 1) := by
      rw [← C_1, ← C_add, ← C_mul]; congr 1; push_cast; ring
    rw [this]
    linear_combination C ((j : ℝ) + 1) * hB

/-- Integral over `[-1, 1]`. -/
noncomputable def legInt (p : ℝ[X]) : ℝ := ∫ x in (-1 : ℝ)..1, p.eval x

theorem legInt_sub (p q : ℝ[X]) : legInt (p - q) = legInt p - legInt q := by
  unfold legInt
  rw [← intervalIntegral.integral_sub (p.continuous.intervalIntegrable _ _)
    (q.continuous.intervalIntegrable _ _)]
  simp

theorem legInt_add (p q : ℝ[X]) : legInt (p + q) = legInt p + legInt q := by
  unfold legInt
  rw [← intervalIntegral.integral_add (p.continuous.intervalIntegrable _ _)
    (q.continuous.intervalIntegrable _ _)]
  simp

theorem legInt_C (c : ℝ) (p : ℝ[X]) : legInt (C c * p) = c * legInt p := by
  unfold legInt
  rw [← intervalIntegral.integral_const_mul]
  simp

theorem legInt_derivative (p : ℝ[X]) : legInt (derivative p) = p.eval 1 - p.eval (-1) := by
  unfold legInt
  exact intervalIntegral.integral_eq_sub_of_hasDerivAt (fun x _ => p.hasDerivAt x)
    ((derivative p).continuous.intervalIntegrable _ _)

theorem leg_sturm (i j : ℕ) : (i : ℝ) * (i + 1) * legInt (legPoly i * legPoly j) =
    -legInt ((X ^ 2 - 1) * derivative (legPoly i) * derivative (legPoly j)) := by
  have h := legInt_derivative ((X ^ 2 - 1) * derivative (legPoly i) * legPoly j)
  rw [derivative_mul, legPoly_ode, legInt_add, mul_assoc (C _), legInt_C] at h
  simp only [eval_mul, eval_sub, eval_pow, eval_X, eval_one] at h
  linarith

theorem leg_orthogonal {i j : ℕ} (h : i ≠ j) : legInt (legPoly i * legPoly j) = 0 := by
  have h1 := leg_sturm i j
  have h2 := leg_sturm j i
  rw [mul_comm (legPoly j)] at h2
  have h3 : (X ^ 2 - 1) * derivative (legPoly j) * derivative (legPoly i) =
      (X ^ 2 - 1) * derivative (legPoly i) * derivative (legPoly j) := by ring
  rw [h3] at h2
  have h4 : ((i : ℝ) * (i + 1) - j * (j + 1)) * legInt (legPoly i * legPoly j) = 0 := by
    rw [sub_mul, h1, h2]; ring
  rcases mul_eq_zero.1 h4 with h5 | h5
  · exfalso
    have h6 : ((i : ℝ) - j) * (i + j + 1) = 0 := by linarith
    rcases mul_eq_zero.1 h6 with h7 | h7
    · exact h (by exact_mod_cast sub_eq_zero.1 h7)
    · have : (0 : ℝ) ≤ (i : ℝ) + j := by positivity
      linarith
  · exact h5

theorem leg_norm : ∀ j : ℕ, legInt (legPoly j * legPoly j) = 2 / (2 * j + 1)
  | 0 => by simp [legInt, legPoly]; norm_num
  | 1 => by
    have : legInt (derivative (C (1 / 3) * X ^ 3)) = 2 / 3 := by
      rw [legInt_derivative]; norm_num
    have e : derivative (C (1 / 3 : ℝ) * X ^ 3) = X * X := by
      rw [derivative_C_mul_X_pow, pow_two]; norm_num
    rw [e] at this
    simp only [legPoly]
    rw [this]; norm_num
  | j + 2 => by
    have ih := leg_norm (j + 1)
    have r1 := congrArg (fun p => legInt (p * legPoly (j + 2))) (legPoly_rec j)
    have r2 := congrArg (fun p => legInt (p * legPoly (j + 1))) (legPoly_rec (j + 1))
    simp only [sub_mul, mul_assoc, legInt_sub, legInt_C] at r1 r2
    rw [leg_orthogonal (by omega : j ≠ j + 2)] at r1
    rw [leg_orthogonal (by omega : j + 1 + 2 ≠ j + 1)] at r2
    have e : (X : ℝ[X]) * (legPoly (j + 1) * legPoly (j + 2)) =
        X * (legPoly (j + 1 + 1) * legPoly (j + 1)) := by ring
    rw [e] at r1
    push_cast at r1 r2 ih ⊢
    generalize legInt (X * (legPoly (j + 1 + 1) * legPoly (j + 1))) = t at r1 r2
    have hj : (0 : ℝ) ≤ j := by positivity
    rw [ih] at r2
    have ht : t = ((j : ℝ) + 2) * (2 / (2 * (j + 1) + 1)) / (2 * j + 5) := by
      field_simp at r2 ⊢
      nlinarith
    rw [ht] at r1
    have h2 : ((j : ℝ) + 2) ≠ 0 := by positivity
    apply mul_left_cancel₀ h2
    rw [r1]
    field_simp
    ring

/-- Change of variable to `[0, 1]`. -/
theorem legInt_unit (p : ℝ[X]) : ∫ x in (0 : ℝ)..1, p.eval (2 * x - 1) = legInt p / 2 := by
  have := intervalIntegral.integral_comp_mul_sub (a := 0) (b := 1) (fun x => p.eval x)
    (c := 2) (by norm_num) 1
  rw [this, legInt]
  norm_num
  ring

theorem phi_eq {j : ℕ} (hj : 1 ≤ j) (x : ℝ) :
    phi j x = √(2 * j + 1) * legendre j (2 * x - 1) := by
  unfold phi
  split
  · subst j
    have : √(12 : ℝ) = 2 * √3 := by
      rw [show (12 : ℝ) = 2 ^ 2 * 3 by norm_num, Real.sqrt_mul (by norm_num),
        Real.sqrt_sq (by norm_num)]
    rw [this]
    norm_num [legendre]
    ring
  · split
    · subst j; norm_num [legendre]; ring
    · split
      · subst j; norm_num [legendre]; ring
      · ring

theorem phi_orthonormal {i j : ℕ} (hi : 1 ≤ i) (hj : 1 ≤ j) :
    ∫ x in (0 : ℝ)..1, phi i x * phi j x = if i = j then 1 else 0 := by
  have h1 : ∀ x, phi i x * phi j x =
      (√(2 * i + 1) * √(2 * j + 1)) * (legPoly i * legPoly j).eval (2 * x - 1) := fun x => by
    rw [phi_eq hi, phi_eq hj, legendre_eq, legendre_eq, eval_mul]; ring
  simp only [h1]
  rw [intervalIntegral.integral_const_mul, legInt_unit]
  split
  · subst j
    rw [leg_norm, Real.mul_self_sqrt (by positivity)]
    field_simp
  · rename_i h
    rw [leg_orthogonal h]; simp

theorem phi_mean {j : ℕ} (hj : 1 ≤ j) : ∫ x in (0 : ℝ)..1, phi j x = 0 := by
  have h1 : ∀ x, phi j x = √(2 * j + 1) * (legPoly 0 * legPoly j).eval (2 * x - 1) := fun x => by
    rw [phi_eq hj, legendre_eq, eval_mul]; simp [legPoly]
  simp only [h1]
  rw [intervalIntegral.integral_const_mul, legInt_unit, leg_orthogonal (by omega)]
  simp

theorem phi_continuous {j : ℕ} (hj : 1 ≤ j) : Continuous (phi j) := by
  have : phi j = fun x => √(2 * j + 1) * (legPoly j).eval (2 * x - 1) := by
    funext x; rw [phi_eq hj, legendre_eq]
  rw [this]
  fun_prop

end Pysatl.Props
