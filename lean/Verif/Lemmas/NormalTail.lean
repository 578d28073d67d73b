import Verif.Lemmas.StandardLaws
import Mathlib.Analysis.Complex.ExponentialBounds
import Mathlib.Analysis.Real.Pi.Bounds

/-! # Bounds of the tails and of the quantiles of the standard normal law -/

namespace Pysatl.Normal

open MeasureTheory ProbabilityTheory Set Filter Topology Pysatl.Props

theorem pdf_eq (x : ℝ) : gaussianPDFReal 0 1 x = (√(2 * Real.pi))⁻¹ * Real.exp (-(x ^ 2 / 2)) := by
  simp [gaussianPDFReal, neg_div]

theorem pdf_hasDerivAt (x : ℝ) :
    HasDerivAt (gaussianPDFReal 0 1) (-x * gaussianPDFReal 0 1 x) x := by
  have h1 : HasDerivAt (fun y : ℝ => -(y ^ 2 / 2)) (-x) x := by
    have := ((hasDerivAt_pow 2 x).div_const 2).neg
    refine this.congr_deriv ?_
    norm_num
  have h2 := (h1.exp).const_mul (√(2 * Real.pi))⁻¹
  have h3 : (fun y : ℝ => (√(2 * Real.pi))⁻¹ * Real.exp (-(y ^ 2 / 2))) = gaussianPDFReal 0 1 :=
    funext fun y => (pdf_eq y).symm
  rw [h3] at h2
  refine h2.congr_deriv ?_
  rw [pdf_eq]
  ring

theorem pdf_pos' (x : ℝ) : 0 < gaussianPDFReal 0 1 x := gaussianPDFReal_pos 0 1 x one_ne_zero

/-- A function that decreases to zero on a half line is positive. -/
theorem pos_of_strictAnti {f : ℝ → ℝ} {a : ℝ} (h : StrictAntiOn f (Ioi a)) (h0 : Tendsto f atTop (𝓝 0))
    {x : ℝ} (hx : a < x) : 0 < f x := by
  have h1 : f (x + 1) < f x := h hx (show a < x + 1 by linarith) (by linarith)
  have h2 : 0 ≤ f (x + 1) := by
    refine le_of_tendsto h0 ?_
    filter_upwards [eventually_ge_atTop (x + 1)] with y hy
    rcases eq_or_lt_of_le hy with rfl | hy
    · rfl
    · exact (h (show a < x + 1 by linarith) (show a < y by linarith) hy).le
  linarith

theorem pdf_atTop : Tendsto (gaussianPDFReal 0 1) atTop (𝓝 0) := by
  have h : Tendsto (fun x : ℝ => -(x ^ 2 / 2)) atTop atBot := by
    refine tendsto_neg_atTop_atBot.comp ((tendsto_pow_atTop two_ne_zero).atTop_div_const two_pos)
  have := (Real.tendsto_exp_atBot.comp h).const_mul (√(2 * Real.pi))⁻¹
  rw [mul_zero] at this
  exact this.congr fun x => (pdf_eq x).symm

/-- The tail is below the density over the abscissa. -/
theorem Phi_mills {x : ℝ} (hx : 0 < x) : 1 - Phi x < gaussianPDFReal 0 1 x / x := by
  set f : ℝ → ℝ := fun x => gaussianPDFReal 0 1 x / x - (1 - Phi x) with hf
  have hd : ∀ y, 0 < y → HasDerivAt f (-(gaussianPDFReal 0 1 y / y ^ 2)) y := by
    intro y hy
    refine (((pdf_hasDerivAt y).div (hasDerivAt_id y) hy.ne').sub
      ((Phi_hasDerivAt y).const_sub 1)).congr_deriv ?_
    simp only [id]
    field_simp
    ring
  have hanti : StrictAntiOn f (Ioi 0) := by
    refine strictAntiOn_of_deriv_neg (convex_Ioi 0)
      (fun y hy => (hd y hy).continuousAt.continuousWithinAt) fun y hy => ?_
    rw [interior_Ioi] at hy
    rw [(hd y hy).deriv]
    have := pdf_pos' y
    have hy' : (0 : ℝ) < y := hy
    have : 0 < gaussianPDFReal 0 1 y / y ^ 2 := by positivity
    linarith
  have hlim : Tendsto f atTop (𝓝 0) := by
    have h1 : Tendsto (fun y : ℝ => gaussianPDFReal 0 1 y / y) atTop (𝓝 0) := by
      simpa [div_eq_mul_inv] using pdf_atTop.mul tendsto_inv_atTop_zero
    have := h1.sub (Phi_atTop.const_sub 1)
    simpa [hf] using this
  have := pos_of_strictAnti hanti hlim hx
  simp only [hf] at this
  linarith

/-- The tail is at most half the exponential of minus half the square. -/
theorem Phi_exp_tail {x : ℝ} (hx : 0 ≤ x) : 1 - Phi x ≤ Real.exp (-(x ^ 2 / 2)) / 2 := by
  have hpi : 0 < √(2 * Real.pi) := by positivity
  set s := 2 * (√(2 * Real.pi))⁻¹ with hs
  have hs0 : 0 < s := by positivity
  rcases le_or_gt s x with h | h
  · have hx0 : 0 < x := lt_of_lt_of_le hs0 h
    refine (Phi_mills hx0).le.trans ?_
    rw [div_le_iff₀ hx0, pdf_eq]
    have he := Real.exp_pos (-(x ^ 2 / 2))
    have : (√(2 * Real.pi))⁻¹ ≤ x / 2 := by linarith
    nlinarith
  · set f : ℝ → ℝ := fun x => Real.exp (-(x ^ 2 / 2)) / 2 - (1 - Phi x) with hf
    have hd : ∀ y, HasDerivAt f (Real.exp (-(y ^ 2 / 2)) * ((s - y) / 2)) y := by
      intro y
      have h1 : HasDerivAt (fun y : ℝ => -(y ^ 2 / 2)) (-y) y := by
        refine (((hasDerivAt_pow 2 y).div_const 2).neg).congr_deriv ?_
        norm_num
      refine ((h1.exp.div_const 2).sub ((Phi_hasDerivAt y).const_sub 1)).congr_deriv ?_
      rw [pdf_eq, hs]
      ring
    have hmono : MonotoneOn f (Icc 0 s) := by
      refine monotoneOn_of_deriv_nonneg (convex_Icc 0 s)
        (fun y _ => (hd y).continuousAt.continuousWithinAt)
        (fun y _ => (hd y).differentiableAt.differentiableWithinAt) fun y hy => ?_
      rw [interior_Icc] at hy
      rw [(hd y).deriv]
      exact mul_nonneg (Real.exp_pos _).le (by linarith [hy.2])
    have h0 : f 0 = 0 := by
      have hz : Phi 0 = 1 / 2 := by
        have := Phi_neg 0
        rw [neg_zero] at this
        linarith
      simp only [hf, hz]
      norm_num
    have := hmono (left_mem_Icc.2 hs0.le) ⟨hx, h.le⟩ hx
    rw [h0] at this
    simp only [hf] at this
    linarith

/-- The squared quantile of order `p ≥ 1/2` is at most `2 log (1 / (2 (1 - p)))`. -/
theorem sq_le_log {x p : ℝ} (hx : 0 ≤ x) (h : Phi x = p) (hp : p < 1) :
    x ^ 2 ≤ 2 * Real.log (1 / (2 * (1 - p))) := by
  have h1 := Phi_exp_tail hx
  rw [h] at h1
  have h2 : 0 < 2 * (1 - p) := by linarith
  have h3 : Real.log (2 * (1 - p)) ≤ -(x ^ 2 / 2) := by
    rw [Real.log_le_iff_le_exp h2]
    linarith
  rw [one_div, Real.log_inv]
  linarith

/-- The distribution function has slope at most the density at zero. -/
theorem Phi_le_half_add {t : ℝ} (ht : 0 ≤ t) : Phi t ≤ 1 / 2 + (√(2 * Real.pi))⁻¹ * t := by
  set f : ℝ → ℝ := fun y => 1 / 2 + (√(2 * Real.pi))⁻¹ * y - Phi y with hf
  have hd : ∀ y, HasDerivAt f ((√(2 * Real.pi))⁻¹ - gaussianPDFReal 0 1 y) y := by
    intro y
    have := (((hasDerivAt_id y).const_mul (√(2 * Real.pi))⁻¹).const_add (1 / 2)).sub (Phi_hasDerivAt y)
    refine this.congr_deriv ?_
    ring
  have hmono : Monotone f := by
    refine monotone_of_deriv_nonneg (fun y => (hd y).differentiableAt) fun y => ?_
    rw [(hd y).deriv, pdf_eq]
    have : Real.exp (-(y ^ 2 / 2)) ≤ 1 := Real.exp_le_one_iff.2 (by have := sq_nonneg y; linarith)
    have h2 : 0 < (√(2 * Real.pi))⁻¹ := by positivity
    nlinarith
  have hz : Phi 0 = 1 / 2 := by
    have := Phi_neg 0
    rw [neg_zero] at this
    linarith
  have := hmono ht
  simp only [hf, hz] at this
  linarith

/-- The squared quantile of order `p` is at least `2 π (p - 1/2)²`. -/
theorem le_sq_score {x p : ℝ} (h : Phi x = p) : 6.28 * (p - 1 / 2) ^ 2 ≤ x ^ 2 := by
  have key : ∀ {y r : ℝ}, 0 ≤ y → Phi y = r → 1 / 2 ≤ r → 6.28 * (r - 1 / 2) ^ 2 ≤ y ^ 2 := by
    intro y r hy hr hr2
    have h1 := Phi_le_half_add hy
    rw [hr] at h1
    have hpi : 0 < √(2 * Real.pi) := by positivity
    have h2 : (r - 1 / 2) * √(2 * Real.pi) ≤ y := by
      have h5 : y / √(2 * Real.pi) = (√(2 * Real.pi))⁻¹ * y := div_eq_inv_mul _ _
      rw [← le_div_iff₀ hpi, h5]
      linarith
    have h3 : ((r - 1 / 2) * √(2 * Real.pi)) ^ 2 ≤ y ^ 2 :=
      pow_le_pow_left₀ (mul_nonneg (by linarith) hpi.le) h2 2
    rw [mul_pow, Real.sq_sqrt (by positivity)] at h3
    have h4 := Real.pi_gt_d2
    nlinarith [sq_nonneg (r - 1 / 2)]
  have hz : Phi 0 = 1 / 2 := by
    have := Phi_neg 0
    rw [neg_zero] at this
    linarith
  rcases le_total 0 x with hx | hx
  · refine key hx h ?_
    rw [← h, ← hz]
    exact Phi_strictMono.monotone hx
  · have h1 : Phi (-x) = 1 - p := by rw [Phi_neg, h]
    have h2 : p ≤ 1 / 2 := by
      rw [← h, ← hz]
      exact Phi_strictMono.monotone hx
    have := key (neg_nonneg.2 hx) h1 (by linarith)
    nlinarith

/-- An upper bound of a quantile from the bound of the tail. -/
theorem score_lt_of_mills {x p c : ℝ} (hc : 0 < c) (h : Phi x = p)
    (hq : gaussianPDFReal 0 1 c / c ≤ 1 - p) : x < c := by
  refine Phi_strictMono.lt_iff_lt.1 ?_
  have := Phi_mills hc
  linarith

end Pysatl.Normal
