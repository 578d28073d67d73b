import Verif.Spec.Laws
import Mathlib.Analysis.SpecialFunctions.PolarCoord
import Mathlib.Probability.Distributions.Gaussian.Multivariate
import Mathlib.Probability.Distributions.Exponential

/-! # The sum of the squares of two independent standard normal values -/

namespace Pysatl

open Pysatl.Spec MeasureTheory ProbabilityTheory Filter Topology

theorem radial_integral {t : ℝ} (ht : 0 ≤ t) :
    ∫ r in (0 : ℝ)..√t, r * ((2 * Real.pi)⁻¹ * Real.exp (-(1 / 2 * r ^ 2))) =
      (2 * Real.pi)⁻¹ * (1 - Real.exp (-(1 / 2 * t))) := by
  have hd : ∀ r : ℝ, HasDerivAt (fun r => -(2 * Real.pi)⁻¹ * Real.exp (-(1 / 2 * r ^ 2)))
      (r * ((2 * Real.pi)⁻¹ * Real.exp (-(1 / 2 * r ^ 2)))) r := fun r => by
    have h1 : HasDerivAt (fun r : ℝ => -(1 / 2 * r ^ 2)) (-r) r := by
      have := ((hasDerivAt_pow 2 r).const_mul (1 / 2)).neg
      refine this.congr_deriv ?_
      push_cast
      ring
    exact (h1.exp.const_mul (-(2 * Real.pi)⁻¹)).congr_deriv (by ring)
  rw [intervalIntegral.integral_eq_sub_of_hasDerivAt (fun r _ => hd r)
    ((by fun_prop : Continuous fun r : ℝ => r * ((2 * Real.pi)⁻¹ * Real.exp (-(1 / 2 * r ^ 2)))).intervalIntegrable 0 √t),
    Real.sq_sqrt ht]
  norm_num
  ring

theorem gaussian_disc (t : ℝ) : (gaussianReal 0 1).prod (gaussianReal 0 1) {p | p.1 ^ 2 + p.2 ^ 2 ≤ t} =
    ENNReal.ofReal (if 0 ≤ t then 1 - Real.exp (-(1 / 2 * t)) else 0) := by
  have hA : MeasurableSet {p : ℝ × ℝ | p.1 ^ 2 + p.2 ^ 2 ≤ t} := measurableSet_le (by fun_prop) measurable_const
  split_ifs with ht
  swap
  · have : {p : ℝ × ℝ | p.1 ^ 2 + p.2 ^ 2 ≤ t} = ∅ := by
      ext p
      simp only [Set.mem_ofPred_eq, Set.mem_empty_iff_false, iff_false]
      push Not at ht ⊢
      have := sq_nonneg p.1
      have := sq_nonneg p.2
      linarith
    rw [this]
    simp
  set G : ℝ → ENNReal := fun r => ENNReal.ofReal r * (if r ^ 2 ≤ t then ENNReal.ofReal ((2 * Real.pi)⁻¹ * Real.exp (-(1 / 2 * r ^ 2))) else 0) with hG
  have hGm : Measurable G := by
    refine ENNReal.measurable_ofReal.mul (Measurable.ite (measurableSet_le (by fun_prop) measurable_const) ?_ measurable_const)
    fun_prop
  have hpdf : ∀ p : ℝ × ℝ, gaussianPDF 0 1 p.1 * gaussianPDF 0 1 p.2 =
      ENNReal.ofReal ((2 * Real.pi)⁻¹ * Real.exp (-(1 / 2 * (p.1 ^ 2 + p.2 ^ 2)))) := fun p => by
    rw [gaussianPDF, gaussianPDF, ← ENNReal.ofReal_mul (gaussianPDFReal_nonneg 0 1 _), gaussianPDFReal, gaussianPDFReal]
    congr 1
    simp only [NNReal.coe_one, mul_one, sub_zero]
    rw [mul_mul_mul_comm, ← mul_inv, Real.mul_self_sqrt (by positivity), ← Real.exp_add]
    congr 2
    ring
  rw [gaussianReal_of_var_ne_zero 0 one_ne_zero, prod_withDensity (by fun_prop) (by fun_prop), withDensity_apply _ hA,
    ← lintegral_indicator hA, ← Measure.volume_eq_prod, ← lintegral_comp_polarCoord_symm]
  have e : ∀ p : ℝ × ℝ, ENNReal.ofReal p.1 • ({p : ℝ × ℝ | p.1 ^ 2 + p.2 ^ 2 ≤ t}.indicator
      (fun p : ℝ × ℝ => gaussianPDF 0 1 p.1 * gaussianPDF 0 1 p.2) (polarCoord.symm p)) = G p.1 * 1 := fun p => by
    have hr : (polarCoord.symm p).1 ^ 2 + (polarCoord.symm p).2 ^ 2 = p.1 ^ 2 := by
      rw [polarCoord_symm_apply]
      have := Real.cos_sq_add_sin_sq p.2
      simp only
      linear_combination p.1 ^ 2 * this
    simp only [Set.indicator_apply, Set.mem_ofPred_eq, hpdf, hr, hG, smul_eq_mul, mul_one]
  simp only [e]
  rw [polarCoord_target, Measure.volume_eq_prod, ← Measure.prod_restrict,
    lintegral_prod_mul hGm.aemeasurable aemeasurable_const, lintegral_one, Measure.restrict_apply_univ, Real.volume_Ioo]
  have h1 : ∫⁻ r in Set.Ioi (0 : ℝ), G r = ENNReal.ofReal ((2 * Real.pi)⁻¹ * (1 - Real.exp (-(1 / 2 * t)))) := by
    rw [← radial_integral ht, intervalIntegral.integral_of_le (Real.sqrt_nonneg t),
      ofReal_integral_eq_lintegral_ofReal]
    · rw [← lintegral_indicator measurableSet_Ioi, ← lintegral_indicator measurableSet_Ioc]
      refine lintegral_congr fun r => ?_
      by_cases h0 : 0 < r
      · by_cases hrt : r ^ 2 ≤ t
        · rw [Set.indicator_of_mem (by exact h0), Set.indicator_of_mem (by exact ⟨h0, Real.le_sqrt_of_sq_le hrt⟩), hG]
          simp only [if_pos hrt]
          rw [← ENNReal.ofReal_mul h0.le]
        · rw [Set.indicator_of_mem (by exact h0), Set.indicator_of_notMem, hG]
          · simp only [if_neg hrt, mul_zero]
          · rintro ⟨-, h⟩
            exact hrt ((Real.le_sqrt h0.le ht).1 h)
      · rw [Set.indicator_of_notMem (show r ∉ Set.Ioi 0 from h0), Set.indicator_of_notMem fun h => h0 h.1]
    · exact ((by fun_prop : Continuous fun r : ℝ => r * ((2 * Real.pi)⁻¹ * Real.exp (-(1 / 2 * r ^ 2)))).integrableOn_Icc
        (a := 0) (b := √t)).mono_set Set.Ioc_subset_Icc_self
    · rw [Filter.EventuallyLE, ae_restrict_iff' measurableSet_Ioc]
      refine ae_of_all _ fun r hr => ?_
      have := hr.1
      simp only [Pi.zero_apply]
      positivity
  rw [h1, ← ENNReal.ofReal_mul]
  · congr 1
    have := Real.pi_ne_zero
    field_simp
    ring
  · have : Real.exp (-(1 / 2 * t)) ≤ 1 := Real.exp_le_one_iff.2 (by linarith)
    have : 0 ≤ 1 - Real.exp (-(1 / 2 * t)) := by linarith
    positivity

/-- The sum of the squares of two independent standard normal values has the chi-square law with two degrees of
freedom. -/
theorem sum_squares_law : (stdGaussian (EuclideanSpace ℝ (Fin 2))).map (fun x => x 0 ^ 2 + x 1 ^ 2) = chiSquareLaw 2 := by
  have e : chiSquareLaw 2 = expMeasure (1 / 2) := by
    rw [chiSquareLaw, expMeasure]
    norm_num
  rw [e]
  have hp := isProbabilityMeasure_expMeasure (r := 1 / 2) (by norm_num)
  have hm : Measurable fun x : EuclideanSpace ℝ (Fin 2) => x 0 ^ 2 + x 1 ^ 2 := by fun_prop
  have hp2 : IsProbabilityMeasure ((stdGaussian (EuclideanSpace ℝ (Fin 2))).map (fun x => x 0 ^ 2 + x 1 ^ 2)) :=
    Measure.isProbabilityMeasure_map hm.aemeasurable
  refine Measure.ext_of_Iic _ _ fun t => ?_
  rw [← map_pi_eq_stdGaussian, Measure.map_map hm (by fun_prop), Measure.map_apply (by fun_prop) measurableSet_Iic]
  have h1 := (measurePreserving_finTwoArrow (gaussianReal 0 1)).measure_preimage
    (s := {p : ℝ × ℝ | p.1 ^ 2 + p.2 ^ 2 ≤ t}) (measurableSet_le (by fun_prop) measurable_const).nullMeasurableSet
  rw [gaussian_disc] at h1
  have h2 := cdf_expMeasure_eq (r := 1 / 2) (by norm_num) t
  rw [cdf_eq_real, Measure.real] at h2
  rw [← h2, ENNReal.ofReal_toReal (measure_ne_top _ _)] at h1
  exact h1

end Pysatl
