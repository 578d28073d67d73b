import Verif.Props.ConsistencyKurtosis
import Verif.Props.ConsistencyLilliefors
import Verif.Props.BetaLaw

/-! # C137: laws that the one-sided criteria of normality never detect, and laws that the others detect -/

namespace Pysatl.Props

open Pysatl.Decision Pysatl.Resolver Pysatl.Spec Pysatl.Edf Pysatl.Graph Pysatl.Gen Pysatl.Normal Pysatl.Exponent
open MeasureTheory ProbabilityTheory Filter Topology

/-! ### Uniform and beta laws -/

theorem uniform_central {b : ℝ} (hb : 0 < b) (k : ℕ) :
    ∫ x, (x - lawMean (uniformLaw 0 b)) ^ k ∂uniformLaw 0 b = ((b / 2) ^ (k + 1) - (-(b / 2)) ^ (k + 1)) / (k + 1) / b := by
  rw [lawMean_uniform hb, uniform_integral hb, intervalIntegral.integral_comp_sub_right (fun x => x ^ k), integral_pow,
    zero_sub, sub_half]

theorem lawVariance_uniform {b : ℝ} (hb : 0 < b) : lawVariance (uniformLaw 0 b) = b ^ 2 / 12 := by
  rw [lawVariance, uniform_central hb]
  push_cast
  field_simp
  ring

theorem uniform_kurtosis {b : ℝ} (hb : 0 < b) : lawStandardised (uniformLaw 0 b) 4 = 9 / 5 := by
  rw [lawStandardised_eq, uniform_central hb, lawVariance_uniform hb,
    show √(b ^ 2 / 12) ^ 4 = (√(b ^ 2 / 12) ^ 2) ^ 2 by ring, Real.sq_sqrt (by positivity)]
  push_cast
  field_simp
  ring

theorem uniform_absDeviation {b : ℝ} (hb : 0 < b) : ∫ x, |x - lawMean (uniformLaw 0 b)| ∂uniformLaw 0 b = b / 4 := by
  rw [lawMean_uniform hb, uniform_integral hb, intervalIntegral.integral_comp_sub_right (fun x => |x|), zero_sub, sub_half,
    ← intervalIntegral.integral_add_adjacent_intervals (b := 0) (continuous_abs.intervalIntegrable _ _)
      (continuous_abs.intervalIntegrable _ _)]
  have e1 : ∫ x in (-(b / 2))..0, |x| = ∫ x in (-(b / 2))..0, -x := by
    refine intervalIntegral.integral_congr fun x hx => ?_
    rw [Set.uIcc_of_le (by linarith)] at hx
    exact abs_of_nonpos hx.2
  have e2 : ∫ x in (0 : ℝ)..(b / 2), |x| = ∫ x in (0 : ℝ)..(b / 2), x := by
    refine intervalIntegral.integral_congr fun x hx => ?_
    rw [Set.uIcc_of_le (by linarith)] at hx
    exact abs_of_nonneg hx.1
  rw [e1, e2, intervalIntegral.integral_neg, _root_.integral_id, _root_.integral_id]
  field_simp
  ring

theorem uniform_geary {b : ℝ} (hb : 0 < b) : lawGeary (uniformLaw 0 b) = 2 / √3 := by
  rw [lawGeary, uniform_absDeviation hb, lawVariance_uniform hb, Real.sqrt_div (by positivity), Real.sqrt_sq hb.le,
    show (12 : ℝ) = 2 ^ 2 * 3 by norm_num, Real.sqrt_mul (by positivity), Real.sqrt_sq (by norm_num)]
  have := Real.sqrt_pos.2 (show (0 : ℝ) < 3 by norm_num)
  field_simp
  ring

theorem uniform_moment {b : ℝ} (k : ℕ) : Integrable (fun x => |x| ^ k) (uniformLaw 0 b) := uniform_integrable (by fun_prop)

theorem uniform_not_const {b : ℝ} (hb : 0 < b) : ∀ c, uniformLaw 0 b ≠ Measure.dirac c := by
  have := (cdf_uniformLaw hb).1
  refine (lawVariance_pos (uniform_moment 2)).1 ?_
  rw [lawVariance_uniform hb]
  positivity

theorem uniform_not_normal {b : ℝ} (hb : 0 < b) : ∀ m v, uniformLaw 0 b ≠ gaussianReal m v := by
  intro m v h
  by_cases hv : v = 0
  · exact uniform_not_const hb m (by rw [h, hv, gaussianReal_zero_var])
  have h1 := gaussian_kurtosis m hv
  rw [← h, uniform_kurtosis hb] at h1
  norm_num at h1

theorem beta_moment {a b : ℝ} (ha : 0 < a) (hb : 0 < b) (k : ℕ) : Integrable (fun x => |x| ^ k) (betaMeasure a b) :=
  integrable_beta_bounded ha hb (by fun_prop) 1 fun x h0 h1 => by
    rw [abs_of_pos h0, abs_of_pos (pow_pos h0 k)]
    exact pow_le_one₀ h0.le h1.le

theorem beta_not_const {a b : ℝ} (ha : 0 < a) (hb : 0 < b) : ∀ c, betaMeasure a b ≠ Measure.dirac c := by
  have := isProbabilityMeasureBeta ha hb
  refine (lawVariance_pos (beta_moment ha hb 2)).1 ?_
  rw [beta_variance ha hb]
  exact theoreticalVar_pos ha hb

theorem beta_left_skewed {a b : ℝ} (hb : 0 < b) (hab : b < a) : lawStandardised (betaMeasure a b) 3 < 0 := by
  have ha := hb.trans hab
  rw [beta_skewness ha hb, Beta.theoreticalSkew]
  have h1 := Real.sqrt_pos.2 (show 0 < a + b + 1 by linarith)
  have h2 := Real.sqrt_pos.2 (mul_pos ha hb)
  exact div_neg_of_neg_of_pos (mul_neg_of_neg_of_pos (by linarith) h1) (by positivity)

theorem beta_right_skewed {a b : ℝ} (ha : 0 < a) (hab : a < b) : 0 < lawStandardised (betaMeasure a b) 3 := by
  have hb := ha.trans hab
  rw [beta_skewness ha hb, Beta.theoreticalSkew]
  have h1 := Real.sqrt_pos.2 (show 0 < a + b + 1 by linarith)
  have h2 := Real.sqrt_pos.2 (mul_pos ha hb)
  exact div_pos (mul_pos (by linarith) h1) (by positivity)

/-! ### Refutations -/

section
variable (code : String) (params : Option (List (String × ℝ)))
variable {classes : List GeneratorClass} (hp : classes.Perm generatorClasses) (m : ℝ) {v : ℝ} (hv : 0 < v)

include hp hv in
/-- **C137, refuted, skewness**: the criterion has two-sided critical regions in the literature, but the class is judged in
the right tail only.  The probability that it rejects tends to zero for beta laws with `b < a`, whose skewness is negative. -/
theorem C137_refuted_skew {a b : ℝ} (hb : 0 < b) (hab : b < a) : lawStandardised (betaMeasure a b) 3 ≠ 0 ∧
    Undetected (NormStat.skew.statistic scipyNorm code params) (betaMeasure a b) (gaussianReal m v.toNNReal) := by
  have ha := hb.trans hab
  obtain ⟨_, _, _, h⟩ := C137_skew_partial code params _ hp m hv
  have hl := beta_left_skewed hb hab
  exact ⟨hl.ne, (h _ (isProbabilityMeasureBeta ha hb) (beta_moment ha hb 3) (beta_not_const ha hb)).2 hl⟩

include hp hv in
/-- **C137, refuted, kurtosis**: the same for the criterion of kurtosis and uniform observations, whose kurtosis is `9/5`. -/
theorem C137_refuted_kurtosis {b : ℝ} (hb : 0 < b) : lawStandardised (uniformLaw 0 b) 4 ≠ 3 ∧
    Undetected (NormStat.kurtosis.statistic scipyNorm code params) (uniformLaw 0 b) (gaussianReal m v.toNNReal) := by
  obtain ⟨_, _, _, h⟩ := C137_kurtosis_partial code params _ hp m hv
  have e := uniform_kurtosis hb
  exact ⟨by rw [e]; norm_num, (h _ (cdf_uniformLaw hb).1 (uniform_moment 4) (uniform_not_const hb)).2 (by rw [e]; norm_num)
    (by rw [e]; norm_num)⟩

end

/-! ### Concrete cases -/

example : Consistent (NormStat.skew.statistic scipyNorm "SKEW" none) (betaMeasure 1 3) (gaussianReal 2 (Real.toNNReal 5)) := by
  obtain ⟨_, _, _, h⟩ := C137_skew_partial "SKEW" none _ (List.Perm.refl _) 2 (v := 5) (by norm_num)
  exact (h _ (isProbabilityMeasureBeta one_pos (by norm_num)) (beta_moment one_pos (by norm_num) 3)
    (beta_not_const one_pos (by norm_num))).1 (beta_right_skewed one_pos (by norm_num))

example : Consistent (NormStat.lilliefors.statistic scipyNorm "LILLIE" none) (uniformLaw 0 1)
    (gaussianReal 2 (Real.toNNReal 5)) := by
  obtain ⟨_, _, _, h⟩ := C137_lilliefors "LILLIE" none _ (List.Perm.refl _) 2 (v := 5) (by norm_num)
  exact h _ (cdf_uniformLaw one_pos).1 (uniform_moment 2) (uniform_not_normal one_pos)

example : Consistent (NormStat.jarqueBera.statistic scipyNorm "JB" none) (uniformLaw 0 1) (gaussianReal 2 (Real.toNNReal 5)) ∧
    Consistent (NormStat.dap.statistic scipyNorm "DAP" none) (uniformLaw 0 1) (gaussianReal 2 (Real.toNNReal 5)) ∧
    Consistent (NormStat.doornikHansen.statistic scipyNorm "DH" none) (uniformLaw 0 1) (gaussianReal 2 (Real.toNNReal 5)) ∧
    Consistent (NormStat.bontempsMeddahi1.statistic scipyNorm "BM1" none) (uniformLaw 0 1)
      (gaussianReal 2 (Real.toNNReal 5)) := by
  obtain ⟨_, _, _, h1⟩ := C137_jarqueBera "JB" none _ (List.Perm.refl _) 2 (v := 5) (by norm_num)
  obtain ⟨_, _, _, h2⟩ := C137_dap "DAP" none _ (List.Perm.refl _) 2 (v := 5) (by norm_num)
  obtain ⟨_, _, _, h3⟩ := C137_doornikHansen "DH" none _ (List.Perm.refl _) 2 (v := 5) (by norm_num)
  obtain ⟨_, _, _, h4⟩ := C137_bontempsMeddahi1 "BM1" none _ (List.Perm.refl _) 2 (v := 5) (by norm_num)
  have e : lawStandardised (uniformLaw 0 1) 3 ≠ 0 ∨ lawStandardised (uniformLaw 0 1) 4 ≠ 3 :=
    Or.inr (by rw [uniform_kurtosis one_pos]; norm_num)
  exact ⟨h1 _ (cdf_uniformLaw one_pos).1 (uniform_moment 4) (uniform_not_const one_pos) e,
    h2 _ (cdf_uniformLaw one_pos).1 (uniform_moment 4) (uniform_not_const one_pos) e,
    h3 _ (cdf_uniformLaw one_pos).1 (uniform_moment 4) (uniform_not_const one_pos) e,
    h4 _ (cdf_uniformLaw one_pos).1 (uniform_moment 4) (uniform_not_const one_pos) e⟩

theorem geary_uniform_lt {b : ℝ} (hb : 0 < b) : lawGeary (uniformLaw 0 b) < √(Real.pi / 2) := by
  rw [uniform_geary hb, div_lt_iff₀ (Real.sqrt_pos.2 (by norm_num)), ← Real.sqrt_mul (by positivity)]
  refine Real.lt_sqrt_of_sq_lt ?_
  linarith [Real.pi_gt_three]

example : Consistent (NormStat.bonettSeier.statistic scipyNorm "BS" none) (uniformLaw 0 1)
    (gaussianReal 2 (Real.toNNReal 5)) := by
  obtain ⟨_, _, _, h⟩ := C137_bonettSeier "BS" none _ (List.Perm.refl _) 2 (v := 5) (by norm_num)
  exact h _ (cdf_uniformLaw one_pos).1 (uniform_moment 2) (uniform_not_const one_pos) (geary_uniform_lt one_pos).ne

end Pysatl.Props
