import Verif.Props.ExponentMeaning
import Verif.Lemmas.Expon
import Verif.Spec.Functional

/-! # C105: exponentiality statistics compare a functional of the sample with its value at the
exponential law -/

namespace Pysatl.Props

open Pysatl.Decision Pysatl.Graph Pysatl.Edf Pysatl.Exponent Pysatl.Spec Pysatl.Expon
open MeasureTheory ProbabilityTheory

theorem integral_dirac_sum (f : ℝ → ℝ) : ∀ xs : List ℝ,
    Integrable f (xs.map fun x => Measure.dirac x).sum ∧
    ∫ x, f x ∂(xs.map fun x => Measure.dirac x).sum = (xs.map f).sum
  | [] => by simp
  | a :: l => by
    obtain ⟨h1, h2⟩ := integral_dirac_sum f l
    have h0 : Integrable f (Measure.dirac a) := integrable_dirac (by simp)
    rw [List.map_cons, List.sum_cons, List.map_cons, List.sum_cons]
    exact ⟨h0.add_measure h1, by rw [integral_add_measure h0 h1, h2, integral_dirac]⟩

theorem integral_empirical (f : ℝ → ℝ) (xs : List ℝ) :
    ∫ x, f x ∂empiricalLaw xs = (xs.map f).sum / xs.length := by
  unfold empiricalLaw
  rw [integral_smul_measure, (integral_dirac_sum f xs).2]
  simp [div_eq_inv_mul]

theorem lawMean_empirical (xs : List ℝ) : lawMean (empiricalLaw xs) = mean xs := by
  rw [lawMean, integral_empirical, List.map_id']
  rfl

theorem lawMean_exp {r : ℝ} (hr : 0 < r) : lawMean (expMeasure r) = 1 / r := integral_id hr

theorem div_lawMean_exp {r : ℝ} (hr : 0 < r) (x : ℝ) : x / lawMean (expMeasure r) = r * x := by
  rw [lawMean_exp hr]; field_simp

theorem laplaceRatio_exp {r : ℝ} (hr : 0 < r) : laplaceRatio (expMeasure r) = 1 / 2 := by
  unfold laplaceRatio
  simp only [div_lawMean_exp hr]
  rw [integral_laplace hr hr.le]
  field_simp
  norm_num

theorem logRatio_exp {r : ℝ} (hr : 0 < r) : logRatio (expMeasure r) = -Real.eulerMascheroniConstant := by
  unfold logRatio
  simp only [div_lawMean_exp hr]
  rw [integral_scale hr, integral_log_one.2]

theorem logTilt_exp {r : ℝ} (hr : 0 < r) : logTilt (expMeasure r) = -1 := by
  unfold logTilt
  simp only [div_lawMean_exp hr]
  rw [integral_scale hr (fun t => Real.log t * (1 - t))]
  have e : ∀ t : ℝ, Real.log t * (1 - t) * Real.exp (-t) =
      Real.log t * Real.exp (-t) - t * (Real.log t * Real.exp (-t)) := fun t => by ring
  simp only [e]
  rw [integral_sub integral_log_one.1 integral_log_two.1, integral_log_one.2, integral_log_two.2]
  ring

theorem powerMeanRatio_exp {r p : ℝ} (hr : 0 < r) (hp : -1 < p) (hp0 : p ≠ 0) :
    powerMeanRatio p (expMeasure r) = Real.Gamma (1 + p) ^ (1 / p) := by
  unfold powerMeanRatio
  rw [integral_rpow hr hp, lawMean_exp hr,
    Real.div_rpow (Real.Gamma_pos_of_pos (by linarith)).le (Real.rpow_nonneg hr.le _), ← Real.rpow_mul hr.le,
    mul_one_div_cancel hp0, Real.rpow_one]
  field_simp

/-- **C105**, Epps-Pulley. -/
theorem C105_eppsPulley {rvs : List ℝ} (hne : rvs ≠ []) {r : ℝ} (hr : 0 < r) :
    ExpStat.value .eppsPulley rvs =
      .ok (√(48 * rvs.length) * (laplaceRatio (empiricalLaw rvs) - laplaceRatio (expMeasure r))) := by
  have hl := len_pos hne
  simp only [ExpStat.value, Exponent.eppsPulley]
  congr 1
  rw [laplaceRatio_exp hr, laplaceRatio, lawMean_empirical, integral_empirical, List.map_map]
  have e : (rvs.map ((fun v => Real.exp (-v) - 1 / 2) ∘ fun x => x / mean rvs)).sum =
      (rvs.map fun x => Real.exp (-(x / mean rvs))).sum - rvs.length * (1 / 2) := by
    rw [show ((fun v => Real.exp (-v) - 1 / 2) ∘ fun x => x / mean rvs) =
      fun x => Real.exp (-(x / mean rvs)) + -(1 / 2) from rfl, List.sum_map_add]
    simp [sub_eq_add_neg]
  rw [e]
  field_simp

/-- **C105**, Moran. -/
theorem C105_moran (rvs : List ℝ) {r : ℝ} (hr : 0 < r) :
    ExpStat.value .moran rvs = .ok (logRatio (empiricalLaw rvs) - logRatio (expMeasure r)) := by
  simp only [ExpStat.value, Exponent.moran]
  congr 1
  rw [logRatio_exp hr, logRatio, lawMean_empirical, integral_empirical, mean, List.length_map]
  ring

/-- **C105**, Cox-Oakes. -/
theorem C105_coxOakes {rvs : List ℝ} (hne : rvs ≠ []) {r : ℝ} (hr : 0 < r) :
    ExpStat.value .coxOakes rvs =
      .ok (rvs.length * (logTilt (empiricalLaw rvs) - logTilt (expMeasure r))) := by
  have hl := len_pos hne
  simp only [ExpStat.value, Exponent.coxOakes]
  congr 1
  rw [logTilt_exp hr, logTilt, lawMean_empirical, integral_empirical, List.map_map]
  field_simp
  simp only [Function.comp_def]
  ring

/-- **C105**, Atkinson. -/
theorem C105_atkinson (rvs : List ℝ) {r p : ℝ} (hr : 0 < r) (hp : -1 < p) (hp0 : p ≠ 0) :
    ExpStat.value (.atkinson p) rvs =
      .ok (√rvs.length * |powerMeanRatio p (empiricalLaw rvs) - powerMeanRatio p (expMeasure r)|) := by
  simp only [ExpStat.value, Exponent.atkinson]
  congr 1
  rw [powerMeanRatio_exp hr hp hp0, powerMeanRatio, lawMean_empirical, integral_empirical]
  simp only [mean, List.length_map]

/-- **C105**, Pietra: the index of the empirical law. -/
theorem C105_pietra (rvs : List ℝ) :
    ExpStat.value .pietra rvs = .ok (pietraIndex (empiricalLaw rvs)) := by
  simp only [ExpStat.value, Exponent.pietra]
  congr 1
  rw [pietraIndex, lawMean_empirical, integral_empirical, div_div]
  congr 1
  ring

/-- The index of the exponential laws. -/
theorem pietraIndex_exp {r : ℝ} (hr : 0 < r) : pietraIndex (expMeasure r) = Real.exp (-1) := by
  have e : ∀ x : ℝ, |x - 1 / r| = 1 / r * |r * x - 1| := fun x => by
    rw [← abs_of_pos (show 0 < 1 / r by positivity), ← abs_mul, abs_of_pos (show 0 < 1 / r by positivity)]
    congr 1
    field_simp
  have hd : ∀ t : ℝ, HasDerivAt (fun t => -(t * Real.exp (-t))) ((t - 1) * Real.exp (-t)) t := fun t => by
    have h1 : HasDerivAt (fun t : ℝ => Real.exp (-t)) (Real.exp (-t) * -1) t := (hasDerivAt_neg t).exp
    refine ((hasDerivAt_id t).mul h1).neg.congr_deriv ?_
    simp only [id]; ring
  have hlim : Filter.Tendsto (fun t : ℝ => -(t * Real.exp (-t))) Filter.atTop (nhds 0) := by
    have := (Real.tendsto_pow_mul_exp_neg_atTop_nhds_zero 1).neg
    simpa using this
  have hint : IntegrableOn (fun t : ℝ => (t - 1) * Real.exp (-t)) (Set.Ioi 1) :=
    integrableOn_Ioi_deriv_of_nonneg' (fun t _ => hd t)
      (fun t ht => mul_nonneg (by linarith [Set.mem_Ioi.1 ht]) (Real.exp_pos _).le) hlim
  have hup : ∫ t in Set.Ioi (1 : ℝ), |t - 1| * Real.exp (-t) = Real.exp (-1) := by
    rw [setIntegral_congr_fun (g := fun t : ℝ => (t - 1) * Real.exp (-t)) measurableSet_Ioi
      fun t ht => by rw [abs_of_pos (by linarith [Set.mem_Ioi.1 ht])]]
    rw [integral_Ioi_of_hasDerivAt_of_tendsto' (fun t _ => hd t) hint hlim]
    simp
  have hlow : ∫ t in Set.Ioc (0 : ℝ) 1, |t - 1| * Real.exp (-t) = Real.exp (-1) := by
    rw [setIntegral_congr_fun (g := fun t : ℝ => -((t - 1) * Real.exp (-t))) measurableSet_Ioc
      fun t ht => by rw [abs_of_nonpos (by linarith [ht.2]), neg_mul]]
    rw [integral_neg, ← intervalIntegral.integral_of_le zero_le_one,
      intervalIntegral.integral_eq_sub_of_hasDerivAt (fun t _ => hd t)
        (Continuous.intervalIntegrable (by fun_prop) _ _)]
    simp
  unfold pietraIndex
  rw [lawMean_exp hr]
  simp only [e]
  rw [integral_const_mul, integral_scale hr (fun t => |t - 1|), ← Set.Ioc_union_Ioi_eq_Ioi zero_le_one,
    setIntegral_union (Set.Ioc_disjoint_Ioi le_rfl) measurableSet_Ioi, hup, hlow]
  · field_simp; ring
  · exact (Continuous.integrableOn_Icc (by fun_prop)).mono_set Set.Ioc_subset_Icc_self
  · refine hint.congr_fun (fun t ht => ?_) measurableSet_Ioi
    simp only [abs_of_pos (show 0 < t - 1 by linarith [Set.mem_Ioi.1 ht])]

theorem cvSquared_exp {r : ℝ} (hr : 0 < r) : cvSquared (expMeasure r) = 1 := by
  have := isProbabilityMeasure_expMeasure hr
  unfold cvSquared
  rw [lawMean_exp hr]
  have h2 : ∫ x, x ^ 2 ∂expMeasure r = 2 / r ^ 2 := by
    have := integral_rpow hr (s := 2) (by norm_num)
    have hg : Real.Gamma (1 + 2) = 2 := by
      rw [show (1 : ℝ) + 2 = 2 + 1 by norm_num, Real.Gamma_add_one two_ne_zero, Real.Gamma_two, mul_one]
    rw [hg] at this
    simpa using this
  have i2 : Integrable (fun x : ℝ => x ^ 2) (expMeasure r) := by
    by_contra h
    rw [integral_undef h] at h2
    have : 0 < 2 / r ^ 2 := by positivity
    linarith
  have i1 : Integrable (fun x : ℝ => x) (expMeasure r) := by
    by_contra h
    have h1 := integral_id hr
    rw [integral_undef h] at h1
    have : 0 < 1 / r := by positivity
    linarith
  have e : ∀ x : ℝ, (x - 1 / r) ^ 2 = x ^ 2 - 2 / r * x + 1 / r ^ 2 := fun x => by field_simp; ring
  simp only [e]
  rw [integral_add (by exact i2.sub (i1.const_mul _)) (integrable_const _), integral_sub i2 (i1.const_mul _),
    integral_const_mul, h2, integral_id hr, integral_const, probReal_univ, one_smul]
  field_simp
  norm_num

theorem cvSquared_empirical (xs : List ℝ) : cvSquared (empiricalLaw xs) = variance xs / mean xs ^ 2 := by
  rw [cvSquared, lawMean_empirical, integral_empirical]
  rfl

/-- **C105 (refuted)**, WE: the statistic based on the coefficient of variation, the sum of squared
deviations over the square of the sum, is underestimated for every sample that is not constant (the
code uses the biased variance in the formula for the unbiased one). -/
theorem C105_refuted_we {rvs : List ℝ} (hpos : ∀ x ∈ rvs, 0 < x) (hc : ¬ Constant rvs) :
    ∃ v, ExpStat.value .we rvs = .ok v ∧
      v = (1 - 1 / rvs.length) * ((rvs.map fun x => (x - rvs.sum / rvs.length) ^ 2).sum / rvs.sum ^ 2) ∧
      v < (rvs.map fun x => (x - rvs.sum / rvs.length) ^ 2).sum / rvs.sum ^ 2 := by
  have hne : rvs ≠ [] := by rintro rfl; exact hc fun x hx => by simp at hx
  have hs := sum_pos' hne hpos
  have hl := len_pos hne
  have hdev : 0 < (rvs.map fun x => (x - rvs.sum / rvs.length) ^ 2).sum := by
    refine lt_of_not_ge fun h => hc ?_
    have h0 : ∀ x ∈ rvs, x = rvs.sum / rvs.length := fun x hx => by
      have h1 : (x - rvs.sum / rvs.length) ^ 2 ≤ (rvs.map fun x => (x - rvs.sum / rvs.length) ^ 2).sum :=
        List.single_le_sum (fun y hy => by obtain ⟨w, _, rfl⟩ := List.mem_map.1 hy; positivity) _
          (List.mem_map.2 ⟨x, hx, rfl⟩)
      have h2 : (x - rvs.sum / rvs.length) ^ 2 = 0 := le_antisymm (h1.trans h) (sq_nonneg _)
      have := pow_eq_zero_iff two_ne_zero |>.1 h2
      linarith
    exact fun x hx y hy => (h0 x hx).trans (h0 y hy).symm
  have hv : 0 < (rvs.map fun x => (x - rvs.sum / rvs.length) ^ 2).sum / rvs.sum ^ 2 := by positivity
  have hq : 0 < 1 / (rvs.length : ℝ) := by positivity
  refine ⟨_, rfl, ?_⟩
  have e : Exponent.we rvs = (1 - 1 / rvs.length) *
      ((rvs.map fun x => (x - rvs.sum / rvs.length) ^ 2).sum / rvs.sum ^ 2) := by
    unfold Exponent.we variance mean
    generalize (rvs.map fun x => (x - rvs.sum / rvs.length) ^ 2).sum = S
    field_simp
  exact ⟨e, by rw [e]; nlinarith⟩

/-- **C105**, WE, up to the factor: the squared coefficient of variation of the empirical law, which
is one for the exponential laws, times `(n - 1) / n²`. -/
theorem C105_we_partial (rvs : List ℝ) {r : ℝ} (hr : 0 < r) : cvSquared (expMeasure r) = 1 ∧
    ExpStat.value .we rvs = .ok (((rvs.length : ℝ) - 1) / rvs.length ^ 2 * cvSquared (empiricalLaw rvs)) := by
  refine ⟨cvSquared_exp hr, ?_⟩
  simp only [ExpStat.value, Exponent.we]
  rw [cvSquared_empirical]
  congr 1
  rw [div_mul_div_comm]

/-- Non-vacuity. -/
example : ([1, 2, 4] : List ℝ) ≠ [] ∧ (∀ x ∈ ([1, 2, 4] : List ℝ), 0 < x) ∧ ¬ Constant ([1, 2, 4] : List ℝ) ∧
    (0 : ℝ) < 3 ∧ (-1 : ℝ) < 0.99 ∧ (0.99 : ℝ) ≠ 0 :=
  ⟨by simp, by simp, fun h => by have := h 1 (by simp) 2 (by simp); norm_num at this, by norm_num,
    by norm_num, by norm_num⟩

end Pysatl.Props
