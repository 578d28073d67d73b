import Mathlib.Probability.Distributions.Exponential
import Mathlib.NumberTheory.Harmonic.GammaDeriv
import Mathlib.Analysis.SpecialFunctions.Gamma.Deriv

/-! # Integrals with respect to the exponential law -/

namespace Pysatl.Expon

open MeasureTheory ProbabilityTheory Set

variable {r : ℝ}

theorem pdf_eq (hr : 0 < r) (x : ℝ) :
    (gammaPDF 1 r x).toReal = (Ici (0 : ℝ)).indicator (fun x => r * Real.exp (-(r * x))) x := by
  rw [gammaPDF_eq, ENNReal.toReal_ofReal]
  · by_cases h : 0 ≤ x
    · rw [if_pos h, indicator_of_mem (mem_Ici.2 h)]
      simp
    · rw [if_neg h, indicator_of_notMem (by simpa using h)]
  · split
    · simp; positivity
    · exact le_rfl

theorem integral_exp (hr : 0 < r) (f : ℝ → ℝ) :
    ∫ x, f x ∂expMeasure r = ∫ x in Ioi (0 : ℝ), f x * (r * Real.exp (-(r * x))) := by
  unfold expMeasure gammaMeasure
  rw [integral_withDensity_eq_integral_toReal_smul (by unfold gammaPDF; fun_prop)
    (ae_of_all _ fun x => by simp [gammaPDF])]
  simp only [pdf_eq hr, smul_eq_mul]
  rw [← integral_Ici_eq_integral_Ioi, ← integral_indicator measurableSet_Ici]
  congr 1
  funext x
  by_cases h : x ∈ Ici (0 : ℝ)
  · rw [indicator_of_mem h, indicator_of_mem h, mul_comm]
  · rw [indicator_of_notMem h, indicator_of_notMem h, zero_mul]

theorem integrable_exp (hr : 0 < r) {f : ℝ → ℝ}
    (h : IntegrableOn (fun x => f x * (r * Real.exp (-(r * x)))) (Ioi 0)) : Integrable f (expMeasure r) := by
  unfold expMeasure gammaMeasure
  rw [integrable_withDensity_iff_integrable_smul' (by unfold gammaPDF; fun_prop)
    (ae_of_all _ fun x => by simp [gammaPDF])]
  simp only [pdf_eq hr, smul_eq_mul]
  rw [← integrableOn_Ici_iff_integrableOn_Ioi, ← integrable_indicator_iff measurableSet_Ici] at h
  refine h.congr (ae_of_all _ fun x => ?_)
  show _ = (Ici (0 : ℝ)).indicator (fun x => r * Real.exp (-(r * x))) x * f x
  by_cases h : x ∈ Ici (0 : ℝ)
  · rw [indicator_of_mem h, indicator_of_mem h, mul_comm]
  · rw [indicator_of_notMem h, indicator_of_notMem h, zero_mul]

/-- Powers. -/
theorem integral_rpow (hr : 0 < r) {s : ℝ} (hs : -1 < s) :
    ∫ x, x ^ s ∂expMeasure r = Real.Gamma (1 + s) / r ^ s := by
  rw [integral_exp hr]
  have := Real.integral_rpow_mul_exp_neg_mul_Ioi (a := 1 + s) (r := r) (by linarith) hr
  simp only [add_sub_cancel_left] at this
  have e : ∀ x : ℝ, x ^ s * (r * Real.exp (-(r * x))) = r * (x ^ s * Real.exp (-(r * x))) := fun x => by ring
  simp only [e]
  rw [integral_const_mul, this, one_div, Real.inv_rpow hr.le, Real.rpow_add hr, Real.rpow_one]
  field_simp

theorem integral_id (hr : 0 < r) : ∫ x, x ∂expMeasure r = 1 / r := by
  have := integral_rpow hr (s := 1) (by norm_num)
  simp only [Real.rpow_one] at this
  rw [this, show (1 : ℝ) + 1 = 2 by norm_num, Real.Gamma_two]

/-- The Laplace transform. -/
theorem integral_laplace (hr : 0 < r) {s : ℝ} (hs : 0 ≤ s) :
    ∫ x, Real.exp (-(s * x)) ∂expMeasure r = r / (r + s) := by
  rw [integral_exp hr]
  have := Real.integral_rpow_mul_exp_neg_mul_Ioi (a := 1) (r := r + s) (by norm_num) (by linarith)
  simp only [sub_self, Real.rpow_zero, one_mul, Real.rpow_one, Real.Gamma_one, mul_one] at this
  have e : ∀ x : ℝ, Real.exp (-(s * x)) * (r * Real.exp (-(r * x))) = r * Real.exp (-((r + s) * x)) := fun x => by
    rw [mul_left_comm, ← Real.exp_add]; congr 2; ring
  simp only [e]
  rw [integral_const_mul, this]
  field_simp

theorem real_Ioi (hr : 0 < r) {a : ℝ} (ha : 0 ≤ a) : (expMeasure r).real (Ioi a) = Real.exp (-(r * a)) := by
  have := isProbabilityMeasure_expMeasure hr
  have h := cdf_expMeasure_eq hr a
  rw [cdf_eq_real, if_pos ha] at h
  rw [← compl_Iic, probReal_compl_eq_one_sub measurableSet_Iic, h]
  ring

theorem real_Ici (hr : 0 < r) {a : ℝ} (ha : 0 ≤ a) : (expMeasure r).real (Ici a) = Real.exp (-(r * a)) := by
  rw [← real_Ioi hr ha]
  unfold Measure.real
  congr 1
  refine (measure_congr ?_).symm
  have : expMeasure r ≪ volume := withDensity_absolutelyContinuous _ _
  exact this.ae_le Ioi_ae_eq_Ici

theorem ae_pos (hr : 0 < r) : ∀ᵐ x ∂expMeasure r, 0 < x := by
  have := isProbabilityMeasure_expMeasure hr
  have h := real_Ioi hr le_rfl
  rw [mul_zero, neg_zero, Real.exp_zero] at h
  have h2 : (expMeasure r) (Ioi 0) = 1 := by
    rw [← ENNReal.ofReal_one, ← h, ofReal_measureReal]
  exact (prob_compl_eq_zero_iff measurableSet_Ioi).2 h2 |> fun h => by
    rw [ae_iff]; convert h using 2; ext x; simp

/-! ### Logarithms -/

theorem log_moment {s : ℝ} (hs : 0 < s) {d : ℝ} (hd : HasDerivAt Real.Gamma d s) :
    IntegrableOn (fun t : ℝ => t ^ (s - 1) * (Real.log t * Real.exp (-t))) (Ioi 0) ∧
    ∫ t in Ioi (0 : ℝ), t ^ (s - 1) * (Real.log t * Real.exp (-t)) = d := by
  have hre : 0 < (s : ℂ).re := by simpa using hs
  have hconv : MellinConvergent (fun t : ℝ => Real.log t • ((Real.exp (-t) : ℝ) : ℂ)) (s : ℂ) := by
    refine (mellin_hasDerivAt_of_isBigO_rpow (E := ℂ) (f := fun t : ℝ => ((Real.exp (-t) : ℝ) : ℂ))
      (a := (s : ℂ).re + 1) (b := 0) ?_ ?_ (lt_add_one _) ?_ hre).1
    · refine (Continuous.continuousOn ?_).locallyIntegrableOn measurableSet_Ioi
      exact Complex.continuous_ofReal.comp (Real.continuous_exp.comp continuous_neg)
    · rw [← Asymptotics.isBigO_norm_left]
      simp_rw [Complex.norm_real, Asymptotics.isBigO_norm_left]
      simpa only [neg_one_mul] using (isLittleO_exp_neg_mul_rpow_atTop zero_lt_one _).isBigO
    · simp_rw [neg_zero, Real.rpow_zero]
      refine Asymptotics.isBigO_const_of_tendsto (?_ : Filter.Tendsto _ _ (nhds (1 : ℂ))) one_ne_zero
      rw [(by simp : (1 : ℂ) = Real.exp (-0))]
      exact (Complex.continuous_ofReal.comp (Real.continuous_exp.comp continuous_neg)).continuousWithinAt
  have hcast : ∀ t ∈ Ioi (0 : ℝ), (t : ℂ) ^ ((s : ℂ) - 1) * (Real.log t * Real.exp (-t)) =
      ((t ^ (s - 1) * (Real.log t * Real.exp (-t)) : ℝ) : ℂ) := fun t ht => by
    push_cast
    rw [← Complex.ofReal_one, ← Complex.ofReal_sub, ← Complex.ofReal_cpow (le_of_lt ht)]
  constructor
  · have h1 : IntegrableOn (fun t : ℝ => (((t ^ (s - 1) * (Real.log t * Real.exp (-t)) : ℝ)) : ℂ)) (Ioi 0) := by
      refine hconv.congr_fun (fun t ht => ?_) measurableSet_Ioi
      rw [← hcast t ht]
      simp [smul_eq_mul]
    exact h1.re
  · have h1 := Complex.hasDerivAt_GammaIntegral hre
    rw [setIntegral_congr_fun measurableSet_Ioi hcast, integral_complex_ofReal] at h1
    have h2 : HasDerivAt Complex.Gamma _ (s : ℂ) := h1.congr_of_eventuallyEq (by
      have : IsOpen {s : ℂ | 0 < s.re} := Complex.continuous_re.isOpen_preimage _ isOpen_Ioi
      filter_upwards [this.mem_nhds hre] with a ha using Complex.Gamma_eq_integral ha)
    have h3 := h2.real_of_complex
    rw [Complex.ofReal_re] at h3
    exact h3.unique hd

theorem integral_log_one : IntegrableOn (fun t : ℝ => Real.log t * Real.exp (-t)) (Ioi 0) ∧
    ∫ t in Ioi (0 : ℝ), Real.log t * Real.exp (-t) = -Real.eulerMascheroniConstant := by
  have := log_moment one_pos Real.hasDerivAt_Gamma_one
  simpa using this

theorem hasDerivAt_Gamma_two : HasDerivAt Real.Gamma (1 - Real.eulerMascheroniConstant) 2 := by
  have h1 : HasDerivAt (fun x : ℝ => x * Real.Gamma x) (1 * Real.Gamma 1 + 1 * -Real.eulerMascheroniConstant) 1 :=
    (hasDerivAt_id (1 : ℝ)).mul Real.hasDerivAt_Gamma_one
  have h2 : HasDerivAt (fun x : ℝ => Real.Gamma (x + 1)) (1 * Real.Gamma 1 + 1 * -Real.eulerMascheroniConstant) 1 := by
    refine h1.congr_of_eventuallyEq ?_
    filter_upwards [lt_mem_nhds (show (0 : ℝ) < 1 by norm_num)] with x hx using Real.Gamma_add_one hx.ne'
  have h3 := HasDerivAt.comp (x := (2 : ℝ)) (h₂ := fun x : ℝ => Real.Gamma (x + 1)) (h := fun x : ℝ => x - 1)
    (by norm_num; exact h2) ((hasDerivAt_id (2 : ℝ)).sub_const 1)
  simp only [Function.comp_def, sub_add_cancel, Real.Gamma_one, one_mul, mul_one] at h3
  rw [sub_eq_add_neg]
  exact h3

theorem integral_log_two : IntegrableOn (fun t : ℝ => t * (Real.log t * Real.exp (-t))) (Ioi 0) ∧
    ∫ t in Ioi (0 : ℝ), t * (Real.log t * Real.exp (-t)) = 1 - Real.eulerMascheroniConstant := by
  have := log_moment two_pos hasDerivAt_Gamma_two
  norm_num at this
  simpa using this

/-- A change of scale. -/
theorem integral_scale (hr : 0 < r) (f : ℝ → ℝ) :
    ∫ x, f (r * x) ∂expMeasure r = ∫ t in Ioi (0 : ℝ), f t * Real.exp (-t) := by
  rw [integral_exp hr]
  have := integral_comp_mul_left_Ioi (fun t => f t * Real.exp (-t)) 0 hr
  rw [mul_zero, smul_eq_mul] at this
  rw [eq_inv_mul_iff_mul_eq₀ hr.ne'] at this
  rw [← this, ← integral_const_mul]
  congr 1
  funext x
  ring

end Pysatl.Expon
