import Mathlib.Probability.Distributions.Beta
import Mathlib.Analysis.SpecialFunctions.Gamma.Deriv
import Mathlib.Analysis.SpecialFunctions.Pow.Deriv
import Mathlib.Analysis.SpecialFunctions.Log.Deriv
import Mathlib.Analysis.Calculus.ParametricIntegral
import Mathlib.MeasureTheory.Integral.Bochner.ContinuousLinearMap
import Mathlib.MeasureTheory.Measure.Haar.NormedSpace
import Mathlib.MeasureTheory.Group.Integral
import Mathlib.Tactic.Positivity
import Mathlib.Tactic.FieldSimp

/-! # The beta law: moments, logarithmic moments -/

namespace Pysatl

open MeasureTheory ProbabilityTheory Set

/-- The kernel `x^(a-1) (1-x)^(b-1)` of the beta density. -/
noncomputable def betaKernel (a b x : ℝ) : ℝ := x ^ (a - 1) * (1 - x) ^ (b - 1)

theorem betaPDFReal_nonneg' {a b : ℝ} (ha : 0 < a) (hb : 0 < b) (x : ℝ) : 0 ≤ betaPDFReal a b x := by
  by_cases h : 0 < x ∧ x < 1
  · exact (betaPDFReal_pos h.1 h.2 ha hb).le
  · rw [betaPDFReal, if_neg h]

theorem betaPDFReal_indicator (a b : ℝ) :
    betaPDFReal a b = (Ioo (0 : ℝ) 1).indicator fun x => (beta a b)⁻¹ * betaKernel a b x := by
  funext x
  rw [betaPDFReal, indicator_apply]
  simp only [mem_Ioo, betaKernel]
  split_ifs
  · rw [one_div, mul_assoc]
  · rfl

theorem integral_beta {a b : ℝ} (ha : 0 < a) (hb : 0 < b) (f : ℝ → ℝ) :
    ∫ x, f x ∂betaMeasure a b = ∫ x, betaPDFReal a b x * f x := by
  have hm : Measurable (betaPDF a b) := (measurable_betaPDFReal a b).ennreal_ofReal
  rw [betaMeasure, integral_withDensity_eq_integral_toReal_smul hm
    (Filter.Eventually.of_forall fun x => ENNReal.ofReal_lt_top)]
  refine integral_congr_ae (Filter.Eventually.of_forall fun x => ?_)
  simp only [smul_eq_mul]
  rw [betaPDF, ENNReal.toReal_ofReal (betaPDFReal_nonneg' ha hb x)]

theorem integrable_beta {a b : ℝ} (ha : 0 < a) (hb : 0 < b) (f : ℝ → ℝ) :
    Integrable f (betaMeasure a b) ↔ Integrable fun x => betaPDFReal a b x * f x := by
  have hm : Measurable (betaPDF a b) := (measurable_betaPDFReal a b).ennreal_ofReal
  rw [betaMeasure, integrable_withDensity_iff_integrable_smul' hm
    (Filter.Eventually.of_forall fun x => ENNReal.ofReal_lt_top)]
  refine integrable_congr (Filter.Eventually.of_forall fun x => ?_)
  simp only [smul_eq_mul]
  rw [betaPDF, ENNReal.toReal_ofReal (betaPDFReal_nonneg' ha hb x)]

theorem integral_betaPDFReal {a b : ℝ} (ha : 0 < a) (hb : 0 < b) : ∫ x, betaPDFReal a b x = 1 := by
  have := isProbabilityMeasureBeta ha hb
  have h := integral_beta ha hb fun _ => 1
  simpa using h.symm

theorem integrable_betaPDFReal {a b : ℝ} (ha : 0 < a) (hb : 0 < b) : Integrable (betaPDFReal a b) := by
  have := isProbabilityMeasureBeta ha hb
  simpa using (integrable_beta ha hb fun _ => 1).1 (integrable_const _)

theorem integrableOn_betaKernel {a b : ℝ} (ha : 0 < a) (hb : 0 < b) :
    IntegrableOn (betaKernel a b) (Ioo 0 1) := by
  have h := integrable_betaPDFReal ha hb
  rw [betaPDFReal_indicator, integrable_indicator_iff measurableSet_Ioo] at h
  have h2 := h.const_mul (beta a b)
  refine h2.congr (Filter.Eventually.of_forall fun x => ?_)
  simp only
  rw [← mul_assoc, mul_inv_cancel₀ (beta_pos ha hb).ne', one_mul]

theorem integral_betaKernel {a b : ℝ} (ha : 0 < a) (hb : 0 < b) :
    ∫ x in Ioo (0 : ℝ) 1, betaKernel a b x = beta a b := by
  have h := integral_betaPDFReal ha hb
  rw [betaPDFReal_indicator, integral_indicator measurableSet_Ioo, integral_const_mul] at h
  have := (beta_pos ha hb).ne'
  field_simp at h
  exact h

theorem integral_beta_kernel {a b : ℝ} (ha : 0 < a) (hb : 0 < b) (f : ℝ → ℝ) :
    ∫ x, f x ∂betaMeasure a b = (∫ x in Ioo (0 : ℝ) 1, betaKernel a b x * f x) / beta a b := by
  rw [integral_beta ha hb, betaPDFReal_indicator, div_eq_inv_mul, ← integral_const_mul,
    ← integral_indicator measurableSet_Ioo]
  refine integral_congr_ae (Filter.Eventually.of_forall fun x => ?_)
  simp only [indicator_apply]
  split_ifs
  · ring
  · simp

theorem integrable_beta_kernel {a b : ℝ} (ha : 0 < a) (hb : 0 < b) {f : ℝ → ℝ}
    (h : IntegrableOn (fun x => betaKernel a b x * f x) (Ioo 0 1)) :
    Integrable f (betaMeasure a b) := by
  rw [integrable_beta ha hb, betaPDFReal_indicator]
  rw [← integrable_indicator_iff measurableSet_Ioo] at h
  refine (h.const_mul (beta a b)⁻¹).congr (Filter.Eventually.of_forall fun x => ?_)
  simp only [indicator_apply]
  split_ifs
  · ring
  · simp

/-- The beta law lives on `(0, 1)`. -/
theorem ae_beta (a b : ℝ) : ∀ᵐ x ∂betaMeasure a b, 0 < x ∧ x < 1 := by
  have hm : Measurable (betaPDF a b) := (measurable_betaPDFReal a b).ennreal_ofReal
  rw [betaMeasure, ae_withDensity_iff hm]
  refine Filter.Eventually.of_forall fun x hx => ?_
  by_contra h
  exact hx (by rw [betaPDF_eq, if_neg h, ENNReal.ofReal_zero])

/-- Functions bounded on `(0, 1)` have an expectation. -/
theorem integrable_beta_bounded {a b : ℝ} (ha : 0 < a) (hb : 0 < b) {f : ℝ → ℝ} (hf : Measurable f)
    (M : ℝ) (h : ∀ x, 0 < x → x < 1 → |f x| ≤ M) : Integrable f (betaMeasure a b) := by
  have := isProbabilityMeasureBeta ha hb
  exact Integrable.of_bound hf.aestronglyMeasurable M ((ae_beta a b).mono fun x hx => h x hx.1 hx.2)

theorem beta_succ {a b : ℝ} (ha : 0 < a) (hb : 0 < b) :
    beta (a + 1) b = a / (a + b) * beta a b := by
  have hab : 0 < a + b := add_pos ha hb
  have hG := (Real.Gamma_pos_of_pos hab).ne'
  rw [beta, beta, Real.Gamma_add_one ha.ne', show a + 1 + b = (a + b) + 1 by ring,
    Real.Gamma_add_one hab.ne']
  field_simp

/-- `E[X g(X)]` for the exponent `a` is `a / (a + b)` times `E[g(X)]` for the exponent `a + 1`. -/
theorem integral_beta_shift {a b : ℝ} (ha : 0 < a) (hb : 0 < b) (g : ℝ → ℝ) :
    ∫ x, x * g x ∂betaMeasure a b = a / (a + b) * ∫ x, g x ∂betaMeasure (a + 1) b := by
  rw [integral_beta_kernel ha hb, integral_beta_kernel (by linarith) hb, beta_succ ha hb]
  have e : ∫ x in Ioo (0 : ℝ) 1, betaKernel a b x * (x * g x) =
      ∫ x in Ioo (0 : ℝ) 1, betaKernel (a + 1) b x * g x := by
    refine setIntegral_congr_fun measurableSet_Ioo fun x hx => ?_
    simp only [betaKernel]
    rw [Real.rpow_sub_one hx.1.ne', add_sub_cancel_right]
    have := hx.1.ne'
    field_simp
  rw [e]
  have h1 := (beta_pos ha hb).ne'
  have h2 : (a + b) ≠ 0 := (add_pos ha hb).ne'
  have h3 := ha.ne'
  field_simp

theorem integral_beta_pow {a b : ℝ} (ha : 0 < a) (hb : 0 < b) (k : ℕ) :
    ∫ x, x ^ k ∂betaMeasure a b = ∏ i ∈ Finset.range k, (a + i) / (a + b + i) := by
  induction k generalizing a with
  | zero =>
    have := isProbabilityMeasureBeta ha hb
    simp
  | succ k ih =>
    have e : ∀ x : ℝ, x ^ (k + 1) = x * x ^ k := fun x => by ring
    simp only [e]
    rw [integral_beta_shift ha hb, ih (by linarith), Finset.prod_range_succ']
    rw [mul_comm]
    congr 1
    · refine Finset.prod_congr rfl fun i _ => ?_
      push_cast
      congr 1 <;> ring
    · simp

/-- The reflection `x ↦ 1 - x` exchanges the exponents. -/
theorem integral_beta_reflect {a b : ℝ} (ha : 0 < a) (hb : 0 < b) (f : ℝ → ℝ) :
    ∫ x, f (1 - x) ∂betaMeasure a b = ∫ x, f x ∂betaMeasure b a := by
  rw [integral_beta ha hb, integral_beta hb ha,
    ← integral_sub_left_eq_self (fun x => betaPDFReal b a x * f x) volume 1]
  refine integral_congr_ae (Filter.Eventually.of_forall fun x => ?_)
  simp only
  congr 1
  rw [betaPDFReal, betaPDFReal, beta, beta, mul_comm (Real.Gamma b), add_comm b a, sub_sub_cancel]
  have : (0 < 1 - x ∧ 1 - x < 1) ↔ (0 < x ∧ x < 1) := by
    constructor <;> intro h <;> constructor <;> linarith [h.1, h.2]
  simp only [this]
  split_ifs
  · ring
  · rfl

theorem integrable_beta_reflect {a b : ℝ} (ha : 0 < a) (hb : 0 < b) {f : ℝ → ℝ}
    (h : Integrable f (betaMeasure b a)) : Integrable (fun x => f (1 - x)) (betaMeasure a b) := by
  rw [integrable_beta hb ha] at h
  rw [integrable_beta ha hb]
  refine (h.comp_sub_left 1).congr (Filter.Eventually.of_forall fun x => ?_)
  simp only
  congr 1
  rw [betaPDFReal, betaPDFReal, beta, beta, mul_comm (Real.Gamma b), add_comm b a, sub_sub_cancel]
  have : (0 < 1 - x ∧ 1 - x < 1) ↔ (0 < x ∧ x < 1) := by
    constructor <;> intro h <;> constructor <;> linarith [h.1, h.2]
  simp only [this]
  split_ifs
  · ring
  · rfl

/-! ### The logarithmic moment -/

theorem real_differentiableAt_Gamma {a : ℝ} (ha : 0 < a) : DifferentiableAt ℝ Real.Gamma a :=
  Real.differentiableAt_Gamma fun m => by
    have : (0 : ℝ) ≤ m := Nat.cast_nonneg m
    linarith

theorem deriv_log_Gamma {a : ℝ} (ha : 0 < a) :
    deriv (fun t => Real.log (Real.Gamma t)) a = deriv Real.Gamma a / Real.Gamma a :=
  ((real_differentiableAt_Gamma ha).hasDerivAt.log (Real.Gamma_pos_of_pos ha).ne').deriv

/-- `∂B(a, b)/∂a = B(a, b) (ψ(a) - ψ(a + b))`. -/
theorem hasDerivAt_beta {a b : ℝ} (ha : 0 < a) (hb : 0 < b) :
    HasDerivAt (fun s => beta s b) (beta a b * (deriv (fun t => Real.log (Real.Gamma t)) a -
      deriv (fun t => Real.log (Real.Gamma t)) (a + b))) a := by
  have hab := add_pos ha hb
  have h1 := (real_differentiableAt_Gamma ha).hasDerivAt
  have h2 : HasDerivAt (fun s => Real.Gamma (s + b)) (deriv Real.Gamma (a + b)) a := by
    exact HasDerivAt.comp_add_const a b (real_differentiableAt_Gamma hab).hasDerivAt
  have g1 := (Real.Gamma_pos_of_pos ha).ne'
  have g2 := (Real.Gamma_pos_of_pos hab).ne'
  have h3 := (h1.mul_const (Real.Gamma b)).div h2 g2
  rw [deriv_log_Gamma ha, deriv_log_Gamma hab]
  refine h3.congr_deriv ?_
  rw [beta]
  generalize deriv Real.Gamma a = d1
  generalize deriv Real.Gamma (a + b) = d2
  field_simp

theorem betaKernel_log {a b : ℝ} (ha : 0 < a) (hb : 0 < b) :
    IntegrableOn (fun x => betaKernel a b x * Real.log x) (Ioo 0 1) ∧
    HasDerivAt (fun s => ∫ x in Ioo (0 : ℝ) 1, betaKernel s b x)
      (∫ x in Ioo (0 : ℝ) 1, betaKernel a b x * Real.log x) a := by
  refine hasDerivAt_integral_of_dominated_loc_of_deriv_le (μ := volume.restrict (Ioo (0 : ℝ) 1))
    (F := fun s x => betaKernel s b x) (F' := fun s x => betaKernel s b x * Real.log x)
    (bound := fun x => 4 / a * betaKernel (a / 4) b x) (s := Metric.ball a (a / 2))
    (Metric.ball_mem_nhds a (by linarith))
    (Filter.Eventually.of_forall fun s => ?_) (integrableOn_betaKernel ha hb) ?_ ?_
    ((integrableOn_betaKernel (by linarith) hb).const_mul _) ?_
  · have : Measurable (betaKernel s b) := by unfold betaKernel; fun_prop
    exact this.aestronglyMeasurable
  · have : Measurable (betaKernel a b) := by unfold betaKernel; fun_prop
    exact (this.mul Real.measurable_log).aestronglyMeasurable
  · refine (ae_restrict_mem measurableSet_Ioo).mono fun x hx s hs => ?_
    have hs' : a / 2 < s := by
      rw [Metric.mem_ball, Real.dist_eq] at hs
      linarith [(abs_lt.1 hs).1]
    have hpos : 0 ≤ (1 - x) ^ (b - 1) := Real.rpow_nonneg (by linarith [hx.2]) _
    have hx1 : x ^ (s - 1) ≤ x ^ (a / 4) * x ^ (a / 4 - 1) := by
      rw [← Real.rpow_add hx.1]
      exact Real.rpow_le_rpow_of_exponent_ge hx.1 hx.2.le (by linarith)
    have hl := Real.abs_log_mul_self_rpow_lt x (a / 4) hx.1 hx.2.le (by linarith)
    rw [abs_mul, abs_of_pos (Real.rpow_pos_of_pos hx.1 _)] at hl
    have h0 := Real.rpow_pos_of_pos hx.1 (a / 4 - 1)
    have hl' : |Real.log x| * x ^ (a / 4) ≤ 4 / a := by
      refine hl.le.trans (le_of_eq ?_)
      field_simp
    rw [Real.norm_eq_abs, betaKernel, betaKernel, abs_mul, abs_mul, abs_of_nonneg hpos,
      abs_of_pos (Real.rpow_pos_of_pos hx.1 _)]
    calc x ^ (s - 1) * (1 - x) ^ (b - 1) * |Real.log x|
        ≤ (x ^ (a / 4) * x ^ (a / 4 - 1)) * (1 - x) ^ (b - 1) * |Real.log x| := by gcongr
      _ = (|Real.log x| * x ^ (a / 4)) * (x ^ (a / 4 - 1) * (1 - x) ^ (b - 1)) := by ring
      _ ≤ _ := by gcongr
  · refine (ae_restrict_mem measurableSet_Ioo).mono fun x hx s _ => ?_
    have h := ((hasDerivAt_id s).sub_const 1).const_rpow hx.1
    have h2 := h.mul_const ((1 - x) ^ (b - 1))
    refine h2.congr_deriv ?_
    simp only [betaKernel, id]
    ring

theorem integrable_beta_log {a b : ℝ} (ha : 0 < a) (hb : 0 < b) :
    Integrable Real.log (betaMeasure a b) :=
  integrable_beta_kernel ha hb (betaKernel_log ha hb).1

/-- `E[log X] = ψ(a) - ψ(a + b)`. -/
theorem integral_beta_log {a b : ℝ} (ha : 0 < a) (hb : 0 < b) :
    ∫ x, Real.log x ∂betaMeasure a b = deriv (fun t => Real.log (Real.Gamma t)) a -
      deriv (fun t => Real.log (Real.Gamma t)) (a + b) := by
  have h1 := (betaKernel_log ha hb).2
  have h2 := hasDerivAt_beta ha hb
  have h3 : (fun s => ∫ x in Ioo (0 : ℝ) 1, betaKernel s b x) =ᶠ[nhds a] fun s => beta s b :=
    (lt_mem_nhds ha).mono fun s hs => integral_betaKernel hs hb
  have h4 := h1.unique (h2.congr_of_eventuallyEq h3)
  rw [integral_beta_kernel ha hb, h4]
  exact mul_div_cancel_left₀ _ (beta_pos ha hb).ne'

end Pysatl
