import Verif.Props.ConsistencyLimit
import Verif.Props.Plotting

/-! # C136: what the functional criteria of exponentiality detect when the sample grows -/

namespace Pysatl.Props

open Pysatl.Decision Pysatl.Resolver Pysatl.Spec Pysatl.Edf Pysatl.Graph Pysatl.Gen Pysatl.Exponent Pysatl.Expon
open MeasureTheory ProbabilityTheory Filter Topology

/-! ### Moments of the exponential laws -/

theorem exp_integrable_scale {r : ℝ} (hr : 0 < r) {f : ℝ → ℝ}
    (h : IntegrableOn (fun t => f t * Real.exp (-t)) (Set.Ioi 0)) : Integrable (fun x => f (r * x)) (expMeasure r) := by
  refine integrable_exp hr ?_
  have h1 := (integrableOn_Ioi_comp_mul_left_iff (fun t => f t * Real.exp (-t)) 0 hr).2 (by rwa [mul_zero])
  have h2 : IntegrableOn (fun x => r * (f (r * x) * Real.exp (-(r * x)))) (Set.Ioi 0) := h1.const_mul r
  refine h2.congr_fun (fun x _ => ?_) measurableSet_Ioi
  show r * (f (r * x) * Real.exp (-(r * x))) = _
  ring

theorem exp_integrable_rpow {r p : ℝ} (hr : 0 < r) (hp : -1 < p) : Integrable (fun x => x ^ p) (expMeasure r) := by
  have h2 := integral_rpow hr hp
  by_contra h
  rw [integral_undef h] at h2
  have h3 := Real.Gamma_pos_of_pos (show 0 < 1 + p by linarith)
  have h4 := Real.rpow_pos_of_pos hr p
  exact (div_pos h3 h4).ne h2

theorem exp_integrable_id {r : ℝ} (hr : 0 < r) : Integrable (fun x => x) (expMeasure r) := by
  have := exp_integrable_rpow hr (p := 1) (by norm_num)
  simpa using this

theorem exp_integrable_sq {r : ℝ} (hr : 0 < r) : Integrable (fun x => x ^ 2) (expMeasure r) := by
  have := exp_integrable_rpow hr (p := 2) (by norm_num)
  simpa using this

theorem exp_integrable_log {r : ℝ} (hr : 0 < r) : Integrable Real.log (expMeasure r) := by
  have hpr := isProbabilityMeasure_expMeasure hr
  have h := (exp_integrable_scale hr integral_log_one.1).sub (integrable_const (Real.log r))
  refine h.congr ?_
  filter_upwards [Expon.ae_pos hr] with x hx
  show Real.log (r * x) - Real.log r = _
  rw [Real.log_mul hr.ne' hx.ne']
  ring

theorem exp_integrable_mul_log {r : ℝ} (hr : 0 < r) : Integrable (fun x => x * Real.log x) (expMeasure r) := by
  have h0 : IntegrableOn (fun t => t * Real.log t * Real.exp (-t)) (Set.Ioi 0) := by
    refine integral_log_two.1.congr_fun (fun t _ => ?_) measurableSet_Ioi
    show t * (Real.log t * Real.exp (-t)) = _
    ring
  have h := ((exp_integrable_scale hr (f := fun t => t * Real.log t) h0).const_mul r⁻¹).sub
    ((exp_integrable_id hr).const_mul (Real.log r))
  refine h.congr ?_
  filter_upwards [Expon.ae_pos hr] with x hx
  show r⁻¹ * (r * x * Real.log (r * x)) - Real.log r * x = _
  rw [Real.log_mul hr.ne' hx.ne']
  field_simp
  ring

/-! ### The criteria as functions of functionals -/

theorem exponential_meas (s : ExpStat) (code : String) (params : Option (List (String × ℝ))) (n : ℕ) :
    OutcomeMeas fun x : Fin n → ℝ => (s.statistic code params).execute (List.ofFn x) :=
  outcomeMeas_exponential s (listMeas_ofFn n)

theorem ofFn_ne {n : ℕ} (hn : 1 < n) (x : Fin n → ℝ) : List.ofFn x ≠ [] := by
  rw [Ne, List.ofFn_eq_nil_iff]; omega

section
variable (code : String) (params : Option (List (String × ℝ)))

theorem grows_eppsPulley : GrowsWith (ExpStat.eppsPulley.statistic code params) laplaceRatio := by
  refine ⟨fun n v => √(48 * n) * (v - laplaceRatio (expMeasure 1)), fun n hn => ⟨fun a b hab => ?_, fun x _ => ?_⟩⟩
  · have : 0 < √(48 * (n : ℝ)) := Real.sqrt_pos.2 (by have : (0 : ℝ) < n := by exact_mod_cast (by omega : 0 < n)
                                                      positivity)
    exact mul_lt_mul_of_pos_left (sub_lt_sub_right hab _) this
  · refine (C105_eppsPulley (ofFn_ne hn x) one_pos).trans ?_
    rw [List.length_ofFn]

theorem grows_moran : GrowsWith (ExpStat.moran.statistic code params) logRatio :=
  ⟨fun _ v => v - logRatio (expMeasure 1), fun _ _ => ⟨fun _ _ hab => sub_lt_sub_right hab _,
    fun _ _ => C105_moran _ one_pos⟩⟩

theorem grows_coxOakes : GrowsWith (ExpStat.coxOakes.statistic code params) logTilt := by
  refine ⟨fun n v => n * (v - logTilt (expMeasure 1)), fun n hn => ⟨fun a b hab => ?_, fun x _ => ?_⟩⟩
  · exact mul_lt_mul_of_pos_left (sub_lt_sub_right hab _) (by exact_mod_cast (by omega : 0 < n))
  · refine (C105_coxOakes (ofFn_ne hn x) one_pos).trans ?_
    rw [List.length_ofFn]

theorem grows_pietra : GrowsWith (ExpStat.pietra.statistic code params) pietraIndex :=
  ⟨fun _ v => v, fun _ _ => ⟨strictMono_id, fun _ _ => C105_pietra _⟩⟩

theorem grows_atkinson {p : ℝ} (hp : -1 < p) (hp0 : p ≠ 0) : GrowsWith ((ExpStat.atkinson p).statistic code params)
    fun ν => |powerMeanRatio p ν - powerMeanRatio p (expMeasure 1)| := by
  refine ⟨fun n v => √n * v, fun n hn => ⟨fun a b hab => ?_, fun x _ => ?_⟩⟩
  · exact mul_lt_mul_of_pos_left hab (Real.sqrt_pos.2 (by exact_mod_cast (by omega : 0 < n)))
  · refine (C105_atkinson _ one_pos hp hp0).trans ?_
    rw [List.length_ofFn]

theorem grows_we : GrowsWith (ExpStat.we.statistic code params) cvSquared := by
  refine ⟨fun n v => ((n : ℝ) - 1) / n ^ 2 * v, fun n hn => ⟨fun a b hab => ?_, fun x _ => ?_⟩⟩
  · have h1 : (1 : ℝ) < n := by exact_mod_cast hn
    exact mul_lt_mul_of_pos_left hab (div_pos (by linarith) (by positivity))
  · refine (C105_we_partial _ one_pos).2.trans ?_
    rw [List.length_ofFn]

end

/-! ### Detected alternatives -/

section
variable (code : String) (params : Option (List (String × ℝ))) (classes : List GeneratorClass)
  (hp : classes.Perm generatorClasses) {r : ℝ} (hr : 0 < r)
include hp hr

/-- **C136, Cox-Oakes**: every law of positive observations whose mean of `log Y (1 - Y)`, `Y = X / E X`, is not that of the
exponential laws is detected. -/
theorem C136_coxOakes : ∃ G, (Gen.Family.exponential r).simulator classes = .ok G ∧
    (∀ n, G.generate n = .ok (iid n (expMeasure r))) ∧
    ∀ Q : Measure ℝ, IsProbabilityMeasure Q → (∀ᵐ x ∂Q, 0 < x) → Integrable (fun x => x) Q → Integrable Real.log Q →
      Integrable (fun x => x * Real.log x) Q → logTilt Q ≠ logTilt (expMeasure r) →
      Consistent (ExpStat.coxOakes.statistic code params) Q (expMeasure r) := by
  have hpr := isProbabilityMeasure_expMeasure hr
  obtain ⟨G, hG, hgen⟩ := simulates_all (f := .exponential r) fun n => C111_exponential classes hp r hr n
  refine ⟨G, hG, hgen, fun Q _ hpos hi hl hxl hne => functional_consistent (exponential_meas _ code params)
    (grows_coxOakes code params) hpos (Expon.ae_pos hr) (settles_tilt hi hl hxl hpos)
    (settles_tilt (exp_integrable_id hr) (exp_integrable_log hr) (exp_integrable_mul_log hr) (Expon.ae_pos hr)) ?_⟩
  rcases lt_or_gt_of_ne hne with h | h
  · exact Or.inr ⟨(fun h => by cases h), h⟩
  · exact Or.inl ⟨(fun h => by cases h), h⟩

/-- **C136, Pietra**: every law of positive observations whose Pietra index is not that of the exponential laws is
detected. -/
theorem C136_pietra : ∃ G, (Gen.Family.exponential r).simulator classes = .ok G ∧
    (∀ n, G.generate n = .ok (iid n (expMeasure r))) ∧
    ∀ Q : Measure ℝ, IsProbabilityMeasure Q → (∀ᵐ x ∂Q, 0 < x) → Integrable (fun x => x) Q →
      pietraIndex Q ≠ pietraIndex (expMeasure r) →
      Consistent (ExpStat.pietra.statistic code params) Q (expMeasure r) := by
  have hpr := isProbabilityMeasure_expMeasure hr
  obtain ⟨G, hG, hgen⟩ := simulates_all (f := .exponential r) fun n => C111_exponential classes hp r hr n
  refine ⟨G, hG, hgen, fun Q _ hpos hi hne => functional_consistent (exponential_meas _ code params)
    (grows_pietra code params) hpos (Expon.ae_pos hr) (settles_pietra hi hpos)
    (settles_pietra (exp_integrable_id hr) (Expon.ae_pos hr)) ?_⟩
  rcases lt_or_gt_of_ne hne with h | h
  · exact Or.inr ⟨(fun h => by cases h), h⟩
  · exact Or.inl ⟨(fun h => by cases h), h⟩

/-- **C136, Atkinson**: every law of positive observations whose power mean relative to the mean is not that of the
exponential laws is detected. -/
theorem C136_atkinson {p : ℝ} (hp1 : -1 < p) (hp0 : p ≠ 0) : ∃ G, (Gen.Family.exponential r).simulator classes = .ok G ∧
    (∀ n, G.generate n = .ok (iid n (expMeasure r))) ∧
    ∀ Q : Measure ℝ, IsProbabilityMeasure Q → (∀ᵐ x ∂Q, 0 < x) → Integrable (fun x => x) Q →
      Integrable (fun x => x ^ p) Q → powerMeanRatio p Q ≠ powerMeanRatio p (expMeasure r) →
      Consistent ((ExpStat.atkinson p).statistic code params) Q (expMeasure r) := by
  have hpr := isProbabilityMeasure_expMeasure hr
  obtain ⟨G, hG, hgen⟩ := simulates_all (f := .exponential r) fun n => C111_exponential classes hp r hr n
  have habs : ∀ ν : Measure ℝ, ∀ _ : IsProbabilityMeasure ν, SettlesAt (powerMeanRatio p) ν →
      SettlesAt (fun ν => |powerMeanRatio p ν - powerMeanRatio p (expMeasure 1)|) ν := fun ν _ h => by
    filter_upwards [h] with ω hω using (hω.sub_const _).abs
  have heq : powerMeanRatio p (expMeasure r) = powerMeanRatio p (expMeasure 1) := by
    rw [powerMeanRatio_exp hr hp1 hp0, powerMeanRatio_exp one_pos hp1 hp0]
  refine ⟨G, hG, hgen, fun Q _ hpos hi hip hne => functional_consistent (exponential_meas _ code params)
    (grows_atkinson code params hp1 hp0) hpos (Expon.ae_pos hr) (habs Q ‹_› (settles_power hi hip hpos))
    (habs _ ‹_› (settles_power (exp_integrable_id hr) (exp_integrable_rpow hr hp1) (Expon.ae_pos hr)))
    (Or.inl ⟨by simp [ExpStat.statistic, ExpStat.alternative], ?_⟩)⟩
  rw [heq, sub_self, abs_zero]
  exact abs_pos.2 (sub_ne_zero.2 (heq ▸ hne))

/-- **C136 (partial), Epps-Pulley**: the laws of positive observations whose Laplace transform of `X / E X` at one exceeds that
of the exponential laws are detected; see `C136_refuted_eppsPulley` for the others. -/
theorem C136_eppsPulley_partial : ∃ G, (Gen.Family.exponential r).simulator classes = .ok G ∧
    (∀ n, G.generate n = .ok (iid n (expMeasure r))) ∧
    ∀ Q : Measure ℝ, IsProbabilityMeasure Q → (∀ᵐ x ∂Q, 0 < x) → Integrable (fun x => x) Q →
      laplaceRatio (expMeasure r) < laplaceRatio Q →
      Consistent (ExpStat.eppsPulley.statistic code params) Q (expMeasure r) := by
  have hpr := isProbabilityMeasure_expMeasure hr
  obtain ⟨G, hG, hgen⟩ := simulates_all (f := .exponential r) fun n => C111_exponential classes hp r hr n
  exact ⟨G, hG, hgen, fun Q _ hpos hi hlt => functional_consistent (exponential_meas _ code params)
    (grows_eppsPulley code params) hpos (Expon.ae_pos hr) (settles_laplace hi hpos)
    (settles_laplace (exp_integrable_id hr) (Expon.ae_pos hr)) (Or.inl ⟨(fun h => by cases h), hlt⟩)⟩

/-- **C136 (partial), Moran**: the laws of positive observations whose mean logarithm of `X / E X` exceeds that of the
exponential laws are detected; see `C136_refuted_moran` for the others. -/
theorem C136_moran_partial : ∃ G, (Gen.Family.exponential r).simulator classes = .ok G ∧
    (∀ n, G.generate n = .ok (iid n (expMeasure r))) ∧
    ∀ Q : Measure ℝ, IsProbabilityMeasure Q → (∀ᵐ x ∂Q, 0 < x) → Integrable (fun x => x) Q → Integrable Real.log Q →
      logRatio (expMeasure r) < logRatio Q →
      Consistent (ExpStat.moran.statistic code params) Q (expMeasure r) := by
  have hpr := isProbabilityMeasure_expMeasure hr
  obtain ⟨G, hG, hgen⟩ := simulates_all (f := .exponential r) fun n => C111_exponential classes hp r hr n
  exact ⟨G, hG, hgen, fun Q _ hpos hi hl hlt => functional_consistent (exponential_meas _ code params)
    (grows_moran code params) hpos (Expon.ae_pos hr) (settles_log hi hl hpos)
    (settles_log (exp_integrable_id hr) (exp_integrable_log hr) (Expon.ae_pos hr)) (Or.inl ⟨(fun h => by cases h), hlt⟩)⟩

/-- **C136 (partial), WE**: the laws of positive observations whose coefficient of variation exceeds that of the exponential
laws are detected; see `C136_refuted_we` for the others. -/
theorem C136_we_partial : ∃ G, (Gen.Family.exponential r).simulator classes = .ok G ∧
    (∀ n, G.generate n = .ok (iid n (expMeasure r))) ∧
    ∀ Q : Measure ℝ, IsProbabilityMeasure Q → (∀ᵐ x ∂Q, 0 < x) → Integrable (fun x => x) Q →
      Integrable (fun x => x ^ 2) Q → cvSquared (expMeasure r) < cvSquared Q →
      Consistent (ExpStat.we.statistic code params) Q (expMeasure r) := by
  have hpr := isProbabilityMeasure_expMeasure hr
  obtain ⟨G, hG, hgen⟩ := simulates_all (f := .exponential r) fun n => C111_exponential classes hp r hr n
  exact ⟨G, hG, hgen, fun Q _ hpos hi hi2 hlt => functional_consistent (exponential_meas _ code params)
    (grows_we code params) hpos (Expon.ae_pos hr) (settles_cv hi hi2 hpos)
    (settles_cv (exp_integrable_id hr) (exp_integrable_sq hr) (Expon.ae_pos hr)) (Or.inl ⟨(fun h => by cases h), hlt⟩)⟩

end

/-! ### Alternatives that are not detected -/

theorem uniform_integral {b : ℝ} (hb : 0 < b) (f : ℝ → ℝ) :
    ∫ x, f x ∂uniformLaw 0 b = (∫ x in (0 : ℝ)..b, f x) / b := by
  rw [uniformLaw, ProbabilityTheory.cond, integral_smul_measure, Real.volume_Icc, sub_zero, ENNReal.toReal_inv,
    ENNReal.toReal_ofReal hb.le, integral_Icc_eq_integral_Ioc, intervalIntegral.integral_of_le hb.le, smul_eq_mul]
  ring

theorem uniform_integrable {b : ℝ} {f : ℝ → ℝ} (hf : Continuous f) : Integrable f (uniformLaw 0 b) := by
  rw [uniformLaw, ProbabilityTheory.cond]
  by_cases h : (volume : Measure ℝ) (Set.Icc 0 b) = 0
  · rw [Measure.restrict_eq_zero.2 h, smul_zero]
    exact integrable_zero_measure
  · exact hf.integrableOn_Icc.smul_measure (ENNReal.inv_ne_top.2 h)

theorem uniform_pos {b : ℝ} (hb : 0 < b) : ∀ᵐ x ∂uniformLaw 0 b, 0 < x :=
  (uniform_inside hb).mono fun _ hx => hx.1

theorem lawMean_uniform {b : ℝ} (hb : 0 < b) : lawMean (uniformLaw 0 b) = b / 2 := by
  rw [lawMean, uniform_integral hb, _root_.integral_id]
  field_simp
  ring

/-- Observations uniform on `(0, b)` have too small a Laplace transform. -/
theorem laplaceRatio_uniform {b : ℝ} (hb : 0 < b) : laplaceRatio (uniformLaw 0 b) = (1 - Real.exp (-2)) / 2 := by
  rw [laplaceRatio, lawMean_uniform hb, uniform_integral hb]
  have hd : ∀ x ∈ Set.uIcc 0 b, HasDerivAt (fun x => -(b / 2) * Real.exp (-(x / (b / 2)))) (Real.exp (-(x / (b / 2)))) x := by
    intro x _
    have h1 : HasDerivAt (fun x : ℝ => -(x / (b / 2))) (-(1 / (b / 2))) x := ((hasDerivAt_id x).div_const _).neg
    refine (h1.exp.const_mul (-(b / 2))).congr_deriv ?_
    field_simp
  rw [intervalIntegral.integral_eq_sub_of_hasDerivAt hd (Continuous.intervalIntegrable (by fun_prop) _ _)]
  rw [show b / (b / 2) = 2 by field_simp]
  simp only [zero_div, neg_zero, Real.exp_zero]
  field_simp
  ring

theorem cvSquared_uniform {b : ℝ} (hb : 0 < b) : cvSquared (uniformLaw 0 b) = 1 / 3 := by
  have := (cdf_uniformLaw hb).1
  rw [cvSquared_of_moments (uniform_integrable continuous_id) (uniform_integrable (by fun_prop)), lawMean_uniform hb,
    uniform_integral hb, integral_pow]
  field_simp
  norm_num
  ring

section
variable (code : String) (params : Option (List (String × ℝ)))

/-- **C136, refuted, Epps-Pulley**: the criterion is judged in the right tail.  The probability that it rejects tends to zero
for every law of positive observations whose Laplace transform of `X / E X` at one is smaller than that of the exponential
laws, for instance for observations uniform on `(0, b)`. -/
theorem C136_refuted_eppsPulley {r : ℝ} (hr : 0 < r) :
    (∀ Q : Measure ℝ, IsProbabilityMeasure Q → (∀ᵐ x ∂Q, 0 < x) → Integrable (fun x => x) Q →
      laplaceRatio Q < laplaceRatio (expMeasure r) →
      Undetected (ExpStat.eppsPulley.statistic code params) Q (expMeasure r)) ∧
    ∀ b : ℝ, 0 < b → laplaceRatio (uniformLaw 0 b) ≠ laplaceRatio (expMeasure r) ∧
      Undetected (ExpStat.eppsPulley.statistic code params) (uniformLaw 0 b) (expMeasure r) := by
  have hpr := isProbabilityMeasure_expMeasure hr
  have key : ∀ Q : Measure ℝ, IsProbabilityMeasure Q → (∀ᵐ x ∂Q, 0 < x) → Integrable (fun x => x) Q →
      laplaceRatio Q < laplaceRatio (expMeasure r) →
      Undetected (ExpStat.eppsPulley.statistic code params) Q (expMeasure r) := fun Q _ hpos hi hlt =>
    functional_undetected (exponential_meas _ code params) (grows_eppsPulley code params) hpos (Expon.ae_pos hr)
      (settles_laplace hi hpos) (settles_laplace (exp_integrable_id hr) (Expon.ae_pos hr)) (Or.inr ⟨rfl, hlt⟩)
  refine ⟨key, fun b hb => ?_⟩
  have hlt : laplaceRatio (uniformLaw 0 b) < laplaceRatio (expMeasure r) := by
    rw [laplaceRatio_uniform hb, laplaceRatio_exp hr]
    have := Real.exp_pos (-2)
    linarith
  exact ⟨hlt.ne, key _ (cdf_uniformLaw hb).1 (uniform_pos hb) (uniform_integrable continuous_id) hlt⟩

/-- **C136, refuted, WE**: the criterion is judged in the right tail.  The probability that it rejects tends to zero for every
law of positive observations whose coefficient of variation is smaller than that of the exponential laws, for instance for
observations uniform on `(0, b)`. -/
theorem C136_refuted_we {r : ℝ} (hr : 0 < r) :
    (∀ Q : Measure ℝ, IsProbabilityMeasure Q → (∀ᵐ x ∂Q, 0 < x) → Integrable (fun x => x) Q →
      Integrable (fun x => x ^ 2) Q → cvSquared Q < cvSquared (expMeasure r) →
      Undetected (ExpStat.we.statistic code params) Q (expMeasure r)) ∧
    ∀ b : ℝ, 0 < b → cvSquared (uniformLaw 0 b) ≠ cvSquared (expMeasure r) ∧
      Undetected (ExpStat.we.statistic code params) (uniformLaw 0 b) (expMeasure r) := by
  have hpr := isProbabilityMeasure_expMeasure hr
  have key : ∀ Q : Measure ℝ, IsProbabilityMeasure Q → (∀ᵐ x ∂Q, 0 < x) → Integrable (fun x => x) Q →
      Integrable (fun x => x ^ 2) Q → cvSquared Q < cvSquared (expMeasure r) →
      Undetected (ExpStat.we.statistic code params) Q (expMeasure r) := fun Q _ hpos hi hi2 hlt =>
    functional_undetected (exponential_meas _ code params) (grows_we code params) hpos (Expon.ae_pos hr)
      (settles_cv hi hi2 hpos) (settles_cv (exp_integrable_id hr) (exp_integrable_sq hr) (Expon.ae_pos hr))
      (Or.inr ⟨rfl, hlt⟩)
  refine ⟨key, fun b hb => ?_⟩
  have hlt : cvSquared (uniformLaw 0 b) < cvSquared (expMeasure r) := by
    rw [cvSquared_uniform hb, cvSquared_exp hr]
    norm_num
  exact ⟨hlt.ne, key _ (cdf_uniformLaw hb).1 (uniform_pos hb) (uniform_integrable continuous_id)
    (uniform_integrable (by fun_prop)) hlt⟩

/-- The law of the square of an exponential variable (Weibull with shape one half). -/
noncomputable def squaredExp : Measure ℝ := (expMeasure 1).map fun x => x ^ 2

theorem squaredExp_facts : IsProbabilityMeasure squaredExp ∧ (∀ᵐ x ∂squaredExp, 0 < x) ∧
    Integrable (fun x => x) squaredExp ∧ Integrable Real.log squaredExp ∧
    logRatio squaredExp = -(2 * Real.eulerMascheroniConstant) - Real.log 2 := by
  have h1 := isProbabilityMeasure_expMeasure one_pos
  have hm : Measurable fun x : ℝ => x ^ 2 := by fun_prop
  have hpr : IsProbabilityMeasure squaredExp := Measure.isProbabilityMeasure_map hm.aemeasurable
  have hpos : ∀ᵐ x ∂squaredExp, 0 < x := by
    refine (ae_map_iff hm.aemeasurable measurableSet_Ioi).2 ?_
    filter_upwards [Expon.ae_pos one_pos] with x hx
    exact pow_pos hx 2
  have hlog : ∀ x : ℝ, Real.log (x ^ 2) = 2 * Real.log x := fun x => by rw [Real.log_pow]; norm_num
  have hi : Integrable (fun x => x) squaredExp :=
    (integrable_map_measure measurable_id.aestronglyMeasurable hm.aemeasurable).2 (exp_integrable_sq one_pos)
  have hl : Integrable Real.log squaredExp := by
    refine (integrable_map_measure Real.measurable_log.aestronglyMeasurable hm.aemeasurable).2 ?_
    refine ((exp_integrable_log one_pos).const_mul 2).congr (.of_forall fun x => ?_)
    exact (hlog x).symm
  have hmean : lawMean squaredExp = 2 := by
    unfold lawMean squaredExp
    rw [integral_map (f := fun x => x) hm.aemeasurable measurable_id.aestronglyMeasurable]
    have h2 := integral_rpow one_pos (s := 2) (by norm_num)
    rw [show (1 : ℝ) + 2 = 2 + 1 by norm_num, Real.Gamma_add_one two_ne_zero, Real.Gamma_two] at h2
    simpa using h2
  refine ⟨hpr, hpos, hi, hl, ?_⟩
  rw [logRatio_of_pos (by rw [hmean]; norm_num) hpos hl, hmean]
  congr 1
  unfold squaredExp
  rw [integral_map hm.aemeasurable Real.measurable_log.aestronglyMeasurable]
  simp only [hlog]
  rw [integral_const_mul]
  have h3 := logRatio_exp one_pos
  rw [logRatio_of_pos (by rw [lawMean_exp one_pos]; norm_num) (Expon.ae_pos one_pos) (exp_integrable_log one_pos),
    lawMean_exp one_pos, one_div_one, Real.log_one, sub_zero] at h3
  rw [h3]
  ring

/-- **C136, refuted, Moran**: the criterion is judged in the right tail.  The probability that it rejects tends to zero for
every law of positive observations whose mean logarithm of `X / E X` is smaller than that of the exponential laws, for
instance for squares of exponential variables. -/
theorem C136_refuted_moran {r : ℝ} (hr : 0 < r) :
    (∀ Q : Measure ℝ, IsProbabilityMeasure Q → (∀ᵐ x ∂Q, 0 < x) → Integrable (fun x => x) Q → Integrable Real.log Q →
      logRatio Q < logRatio (expMeasure r) →
      Undetected (ExpStat.moran.statistic code params) Q (expMeasure r)) ∧
    (logRatio squaredExp ≠ logRatio (expMeasure r) ∧
      Undetected (ExpStat.moran.statistic code params) squaredExp (expMeasure r)) := by
  have hpr := isProbabilityMeasure_expMeasure hr
  have key : ∀ Q : Measure ℝ, IsProbabilityMeasure Q → (∀ᵐ x ∂Q, 0 < x) → Integrable (fun x => x) Q →
      Integrable Real.log Q → logRatio Q < logRatio (expMeasure r) →
      Undetected (ExpStat.moran.statistic code params) Q (expMeasure r) := fun Q _ hpos hi hl hlt =>
    functional_undetected (exponential_meas _ code params) (grows_moran code params) hpos (Expon.ae_pos hr)
      (settles_log hi hl hpos) (settles_log (exp_integrable_id hr) (exp_integrable_log hr) (Expon.ae_pos hr))
      (Or.inr ⟨rfl, hlt⟩)
  obtain ⟨h1, h2, h3, h4, h5⟩ := squaredExp_facts
  have hlt : logRatio squaredExp < logRatio (expMeasure r) := by
    rw [h5, logRatio_exp hr]
    have := Real.one_half_lt_eulerMascheroniConstant
    have := Real.log_pos (show (1 : ℝ) < 2 by norm_num)
    linarith
  exact ⟨key, hlt.ne, key _ h1 h2 h3 h4 hlt⟩

end

/-! ### Shapiro-Wilk -/

/-- The smallest observation of a law with positive probability near zero tends to zero. -/
theorem minimum_settles {Q : Measure ℝ} [IsProbabilityMeasure Q] (h : ∀ ε : ℝ, 0 < ε → 0 < Q (Set.Iio ε)) :
    ∀ᵐ ω ∂seqLaw Q, ∀ ε : ℝ, 0 < ε → ∃ i, ω i < ε := by
  have h1 : ∀ k : ℕ, ∀ᵐ ω ∂seqLaw Q, ∃ i, ω i < 1 / ((k : ℝ) + 1) := by
    intro k
    have hk : (0 : ℝ) < 1 / ((k : ℝ) + 1) := by positivity
    have hmeas : Measurable ((Set.Iio (1 / ((k : ℝ) + 1))).indicator fun _ => (1 : ℝ)) :=
      measurable_const.indicator measurableSet_Iio
    have hint : Integrable ((Set.Iio (1 / ((k : ℝ) + 1))).indicator fun _ => (1 : ℝ)) Q :=
      (integrable_const _).indicator measurableSet_Iio
    filter_upwards [law_of_large_numbers hmeas hint] with ω hω
    rw [integral_indicator measurableSet_Iio, setIntegral_const, smul_eq_mul, mul_one] at hω
    have hp : 0 < Q.real (Set.Iio (1 / ((k : ℝ) + 1))) := ENNReal.toReal_pos (h _ hk).ne' (measure_ne_top _ _)
    obtain ⟨n, hn⟩ := (hω.eventually (lt_mem_nhds hp)).exists
    by_contra hc
    push Not at hc
    rw [Finset.sum_eq_zero fun i _ => Set.indicator_of_notMem (by simpa using hc i) _, zero_div] at hn
    exact lt_irrefl _ hn
  filter_upwards [ae_all_iff.2 h1] with ω hω ε hε
  obtain ⟨k, hk⟩ := exists_nat_one_div_lt hε
  obtain ⟨i, hi⟩ := hω k
  exact ⟨i, hi.trans hk⟩

theorem shapiro_settles (code : String) (params : Option (List (String × ℝ))) {Q : Measure ℝ} [IsProbabilityMeasure Q]
    (hpos : ∀ᵐ x ∂Q, 0 < x) (h0 : ∀ ε : ℝ, 0 < ε → 0 < Q (Set.Iio ε)) (hi : Integrable (fun x => x) Q)
    (hi2 : Integrable (fun x => x ^ 2) Q) (hcv : 0 < cvSquared Q) :
    ValueSettles (ExpStat.shapiroWilk.statistic code params) (fun n v => v / ((n : ℝ) - 1)) Q (1 / cvSquared Q) := by
  have hm := lawMean_pos hi hpos
  filter_upwards [minimum_settles h0, settles_mean hi, settles_cv hi hi2 hpos, seq_ae hpos] with ω hmin h1 h2 hp
  have hex : ∀ n : ℕ, ∃ m : ℝ, 0 < n → IsLeast {x | x ∈ List.ofFn (firsts n ω)} m := fun n => by
    rcases Nat.eq_zero_or_pos n with rfl | hn
    · exact ⟨0, fun h => absurd h (lt_irrefl _)⟩
    · have hne : {x | x ∈ List.ofFn (firsts n ω)}.Nonempty :=
        ⟨ω 0, (List.mem_ofFn' _ _).2 ⟨⟨0, hn⟩, rfl⟩⟩
      obtain ⟨a, ha, hle⟩ := Set.exists_min_image _ id (List.finite_toSet (List.ofFn (firsts n ω))) hne
      exact ⟨a, fun _ => ⟨ha, fun b hb => hle b hb⟩⟩
  choose m hmm using hex
  have hm0 : Tendsto m atTop (𝓝 0) := by
    rw [Metric.tendsto_atTop]
    intro ε hε
    obtain ⟨i, hiε⟩ := hmin ε hε
    refine ⟨i + 1, fun n hn => ?_⟩
    have hl := hmm n (by omega)
    have hle : m n ≤ ω i := hl.2 ((List.mem_ofFn' _ _).2 ⟨⟨i, by omega⟩, rfl⟩)
    obtain ⟨j, hj⟩ := (List.mem_ofFn' _ _).1 hl.1
    have hpos' : 0 < m n := by rw [← hj]; exact hp j
    rw [Real.dist_eq, sub_zero, abs_of_pos hpos']
    exact hle.trans_lt hiε
  set M : ℕ → ℝ := fun n => lawMean (empiricalLaw (List.ofFn (firsts n ω))) with hM
  set C : ℕ → ℝ := fun n => cvSquared (empiricalLaw (List.ofFn (firsts n ω))) with hC
  refine ⟨fun n => (1 - m n / M n) ^ 2 / C n, ?_, ?_⟩
  · have h3 : Tendsto (fun n => 1 - m n / M n) atTop (𝓝 1) := by
      have := (hm0.div h1 hm.ne').const_sub 1
      simpa using this
    have := (h3.pow 2).div h2 hcv.ne'
    rw [one_pow] at this
    exact this
  · filter_upwards [h1.eventually (lt_mem_nhds hm), h2.eventually (lt_mem_nhds hcv), eventually_gt_atTop 1] with n hn hc hn1
    have hne := ofFn_ne hn1 (firsts n ω)
    refine (C108_shapiroWilk hne (hmm n (by omega))).trans ?_
    congr 1
    have e1 : M n = (List.ofFn (firsts n ω)).sum / (List.ofFn (firsts n ω)).length := by
      simp only [hM, lawMean_empirical, mean]
    have e2 : C n = ((List.ofFn (firsts n ω)).map fun x => (x - M n) ^ 2).sum / (List.ofFn (firsts n ω)).length / M n ^ 2 := by
      simp only [hC, hM, cvSquared, integral_empirical]
    rw [← e1, e2]
    change 0 < C n at hc
    change 0 < M n at hn
    rw [List.length_ofFn] at e2 ⊢
    have hn' : (1 : ℝ) < n := by exact_mod_cast hn1
    have hS : 0 < ((List.ofFn (firsts n ω)).map fun x => (x - M n) ^ 2).sum := by
      rw [e2, div_div] at hc
      rcases div_pos_iff.1 hc with h | h
      · exact h.1
      · exact absurd h.2 (not_lt.2 (by positivity))
    generalize ((List.ofFn (firsts n ω)).map fun x => (x - M n) ^ 2).sum = S at *
    have : (n : ℝ) - 1 ≠ 0 := by linarith
    field_simp

theorem exp_near_zero {r : ℝ} (hr : 0 < r) (ε : ℝ) (hε : 0 < ε) : 0 < expMeasure r (Set.Iio ε) := by
  have hpr := isProbabilityMeasure_expMeasure hr
  have h := Expon.real_Ici hr hε.le
  have h1 : (expMeasure r).real (Set.Iio ε) = 1 - Real.exp (-(r * ε)) := by
    rw [← h, ← Set.compl_Ici, probReal_compl_eq_one_sub measurableSet_Ici]
  have h2 : Real.exp (-(r * ε)) < 1 := Real.exp_lt_one_iff.2 (neg_neg_of_pos (by positivity))
  rw [pos_iff_ne_zero]
  intro h3
  rw [Measure.real, h3, ENNReal.toReal_zero] at h1
  linarith

theorem shapiro_grows : ∀ᶠ n : ℕ in atTop, StrictMono fun v : ℝ => v / ((n : ℝ) - 1) := by
  filter_upwards [eventually_gt_atTop 1] with n hn a b hab
  have hn' : (1 : ℝ) < n := by exact_mod_cast hn
  exact div_lt_div_of_pos_right hab (by linarith)

/-- **C136 (partial), Shapiro-Wilk for exponentiality**: among the laws of positive observations that come arbitrarily close
to zero, those whose coefficient of variation exceeds that of the exponential laws are detected; see
`C136_refuted_shapiroWilk` for the others. -/
theorem C136_shapiroWilk_partial (code : String) (params : Option (List (String × ℝ))) (classes : List GeneratorClass)
    (hp : classes.Perm generatorClasses) {r : ℝ} (hr : 0 < r) :
    ∃ G, (Gen.Family.exponential r).simulator classes = .ok G ∧ (∀ n, G.generate n = .ok (iid n (expMeasure r))) ∧
      ∀ Q : Measure ℝ, IsProbabilityMeasure Q → (∀ᵐ x ∂Q, 0 < x) → (∀ ε : ℝ, 0 < ε → 0 < Q (Set.Iio ε)) →
        Integrable (fun x => x) Q → Integrable (fun x => x ^ 2) Q → cvSquared (expMeasure r) < cvSquared Q →
        Consistent (ExpStat.shapiroWilk.statistic code params) Q (expMeasure r) := by
  have hpr := isProbabilityMeasure_expMeasure hr
  obtain ⟨G, hG, hgen⟩ := simulates_all (f := .exponential r) fun n => C111_exponential classes hp r hr n
  have h1 : 0 < cvSquared (expMeasure r) := by rw [cvSquared_exp hr]; exact one_pos
  exact ⟨G, hG, hgen, fun Q _ hpos h0 hi hi2 hlt => value_consistent (exponential_meas _ code params) shapiro_grows
    (shapiro_settles code params hpos h0 hi hi2 (h1.trans hlt))
    (shapiro_settles code params (Expon.ae_pos hr) (exp_near_zero hr) (exp_integrable_id hr) (exp_integrable_sq hr) h1)
    (Or.inr ⟨(fun h => by cases h), one_div_lt_one_div_of_lt h1 hlt⟩)⟩

/-- **C136, refuted, Shapiro-Wilk for exponentiality**: the criterion is judged in the left tail.  The probability that it
rejects tends to zero for every law of positive observations that come arbitrarily close to zero whose coefficient of
variation is positive and smaller than that of the exponential laws, for instance for observations uniform on `(0, b)`. -/
theorem C136_refuted_shapiroWilk (code : String) (params : Option (List (String × ℝ))) {r : ℝ} (hr : 0 < r) :
    (∀ Q : Measure ℝ, IsProbabilityMeasure Q → (∀ᵐ x ∂Q, 0 < x) → (∀ ε : ℝ, 0 < ε → 0 < Q (Set.Iio ε)) →
        Integrable (fun x => x) Q → Integrable (fun x => x ^ 2) Q → 0 < cvSquared Q →
        cvSquared Q < cvSquared (expMeasure r) →
        Undetected (ExpStat.shapiroWilk.statistic code params) Q (expMeasure r)) ∧
    ∀ b : ℝ, 0 < b → cvSquared (uniformLaw 0 b) ≠ cvSquared (expMeasure r) ∧
      Undetected (ExpStat.shapiroWilk.statistic code params) (uniformLaw 0 b) (expMeasure r) := by
  have hpr := isProbabilityMeasure_expMeasure hr
  have h1 : 0 < cvSquared (expMeasure r) := by rw [cvSquared_exp hr]; exact one_pos
  have key : ∀ Q : Measure ℝ, IsProbabilityMeasure Q → (∀ᵐ x ∂Q, 0 < x) → (∀ ε : ℝ, 0 < ε → 0 < Q (Set.Iio ε)) →
      Integrable (fun x => x) Q → Integrable (fun x => x ^ 2) Q → 0 < cvSquared Q →
      cvSquared Q < cvSquared (expMeasure r) →
      Undetected (ExpStat.shapiroWilk.statistic code params) Q (expMeasure r) := fun Q _ hpos h0 hi hi2 hcv hlt =>
    value_undetected (exponential_meas _ code params) shapiro_grows (shapiro_settles code params hpos h0 hi hi2 hcv)
      (shapiro_settles code params (Expon.ae_pos hr) (exp_near_zero hr) (exp_integrable_id hr) (exp_integrable_sq hr) h1)
      (Or.inl ⟨rfl, one_div_lt_one_div_of_lt hcv hlt⟩)
  refine ⟨key, fun b hb => ?_⟩
  have hlt : cvSquared (uniformLaw 0 b) < cvSquared (expMeasure r) := by
    rw [cvSquared_uniform hb, cvSquared_exp hr]
    norm_num
  refine ⟨hlt.ne, key _ (cdf_uniformLaw hb).1 (uniform_pos hb) (fun ε hε => ?_) (uniform_integrable continuous_id)
    (uniform_integrable (by fun_prop)) (by rw [cvSquared_uniform hb]; norm_num) hlt⟩
  have := (cdf_uniformLaw hb).1
  rw [pos_iff_ne_zero]
  intro h0
  rw [uniformLaw, ProbabilityTheory.cond_apply measurableSet_Icc] at h0
  have h2 : Set.Ioo 0 (min ε b) ⊆ Set.Icc 0 b ∩ Set.Iio ε := fun x hx =>
    ⟨⟨hx.1.le, (hx.2.trans_le (min_le_right _ _)).le⟩, hx.2.trans_le (min_le_left _ _)⟩
  have h3 := measure_mono (μ := volume) h2
  rw [mul_eq_zero, ENNReal.inv_eq_zero] at h0
  rcases h0 with h0 | h0
  · simp at h0
  · rw [h0, Real.volume_Ioo, sub_zero, nonpos_iff_eq_zero, ENNReal.ofReal_eq_zero] at h3
    exact absurd h3 (not_le.2 (lt_min hε hb))

/-! ### Non-vacuity -/

theorem empirical_facts {xs : List ℝ} (hne : xs ≠ []) (hpos : ∀ x ∈ xs, 0 < x) :
    IsProbabilityMeasure (empiricalLaw xs) ∧ (∀ᵐ x ∂empiricalLaw xs, 0 < x) ∧
      ∀ f : ℝ → ℝ, Integrable f (empiricalLaw xs) := by
  have hl : (xs.length : ENNReal) ≠ 0 := by exact_mod_cast (List.length_pos_iff.2 hne).ne'
  refine ⟨⟨?_⟩, ?_, fun f => ?_⟩
  · unfold empiricalLaw
    have : ∀ ys : List ℝ, (ys.map fun x => Measure.dirac x).sum Set.univ = ys.length := by
      intro ys
      induction ys with
      | nil => simp
      | cons a l ih => simp [ih, add_comm]
    rw [Measure.smul_apply, this, smul_eq_mul, ENNReal.inv_mul_cancel hl (ENNReal.natCast_ne_top _)]
  · unfold empiricalLaw
    refine Measure.ae_smul_measure ?_ _
    induction xs with
    | nil => simp
    | cons a l ih =>
      rw [List.map_cons, List.sum_cons, ae_add_measure_iff]
      refine ⟨?_, ?_⟩
      · rw [ae_dirac_iff measurableSet_Ioi]
        exact hpos a (by simp)
      · rcases eq_or_ne l [] with rfl | h
        · simp
        · exact ih h (fun x hx => hpos x (by simp [hx])) (by exact_mod_cast (List.length_pos_iff.2 h).ne')
  · unfold empiricalLaw
    exact (integral_dirac_sum f xs).1.smul_measure (ENNReal.inv_ne_top.2 hl)

/-- Observations 1, 1, 10 with equal probabilities meet the hypotheses of `C136_eppsPulley_partial` and `C136_we_partial`. -/
example : IsProbabilityMeasure (empiricalLaw [1, 1, 10]) ∧ (∀ᵐ x ∂empiricalLaw [1, 1, 10], 0 < x) ∧
    (∀ f : ℝ → ℝ, Integrable f (empiricalLaw [1, 1, 10])) ∧
    laplaceRatio (expMeasure 2) < laplaceRatio (empiricalLaw [1, 1, 10]) ∧
    cvSquared (expMeasure 2) < cvSquared (empiricalLaw [1, 1, 10]) := by
  obtain ⟨h1, h2, h3⟩ := empirical_facts (xs := [1, 1, 10]) (by simp) (by norm_num)
  refine ⟨h1, h2, h3, ?_, ?_⟩
  · rw [laplaceRatio_exp two_pos, laplaceRatio, lawMean_empirical, integral_empirical]
    norm_num [mean]
    have h4 := Real.add_one_le_exp (-(1 / 4 : ℝ))
    have h5 := Real.exp_pos (-(5 / 2 : ℝ))
    linarith
  · rw [cvSquared_exp two_pos, cvSquared_empirical]
    norm_num [Graph.variance, mean]

/-- Observations 1, 2, 3 with equal probabilities meet the hypotheses of `C136_coxOakes`, `C136_pietra`, `C136_atkinson`
and `C136_moran_partial`. -/
example : IsProbabilityMeasure (empiricalLaw [1, 2, 3]) ∧ (∀ᵐ x ∂empiricalLaw [1, 2, 3], 0 < x) ∧
    (∀ f : ℝ → ℝ, Integrable f (empiricalLaw [1, 2, 3])) ∧
    logTilt (empiricalLaw [1, 2, 3]) ≠ logTilt (expMeasure 2) ∧
    pietraIndex (empiricalLaw [1, 2, 3]) ≠ pietraIndex (expMeasure 2) ∧
    powerMeanRatio 2 (empiricalLaw [1, 2, 3]) ≠ powerMeanRatio 2 (expMeasure 2) ∧
    logRatio (expMeasure 2) < logRatio (empiricalLaw [1, 2, 3]) := by
  obtain ⟨h1, h2, h3⟩ := empirical_facts (xs := [1, 2, 3]) (by simp) (by norm_num)
  refine ⟨h1, h2, h3, ?_, ?_, ?_, ?_⟩
  · rw [logTilt_exp two_pos, logTilt, lawMean_empirical, integral_empirical]
    norm_num [mean]
    have h4 := Real.one_sub_inv_le_log_of_pos (show (0 : ℝ) < 1 / 2 by norm_num)
    have h5 := Real.log_le_sub_one_of_pos (show (0 : ℝ) < 3 / 2 by norm_num)
    norm_num at h4 h5
    intro h
    linarith
  · rw [pietraIndex_exp two_pos, pietraIndex, lawMean_empirical, integral_empirical]
    norm_num [mean]
    have h4 := Real.add_one_le_exp (-(1 / 2 : ℝ))
    have h5 : Real.exp (-1) = Real.exp (-(1 / 2)) * Real.exp (-(1 / 2)) := by rw [← Real.exp_add]; norm_num
    intro h
    nlinarith
  · rw [powerMeanRatio_exp two_pos (by norm_num) (by norm_num), powerMeanRatio, lawMean_empirical, integral_empirical]
    norm_num [mean]
    rw [← Real.sqrt_eq_rpow, ← Real.sqrt_eq_rpow]
    intro h
    have h4 := Real.sq_sqrt (show (0 : ℝ) ≤ 14 / 3 by norm_num)
    have h5 := Real.sq_sqrt (show (0 : ℝ) ≤ 2 by norm_num)
    rw [← h] at h5
    linarith
  · rw [logRatio_exp two_pos, logRatio, lawMean_empirical, integral_empirical]
    norm_num [mean]
    have h4 := Real.one_half_lt_eulerMascheroniConstant
    have h5 := Real.one_sub_inv_le_log_of_pos (show (0 : ℝ) < 1 / 2 by norm_num)
    have h6 := Real.one_sub_inv_le_log_of_pos (show (0 : ℝ) < 3 / 2 by norm_num)
    norm_num at h5 h6
    linarith

/-- The square of an exponential variable meets the hypotheses of `C136_shapiroWilk_partial`. -/
example : IsProbabilityMeasure squaredExp ∧ (∀ᵐ x ∂squaredExp, 0 < x) ∧
    (∀ ε : ℝ, 0 < ε → 0 < squaredExp (Set.Iio ε)) ∧ Integrable (fun x => x) squaredExp ∧
    Integrable (fun x => x ^ 2) squaredExp ∧ cvSquared (expMeasure 2) < cvSquared squaredExp := by
  obtain ⟨h1, h2, h3, h4, _⟩ := squaredExp_facts
  have hm : Measurable fun x : ℝ => x ^ 2 := by fun_prop
  have hpow : ∀ x : ℝ, (x ^ 2) ^ 2 = x ^ (4 : ℝ) := fun x => by
    rw [show (4 : ℝ) = ((4 : ℕ) : ℝ) by norm_num, Real.rpow_natCast]; ring
  have hi2 : Integrable (fun x => x ^ 2) squaredExp := by
    refine (integrable_map_measure (by fun_prop) hm.aemeasurable).2 ?_
    refine (exp_integrable_rpow one_pos (p := 4) (by norm_num)).congr (.of_forall fun x => ?_)
    exact (hpow x).symm
  have g3 : Real.Gamma 3 = 2 := by
    rw [show (3 : ℝ) = 2 + 1 by norm_num, Real.Gamma_add_one two_ne_zero, Real.Gamma_two, mul_one]
  have g5 : Real.Gamma 5 = 24 := by
    rw [show (5 : ℝ) = 4 + 1 by norm_num, Real.Gamma_add_one (by norm_num), show (4 : ℝ) = 3 + 1 by norm_num,
      Real.Gamma_add_one (by norm_num), g3]
    norm_num
  have hmean : lawMean squaredExp = 2 := by
    unfold lawMean squaredExp
    rw [integral_map (f := fun x => x) hm.aemeasurable measurable_id.aestronglyMeasurable]
    have h2 := integral_rpow one_pos (s := 2) (by norm_num)
    rw [show (1 : ℝ) + 2 = 3 by norm_num, g3] at h2
    simpa using h2
  have hsq : ∫ x, x ^ 2 ∂squaredExp = 24 := by
    unfold squaredExp
    rw [integral_map (f := fun x => x ^ 2) hm.aemeasurable (by fun_prop)]
    simp only [hpow]
    rw [integral_rpow one_pos (by norm_num), show (1 : ℝ) + 4 = 5 by norm_num, g5]
    norm_num
  refine ⟨h1, h2, fun ε hε => ?_, h3, hi2, ?_⟩
  · unfold squaredExp
    rw [Measure.map_apply hm measurableSet_Iio]
    refine (exp_near_zero one_pos (min 1 ε) (lt_min one_pos hε)).trans_le ?_
    refine (measure_mono_ae ?_)
    filter_upwards [Expon.ae_pos one_pos] with x hx hlt
    have hx1 : x < 1 := (show x < min 1 ε from hlt).trans_le (min_le_left _ _)
    have hx2 : x < ε := (show x < min 1 ε from hlt).trans_le (min_le_right _ _)
    show x ^ 2 < ε
    nlinarith
  · rw [cvSquared_exp two_pos, cvSquared_of_moments h3 hi2, hmean, hsq]
    norm_num

end Pysatl.Props
