import Verif.Lemmas.LawOfCdf
import Verif.Lemmas.Gaussian
import Mathlib.Analysis.SpecialFunctions.Trigonometric.ArctanDeriv
import Mathlib.Analysis.SpecialFunctions.Pow.Deriv
import Mathlib.Analysis.SpecialFunctions.Pow.Asymptotics

/-! # Distribution functions of the standard laws -/

namespace Pysatl.Props

open MeasureTheory ProbabilityTheory Set Filter Topology
open Pysatl.Spec Pysatl.Normal

/-- A law on the positive half line. -/
theorem law_on_pos {f F : ℝ → ℝ} (hd : ∀ x, 0 < x → HasDerivAt F (f x) x) (hn : ∀ x < 0, f x = 0)
    (hf : ∀ x, 0 ≤ f x) (h0 : Tendsto F (𝓝[>] 0) (𝓝 0)) (ht : Tendsto F atTop (𝓝 1)) :
    IsProbabilityMeasure (density f) ∧ ∀ x, cdf (density f) x = if 0 < x then F x else 0 := by
  refine law_of_cdf 0 ?_ ?_ hf ?_ ?_
  · rw [continuous_iff_continuousAt]
    intro x
    rcases lt_trichotomy x 0 with hx | rfl | hx
    · refine (continuousAt_const (y := (0 : ℝ))).congr ?_
      filter_upwards [Iio_mem_nhds hx] with y hy
      rw [if_neg (not_lt.2 (le_of_lt hy))]
    · rw [continuousAt_iff_continuous_left'_right']
      constructor
      · refine (continuousWithinAt_const (b := (0 : ℝ))).congr ?_ ?_
        · intro y hy
          rw [if_neg (not_lt.2 (le_of_lt hy))]
        · simp
      · rw [ContinuousWithinAt, if_neg (lt_irrefl _)]
        refine h0.congr' ?_
        filter_upwards [self_mem_nhdsWithin] with y hy
        rw [if_pos (mem_Ioi.1 hy)]
    · refine (hd x hx).continuousAt.congr ?_
      filter_upwards [Ioi_mem_nhds hx] with y hy
      rw [if_pos (mem_Ioi.1 hy)]
  · intro x hx
    rcases lt_or_gt_of_ne hx with h | h
    · rw [hn x h]
      refine (hasDerivAt_const x (0 : ℝ)).congr_of_eventuallyEq ?_
      filter_upwards [Iio_mem_nhds h] with y hy
      rw [if_neg (not_lt.2 (le_of_lt hy))]
    · refine (hd x h).congr_of_eventuallyEq ?_
      filter_upwards [Ioi_mem_nhds h] with y hy
      rw [if_pos (mem_Ioi.1 hy)]
  · refine tendsto_const_nhds.congr' ?_
    filter_upwards [Iio_mem_atBot (0 : ℝ)] with y hy
    rw [if_neg (not_lt.2 (le_of_lt hy))]
  · refine ht.congr' ?_
    filter_upwards [Ioi_mem_atTop (0 : ℝ)] with y hy
    rw [if_pos (mem_Ioi.1 hy)]

theorem cauchy_cdf : IsProbabilityMeasure (density fun x => 1 / (Real.pi * (1 + x ^ 2))) ∧
    ∀ x, cdf (density fun x => 1 / (Real.pi * (1 + x ^ 2))) x = 1 / 2 + Real.arctan x / Real.pi := by
  have hpi := Real.pi_pos
  refine law_of_cdf 0 (by fun_prop) (fun x _ => ?_) (fun x => by positivity) ?_ ?_
  · have h := ((Real.hasDerivAt_arctan x).div_const Real.pi).const_add (1 / 2)
    exact h.congr_deriv (by rw [div_div, mul_comm])
  · have h := (tendsto_nhds_of_tendsto_nhdsWithin Real.tendsto_arctan_atBot).div_const Real.pi |>.const_add (1 / 2 : ℝ)
    convert h using 2
    field_simp; norm_num
  · have h := (tendsto_nhds_of_tendsto_nhdsWithin Real.tendsto_arctan_atTop).div_const Real.pi |>.const_add (1 / 2 : ℝ)
    convert h using 2
    field_simp; norm_num

theorem expon_cdf : IsProbabilityMeasure (density fun x => if 0 ≤ x then Real.exp (-x) else 0) ∧
    ∀ x, cdf (density fun x => if 0 ≤ x then Real.exp (-x) else 0) x = if 0 < x then 1 - Real.exp (-x) else 0 := by
  refine law_on_pos (fun x hx => ?_) (fun x hx => if_neg (not_le.2 hx)) (fun x => by split_ifs <;> positivity) ?_ ?_
  · rw [if_pos hx.le]
    have h := ((hasDerivAt_neg x).exp).const_sub 1
    simpa using h
  · have : Tendsto (fun x : ℝ => 1 - Real.exp (-x)) (𝓝 0) (𝓝 (1 - Real.exp (-0))) :=
      (Continuous.tendsto (by fun_prop) 0)
    simpa using this.mono_left nhdsWithin_le_nhds
  · have := (Real.tendsto_exp_atBot.comp tendsto_neg_atTop_atBot).const_sub (1 : ℝ)
    simpa using this

theorem laplace_cdf : IsProbabilityMeasure (density fun x => 1 / 2 * Real.exp (-|x|)) ∧
    ∀ x, cdf (density fun x => 1 / 2 * Real.exp (-|x|)) x =
      if x < 0 then 1 / 2 * Real.exp x else 1 - 1 / 2 * Real.exp (-x) := by
  refine law_of_cdf 0 ?_ (fun x hx => ?_) (fun x => by positivity) ?_ ?_
  · have h : Continuous fun x : ℝ => if (0 : ℝ) ≤ x then 1 - 1 / 2 * Real.exp (-x) else 1 / 2 * Real.exp x := by
      refine Continuous.if_le (by fun_prop) (by fun_prop) continuous_const continuous_id ?_
      intro x hx
      have : x = 0 := hx.symm
      subst this
      norm_num
    refine h.congr fun x => ?_
    by_cases hx : x < 0
    · rw [if_pos hx, if_neg (not_le.2 hx)]
    · rw [if_neg hx, if_pos (not_lt.1 hx)]
  · rcases lt_or_gt_of_ne hx with h | h
    · rw [abs_of_neg h, neg_neg]
      refine ((Real.hasDerivAt_exp x).const_mul (1 / 2)).congr_of_eventuallyEq ?_
      filter_upwards [Iio_mem_nhds h] with y hy
      rw [if_pos (mem_Iio.1 hy)]
    · rw [abs_of_pos h]
      have hd := (((hasDerivAt_neg x).exp).const_mul (1 / 2)).const_sub 1
      have e : -(1 / 2 * (Real.exp (-x) * -1)) = 1 / 2 * Real.exp (-x) := by ring
      rw [e] at hd
      refine hd.congr_of_eventuallyEq ?_
      filter_upwards [Ioi_mem_nhds h] with y hy
      rw [if_neg (not_lt.2 (le_of_lt hy))]
  · have h := Real.tendsto_exp_atBot.const_mul (1 / 2 : ℝ)
    rw [mul_zero] at h
    refine h.congr' ?_
    filter_upwards [Iio_mem_atBot (0 : ℝ)] with y hy
    rw [if_pos (mem_Iio.1 hy)]
  · have h := ((Real.tendsto_exp_atBot.comp tendsto_neg_atTop_atBot).const_mul (1 / 2 : ℝ)).const_sub (1 : ℝ)
    rw [mul_zero, sub_zero] at h
    refine h.congr' ?_
    filter_upwards [Ioi_mem_atTop (0 : ℝ)] with y hy
    rw [if_neg (not_lt.2 (le_of_lt hy))]
    rfl

theorem logistic_cdf : IsProbabilityMeasure (density fun x => Real.exp (-x) / (1 + Real.exp (-x)) ^ 2) ∧
    ∀ x, cdf (density fun x => Real.exp (-x) / (1 + Real.exp (-x)) ^ 2) x = 1 / (1 + Real.exp (-x)) := by
  have hp : ∀ x : ℝ, 0 < 1 + Real.exp (-x) := fun x => by positivity
  refine law_of_cdf 0 ?_ (fun x _ => ?_) (fun x => by positivity) ?_ ?_
  · exact continuous_const.div (by fun_prop) fun x => (hp x).ne'
  · have h := (((hasDerivAt_neg x).exp).const_add 1).inv (hp x).ne'
    simp only [one_div]
    exact h.congr_deriv (by ring)
  · have h : Tendsto (fun x : ℝ => 1 + Real.exp (-x)) atBot atTop :=
      tendsto_atTop_add_const_left _ _ (Real.tendsto_exp_atTop.comp tendsto_neg_atBot_atTop)
    simp only [one_div]
    exact h.inv_tendsto_atTop
  · have h := ((Real.tendsto_exp_atBot.comp tendsto_neg_atTop_atBot).const_add (1 : ℝ)).inv₀ (by norm_num)
    simpa using h

theorem gumbel_cdf : IsProbabilityMeasure (density fun x => Real.exp (-(x + Real.exp (-x)))) ∧
    ∀ x, cdf (density fun x => Real.exp (-(x + Real.exp (-x)))) x = Real.exp (-Real.exp (-x)) := by
  refine law_of_cdf 0 (by fun_prop) (fun x _ => ?_) (fun x => by positivity) ?_ ?_
  · have h := (((hasDerivAt_neg x).exp).neg).exp
    refine h.congr_deriv ?_
    rw [show -(Real.exp (-x) * -1) = Real.exp (-x) by ring]
    show Real.exp (-Real.exp (-x)) * Real.exp (-x) = _
    rw [← Real.exp_add]
    congr 1
    ring
  · exact Real.tendsto_exp_atBot.comp (tendsto_neg_atTop_atBot.comp
      (Real.tendsto_exp_atTop.comp tendsto_neg_atBot_atTop))
  · have h := (Real.tendsto_exp_atBot.comp tendsto_neg_atTop_atBot).neg
    have := (Real.continuous_exp.tendsto _).comp h
    rw [neg_zero, Real.exp_zero] at this
    exact this

theorem gompertz_cdf {c : ℝ} (hc : 0 < c) :
    IsProbabilityMeasure (density fun x => if 0 ≤ x then c * Real.exp x * Real.exp (-c * (Real.exp x - 1)) else 0) ∧
    ∀ x, cdf (density fun x => if 0 ≤ x then c * Real.exp x * Real.exp (-c * (Real.exp x - 1)) else 0) x =
      if 0 < x then 1 - Real.exp (-c * (Real.exp x - 1)) else 0 := by
  refine law_on_pos (fun x hx => ?_) (fun x hx => if_neg (not_le.2 hx)) (fun x => by split_ifs <;> positivity) ?_ ?_
  · rw [if_pos hx.le]
    have h := (((((Real.hasDerivAt_exp x).sub_const 1).const_mul (-c)).exp).const_sub 1)
    exact h.congr_deriv (by ring)
  · have : Tendsto (fun x : ℝ => 1 - Real.exp (-c * (Real.exp x - 1))) (𝓝 0) (𝓝 (1 - Real.exp (-c * (Real.exp 0 - 1)))) :=
      (Continuous.tendsto (by fun_prop) 0)
    simpa using this.mono_left nhdsWithin_le_nhds
  · have h1 : Tendsto (fun x : ℝ => Real.exp x - 1) atTop atTop :=
      tendsto_atTop_add_const_right _ (-1) Real.tendsto_exp_atTop
    have h2 := h1.const_mul_atTop_of_neg (neg_neg_of_pos hc)
    have := (Real.tendsto_exp_atBot.comp h2).const_sub (1 : ℝ)
    simpa using this

theorem exponweib_cdf {a c : ℝ} (ha : 0 < a) (hc : 0 < c) :
    IsProbabilityMeasure (density fun x => if 0 < x then
      a * c * (1 - Real.exp (-x ^ c)) ^ (a - 1) * Real.exp (-x ^ c) * x ^ (c - 1) else 0) ∧
    ∀ x, cdf (density fun x => if 0 < x then
      a * c * (1 - Real.exp (-x ^ c)) ^ (a - 1) * Real.exp (-x ^ c) * x ^ (c - 1) else 0) x =
      if 0 < x then (1 - Real.exp (-x ^ c)) ^ a else 0 := by
  have hpos : ∀ x : ℝ, 0 < x → 0 < 1 - Real.exp (-x ^ c) := fun x hx => by
    rw [sub_pos, Real.exp_lt_one_iff]
    exact neg_neg_of_pos (Real.rpow_pos_of_pos hx c)
  refine law_on_pos (fun x hx => ?_) (fun x hx => if_neg (not_lt.2 hx.le)) (fun x => ?_) ?_ ?_
  · rw [if_pos hx]
    have h1 : HasDerivAt (fun x : ℝ => 1 - Real.exp (-x ^ c)) (-(Real.exp (-x ^ c) * -(c * x ^ (c - 1)))) x :=
      ((Real.hasDerivAt_rpow_const (Or.inl hx.ne')).neg.exp).const_sub 1
    have h := h1.rpow_const (p := a) (Or.inl (hpos x hx).ne')
    exact h.congr_deriv (by ring)
  · split_ifs with hx
    · have := hpos x hx
      positivity
    · exact le_rfl
  · have h1 : Tendsto (fun x : ℝ => (1 - Real.exp (-x ^ c)) ^ a) (𝓝 0) (𝓝 ((1 - Real.exp (-0 ^ c)) ^ a)) := by
      have h2 : ContinuousAt (fun x : ℝ => x ^ c) 0 := Real.continuousAt_rpow_const 0 c (Or.inr hc.le)
      have h3 : ContinuousAt (fun x : ℝ => 1 - Real.exp (-x ^ c)) 0 :=
        continuousAt_const.sub (Real.continuous_exp.continuousAt.comp h2.neg)
      exact h3.rpow_const (Or.inr ha.le)
    have h0 : ((1 : ℝ) - Real.exp (-0 ^ c)) ^ a = 0 := by
      rw [Real.zero_rpow hc.ne', neg_zero, Real.exp_zero, sub_self, Real.zero_rpow ha.ne']
    rw [h0] at h1
    exact h1.mono_left nhdsWithin_le_nhds
  · have h1 := (Real.tendsto_exp_atBot.comp (tendsto_neg_atTop_atBot.comp (tendsto_rpow_atTop hc))).const_sub (1 : ℝ)
    rw [sub_zero] at h1
    have h2 := h1.rpow_const (p := a) (Or.inl one_ne_zero)
    rw [Real.one_rpow] at h2
    exact h2

theorem uniform_cdf : IsProbabilityMeasure (density fun x => if 0 ≤ x ∧ x ≤ 1 then 1 else 0) ∧
    ∀ x, cdf (density fun x => if 0 ≤ x ∧ x ≤ 1 then 1 else 0) x = max 0 (min 1 x) := by
  have he : density (fun x => if 0 ≤ x ∧ x ≤ 1 then 1 else 0) = volume.restrict (Icc 0 1) := by
    rw [density, ← withDensity_indicator_one measurableSet_Icc]
    congr 1
    funext x
    by_cases h : 0 ≤ x ∧ x ≤ 1
    · simp [h]
    · simp [h]
  rw [he]
  have hp : IsProbabilityMeasure (volume.restrict (Icc (0 : ℝ) 1)) := ⟨by simp⟩
  refine ⟨hp, fun x => ?_⟩
  rw [cdf_eq_real, measureReal_def, Measure.restrict_apply measurableSet_Iic, inter_comm, ← Ici_inter_Iic,
    inter_assoc, Iic_inter_Iic, Ici_inter_Iic, Real.volume_Icc, sub_zero, ENNReal.toReal_ofReal']
  exact max_comm _ _

theorem Phi_hasDerivAt (x : ℝ) : HasDerivAt Phi (gaussianPDFReal 0 1 x) x := by
  have hi : Integrable (gaussianPDFReal 0 1) := integrable_gaussianPDFReal 0 1
  have hP : ∀ y, Phi y = ∫ z in Iic y, gaussianPDFReal 0 1 z := by
    intro y
    rw [Phi_eq, measureReal_def, gaussianReal_apply_eq_integral 0 one_ne_zero, ENNReal.toReal_ofReal]
    exact setIntegral_nonneg measurableSet_Iic fun z _ => gaussianPDFReal_nonneg _ _ _
  have hF : Phi = fun y => Phi 0 + ∫ z in (0 : ℝ)..y, gaussianPDFReal 0 1 z := by
    funext y
    rw [hP y, hP 0, ← intervalIntegral.integral_Iic_sub_Iic hi.integrableOn hi.integrableOn]
    ring
  rw [hF]
  refine HasDerivAt.const_add _ ?_
  have hc : Continuous (gaussianPDFReal 0 1) := by
    unfold gaussianPDFReal
    fun_prop
  exact intervalIntegral.integral_hasDerivAt_right (hi.intervalIntegrable) (hc.stronglyMeasurableAtFilter _ _) hc.continuousAt

theorem Phi_atTop : Tendsto Phi atTop (𝓝 1) := tendsto_cdf_atTop _
theorem Phi_atBot : Tendsto Phi atBot (𝓝 0) := tendsto_cdf_atBot _

theorem invgauss_cdf {mu : ℝ} (hm : 0 < mu) :
    IsProbabilityMeasure (density fun x => if 0 < x then
      1 / √(2 * Real.pi * x ^ 3) * Real.exp (-(x - mu) ^ 2 / (2 * x * mu ^ 2)) else 0) ∧
    ∀ x, cdf (density fun x => if 0 < x then
      1 / √(2 * Real.pi * x ^ 3) * Real.exp (-(x - mu) ^ 2 / (2 * x * mu ^ 2)) else 0) x =
      if 0 < x then Phi ((x / mu - 1) / √x) + Real.exp (2 / mu) * Phi (-((x / mu + 1) / √x)) else 0 := by
  have hsq : ∀ x : ℝ, 0 < x → (x / mu - 1) / √x = √x / mu - (√x)⁻¹ ∧ -((x / mu + 1) / √x) = -(√x / mu) - (√x)⁻¹ := by
    intro x hx
    have h1 := Real.sqrt_pos.2 hx
    have h2 := Real.mul_self_sqrt hx.le
    generalize √x = r at *
    subst h2
    constructor <;> field_simp
    ring
  have hs0 : Tendsto (fun x : ℝ => √x) (𝓝[>] 0) (𝓝[>] 0) := by
    refine tendsto_nhdsWithin_iff.2 ⟨?_, ?_⟩
    · have := (Real.continuous_sqrt.tendsto 0).mono_left (nhdsWithin_le_nhds (s := Ioi 0))
      rwa [Real.sqrt_zero] at this
    · filter_upwards [self_mem_nhdsWithin] with x hx
      exact Real.sqrt_pos.2 hx
  have hi0 : Tendsto (fun x : ℝ => -(√x)⁻¹) (𝓝[>] 0) atBot :=
    tendsto_neg_atTop_atBot.comp (tendsto_inv_nhdsGT_zero.comp hs0)
  have hl0 : Tendsto (fun x : ℝ => √x / mu) (𝓝[>] 0) (𝓝 0) := by
    have := (tendsto_nhds_of_tendsto_nhdsWithin hs0).div_const mu
    rwa [zero_div] at this
  have hti : Tendsto (fun x : ℝ => (√x)⁻¹) atTop (𝓝 0) := tendsto_inv_atTop_zero.comp Real.tendsto_sqrt_atTop
  have htl : Tendsto (fun x : ℝ => √x / mu) atTop atTop := Real.tendsto_sqrt_atTop.atTop_div_const hm
  refine law_on_pos (fun x hx => ?_) (fun x hx => if_neg (not_lt.2 hx.le)) (fun x => ?_) ?_ ?_
  · rw [if_pos hx]
    have hr := Real.sqrt_pos.2 hx
    have hrr := Real.mul_self_sqrt hx.le
    have d1 : HasDerivAt (fun x : ℝ => √x) (1 / (2 * √x)) x := Real.hasDerivAt_sqrt hx.ne'
    have d2 : HasDerivAt (fun x : ℝ => (√x)⁻¹) (-(1 / (2 * √x)) / √x ^ 2) x := d1.inv hr.ne'
    have du := (Phi_hasDerivAt (√x / mu - (√x)⁻¹)).comp x ((d1.div_const mu).sub d2)
    have dv := ((Phi_hasDerivAt (-(√x / mu) - (√x)⁻¹)).comp x ((d1.div_const mu).neg.sub d2)).const_mul (Real.exp (2 / mu))
    have h := du.add dv
    refine HasDerivAt.congr_of_eventuallyEq (h.congr_deriv ?_) ?_
    · have e3 : √(2 * Real.pi * x ^ 3) = √(2 * Real.pi) * √x ^ 3 := by
        rw [Real.sqrt_mul (by positivity), show x ^ 3 = (√x ^ 3) ^ 2 by
          rw [← pow_mul, mul_comm, pow_mul, Real.sq_sqrt hx.le], Real.sqrt_sq (by positivity)]
      rw [e3]
      simp only [gaussianPDFReal, NNReal.coe_one, mul_one, sub_zero]
      have hex : Real.exp (2 / mu) * Real.exp (-(-(√x / mu) - (√x)⁻¹) ^ 2 / 2) =
          Real.exp (-(√x / mu - (√x)⁻¹) ^ 2 / 2) := by
        rw [← Real.exp_add]
        congr 1
        field_simp
        ring
      have hex2 : Real.exp (-(x - mu) ^ 2 / (2 * x * mu ^ 2)) = Real.exp (-(√x / mu - (√x)⁻¹) ^ 2 / 2) := by
        congr 1
        have : x = √x * √x := hrr.symm
        generalize √x = r at *
        subst this
        field_simp
      rw [hex2, ← hex]
      have hp : 0 < √(2 * Real.pi) := by positivity
      generalize Real.exp (-(-(√x / mu) - (√x)⁻¹) ^ 2 / 2) = E
      generalize Real.exp (2 / mu) = A
      generalize √(2 * Real.pi) = q at *
      generalize √x = r at *
      field_simp
      ring
    · filter_upwards [Ioi_mem_nhds hx] with y hy
      rw [(hsq y hy).1, (hsq y hy).2]
      rfl
  · split_ifs
    · positivity
    · exact le_rfl
  · have h1 : Tendsto (fun x : ℝ => Phi (√x / mu - (√x)⁻¹) + Real.exp (2 / mu) * Phi (-(√x / mu) - (√x)⁻¹))
        (𝓝[>] 0) (𝓝 (0 + Real.exp (2 / mu) * 0)) := by
      refine (Phi_atBot.comp ?_).add ((Phi_atBot.comp ?_).const_mul _)
      · simpa only [sub_eq_add_neg] using hl0.add_atBot hi0
      · simpa only [sub_eq_add_neg] using hl0.neg.add_atBot hi0
    rw [mul_zero, add_zero] at h1
    refine h1.congr' ?_
    filter_upwards [self_mem_nhdsWithin] with y hy
    rw [(hsq y hy).1, (hsq y hy).2]
  · have h1 : Tendsto (fun x : ℝ => Phi (√x / mu - (√x)⁻¹) + Real.exp (2 / mu) * Phi (-(√x / mu) - (√x)⁻¹))
        atTop (𝓝 (1 + Real.exp (2 / mu) * 0)) := by
      refine (Phi_atTop.comp ?_).add ((Phi_atBot.comp ?_).const_mul _)
      · simpa only [sub_eq_add_neg] using htl.atTop_add hti.neg
      · simpa only [sub_eq_add_neg, Function.comp_def] using (tendsto_neg_atTop_atBot.comp htl).atBot_add hti.neg
    rw [mul_zero, add_zero] at h1
    refine h1.congr' ?_
    filter_upwards [Ioi_mem_atTop (0 : ℝ)] with y hy
    rw [(hsq y hy).1, (hsq y hy).2]

end Pysatl.Props
