import Verif.Lemmas.MeanDeviation
import Verif.Spec.Deviation
import Verif.Props.ConsistencyNormalRefuted

/-! # C136, C137: criteria built on mean differences and on deviations from the median -/

namespace Pysatl.Props

open Pysatl.Decision Pysatl.Resolver Pysatl.Spec Pysatl.Edf Pysatl.Graph Pysatl.Gen Pysatl.Normal Pysatl.Exponent
open MeasureTheory ProbabilityTheory Filter Topology

/-! ### Least deviations -/

section
variable {μ : Measure ℝ} [IsProbabilityMeasure μ] (hi : Integrable (fun x => x) μ)

theorem leastDeviation_le (c : ℝ) : leastDeviation μ ≤ ∫ x, |x - c| ∂μ :=
  ciInf_le ⟨0, by rintro _ ⟨c, rfl⟩; exact integral_nonneg fun x => abs_nonneg _⟩ c

include hi in
theorem leastDeviation_attained : ∃ c, leastDeviation μ = ∫ x, |x - c| ∂μ := by
  have hc : Continuous fun c => ∫ x, |x - c| ∂μ := by
    refine Metric.continuous_iff.2 fun b ε hε => ⟨ε, hε, fun a ha => ?_⟩
    rw [Real.dist_eq] at ha ⊢
    exact (dev_lipschitz hi a b).trans_lt ha
  have ht : Tendsto (fun c => ∫ x, |x - c| ∂μ) (cocompact ℝ) atTop := by
    refine tendsto_atTop_mono (fun c => ?_) (tendsto_atTop_add_const_right _ (-|lawMean μ|) (tendsto_norm_cocompact_atTop (E := ℝ)))
    have h1 := dev_ge_sub hi c
    have h2 := dev_ge_add hi c
    rw [Real.norm_eq_abs]
    rcases abs_cases c with h | h <;> rcases abs_cases (lawMean μ) with h' | h' <;> linarith
  obtain ⟨c, h⟩ := hc.exists_forall_le ht
  exact ⟨c, le_antisymm (leastDeviation_le c) (le_ciInf h)⟩

include hi in
/-- The median of the sample deviates least; the least deviations settle. -/
theorem settles_leastDeviation : ∀ᵐ ω ∂seqLaw μ, ∀ o : ∀ _ : ℕ, ℕ → ℝ, (∀ n, OrderStats (List.ofFn (firsts n ω)) (o n)) →
    Tendsto (fun n => absDeviation (medianOf n (o n)) (List.ofFn (firsts n ω))) atTop (𝓝 (leastDeviation μ)) := by
  filter_upwards [settles_dev hi] with ω h o ho
  rw [Metric.tendsto_nhds]
  intro ε hε
  obtain ⟨c, hc⟩ := leastDeviation_attained hi
  filter_upwards [h (ε / 2) (by linarith), eventually_gt_atTop 0] with n hn h0
  have hne : List.ofFn (firsts n ω) ≠ [] := by simpa using h0.ne'
  have hmin := median_least hne (ho n) c
  rw [List.length_ofFn] at hmin
  have h1 := abs_le.1 (hn c)
  have h2 := abs_le.1 (hn (medianOf n (o n)))
  have h3 := leastDeviation_le (μ := μ) (medianOf n (o n))
  simp only [absDeviation, meanOf_empirical] at hmin ⊢
  rw [Real.dist_eq, abs_lt]
  constructor <;> linarith [h1.1, h1.2, h2.1, h2.2]

include hi in
/-- Laws that are symmetric about `m` deviate least from `m`. -/
theorem leastDeviation_symmetric {m : ℝ} (h : μ.map (fun x => 2 * m - x) = μ) : leastDeviation μ = ∫ x, |x - m| ∂μ := by
  refine le_antisymm (leastDeviation_le m) (le_ciInf fun c => ?_)
  have e : ∫ x, |x - c| ∂μ = ∫ x, |2 * m - x - c| ∂μ := by
    conv_lhs => rw [← h]
    rw [integral_map (by fun_prop) (by fun_prop)]
  have hi2 : Integrable (fun x => |2 * m - x - c|) μ := (((integrable_const _).sub hi).sub (integrable_const c)).abs
  have := integral_mono ((integrable_dev hi m).const_mul 2) ((integrable_dev hi c).add hi2) fun x => by
    show 2 * |x - m| ≤ |x - c| + |2 * m - x - c|
    have h1 := abs_sub (x - c) (2 * m - x - c)
    rw [show x - c - (2 * m - x - c) = 2 * (x - m) by ring, abs_mul, abs_two] at h1
    exact h1
  rw [integral_const_mul, integral_add' (integrable_dev hi c) hi2, ← e] at this
  linarith

include hi in
theorem continuous_dev : Continuous fun c => ∫ x, |x - c| ∂μ := by
  refine Metric.continuous_iff.2 fun b ε hε => ⟨ε, hε, fun a ha => ?_⟩
  rw [Real.dist_eq] at ha ⊢
  exact (dev_lipschitz hi a b).trans_lt ha

include hi in
theorem integrable_dev_dev : Integrable (fun y => ∫ x, |x - y| ∂μ) μ := by
  refine ((integrable_const (∫ x, |x - 0| ∂μ)).add hi.abs).mono' (continuous_dev hi).aestronglyMeasurable (ae_of_all _ fun y => ?_)
  rw [Real.norm_of_nonneg (integral_nonneg fun x => abs_nonneg _)]
  have := (abs_le.1 (dev_lipschitz hi y 0)).2
  rw [sub_zero] at this
  show _ ≤ (∫ x, |x - 0| ∂μ) + |y|
  linarith

include hi in
theorem settles_difference : SettlesAt lawDifference μ := by
  filter_upwards [settles_dev hi, settles_integral (continuous_dev hi).measurable (integrable_dev_dev hi)] with ω h1 h2
  have h3 : Tendsto (fun n => lawDifference (empiricalLaw (List.ofFn (firsts n ω))) -
      ∫ y, (∫ x, |x - y| ∂μ) ∂empiricalLaw (List.ofFn (firsts n ω))) atTop (𝓝 0) := by
    rw [Metric.tendsto_nhds]
    intro ε hε
    filter_upwards [h1 (ε / 2) (by linarith), eventually_gt_atTop 0] with n hn h0
    have hne : List.ofFn (firsts n ω) ≠ [] := by simpa using h0.ne'
    have := empirical_probability hne
    rw [dist_zero_right, lawDifference, ← integral_sub (integrable_empirical _ _ hne) (integrable_empirical _ _ hne)]
    have := norm_integral_le_of_norm_le_const (μ := empiricalLaw (List.ofFn (firsts n ω))) (C := ε / 2)
      (f := fun y => (∫ x, |x - y| ∂empiricalLaw (List.ofFn (firsts n ω))) - ∫ x, |x - y| ∂μ) (ae_of_all _ fun y => hn y)
    rw [probReal_univ, mul_one] at this
    linarith
  have := h3.add h2
  simpa [lawDifference] using this

end

theorem difference_empirical (xs : List ℝ) : (xs.map fun x => (xs.map fun y => |x - y|).sum).sum =
    (xs.length : ℝ) ^ 2 * lawDifference (empiricalLaw xs) := by
  rcases eq_or_ne xs [] with rfl | hne
  · simp
  have h0 : (xs.length : ℝ) ≠ 0 := by simpa using hne
  have e : ∀ y, ∫ x, |x - y| ∂empiricalLaw xs = (xs.map fun x => |y - x|).sum / xs.length := fun y => by
    rw [integral_empirical]
    simp only [abs_sub_comm y]
  simp only [lawDifference, e]
  rw [integral_empirical]
  have : ∀ l : List ℝ, (l.map fun y : ℝ => (xs.map fun x => |y - x|).sum / (xs.length : ℝ)).sum =
      (l.map fun y => (xs.map fun x => |y - x|).sum).sum / xs.length := fun l => by
    induction l with
    | nil => simp
    | cons a l ih => simp only [List.map_cons, List.sum_cons, ih, add_div]
  rw [this]
  field_simp

/-! ### Normal and exponential laws -/

theorem gaussian_integrable (m : ℝ) (v : NNReal) : Integrable (fun x => x) (gaussianReal m v) := by
  simpa using integrable_power (gaussian_moment_finite m v 2) (j := 1) (by norm_num) 0

theorem gaussian_absDeviation (m : ℝ) (v : NNReal) : ∫ x, |x - m| ∂gaussianReal m v = √v * √(2 / Real.pi) := by
  rw [gaussian_integral m v (by fun_prop)]
  have e : ∀ x, |m + √(v : ℝ) * x - m| = √v * |x| := fun x => by
    rw [add_sub_cancel_left, abs_mul, abs_of_nonneg (Real.sqrt_nonneg _)]
  simp only [e]
  rw [integral_const_mul, stdNormal_abs]

theorem gaussian_leastDeviation (m : ℝ) (v : NNReal) : leastDeviation (gaussianReal m v) = √v * √(2 / Real.pi) := by
  rw [leastDeviation_symmetric (gaussian_integrable m v) (m := m), gaussian_absDeviation]
  rw [gaussianReal_map_const_sub]
  congr 1
  ring

theorem gaussian_difference (m : ℝ) (v : NNReal) : lawDifference (gaussianReal m v) = 2 * √v / √Real.pi := by
  have hi := gaussian_integrable m v
  have hprod : Integrable (fun p : ℝ × ℝ => |p.1 - p.2|) ((gaussianReal m v).prod (gaussianReal m v)) :=
    ((hi.comp_fst _).sub (hi.comp_snd _)).abs
  have e : ((gaussianReal m v).prod (gaussianReal m v)).map (fun p => p.1 - p.2) = gaussianReal 0 (v + v) := by
    have h1 : (gaussianReal m v).map (fun x => -x) = gaussianReal (-m) v := gaussianReal_map_neg
    have h2 := gaussianReal_conv_gaussianReal (m₁ := m) (m₂ := -m) (v₁ := v) (v₂ := v)
    rw [add_neg_cancel, ← h1, Measure.conv] at h2
    have h3 := Measure.map_prod_map (gaussianReal m v) (gaussianReal m v) (f := id) (g := fun x => -x) measurable_id
      (by fun_prop)
    rw [Measure.map_id] at h3
    rw [h3, Measure.map_map (by fun_prop) (by fun_prop)] at h2
    rw [← h2]
    rfl
  have hz : lawDifference (gaussianReal m v) = ∫ z, |z - 0| ∂gaussianReal 0 (v + v) := by
    rw [← e, integral_map (by fun_prop) (by fun_prop), lawDifference]
    simp only [sub_zero]
    rw [integral_prod_symm _ hprod]
  rw [hz, gaussian_absDeviation]
  push_cast
  rw [← two_mul, Real.sqrt_mul zero_le_two, Real.sqrt_div zero_le_two]
  have : √2 * √2 = (2 : ℝ) := Real.mul_self_sqrt zero_le_two
  calc √2 * √v * (√2 / √Real.pi) = (√2 * √2) * √v / √Real.pi := by ring
    _ = _ := by rw [this]

theorem exp_dev {r : ℝ} (hr : 0 < r) {y : ℝ} (hy : 0 < y) :
    ∫ x, |x - y| ∂expMeasure r = y - 1 / r + 2 / r * Real.exp (-(r * y)) := by
  have hpr := isProbabilityMeasure_expMeasure hr
  have hd : ∀ x : ℝ, HasDerivAt (fun x => -((x - y + 1 / r) * Real.exp (-(r * x)))) ((x - y) * (r * Real.exp (-(r * x)))) x :=
    fun x => by
      have h1 : HasDerivAt (fun x : ℝ => Real.exp (-(r * x))) (Real.exp (-(r * x)) * -(r * 1)) x :=
        (((hasDerivAt_id x).const_mul r).neg).exp
      have h2 : HasDerivAt (fun x : ℝ => x - y + 1 / r) 1 x := ((hasDerivAt_id x).sub_const y).add_const _
      refine (h2.mul h1).neg.congr_deriv ?_
      field_simp
      ring
  have hlim : Tendsto (fun x : ℝ => -((x - y + 1 / r) * Real.exp (-(r * x)))) atTop (𝓝 0) := by
    have ht : Tendsto (fun x : ℝ => r * x) atTop atTop := tendsto_id.const_mul_atTop hr
    have a := (Real.tendsto_pow_mul_exp_neg_atTop_nhds_zero 1).comp ht
    have b := (Real.tendsto_pow_mul_exp_neg_atTop_nhds_zero 0).comp ht
    have := ((a.const_mul (1 / r)).add (b.const_mul (1 / r - y))).neg
    simp only [mul_zero, add_zero, neg_zero] at this
    refine this.congr fun x => ?_
    simp only [Function.comp, pow_one, pow_zero]
    field_simp
    ring
  rw [Expon.integral_exp hr, ← Set.Ioc_union_Ioi_eq_Ioi hy.le]
  have hint : IntegrableOn (fun x : ℝ => (x - y) * (r * Real.exp (-(r * x)))) (Set.Ioi y) :=
    integrableOn_Ioi_deriv_of_nonneg' (fun t _ => hd t)
      (fun t ht => mul_nonneg (by linarith [Set.mem_Ioi.1 ht]) (by positivity)) hlim
  have hup : ∫ x in Set.Ioi y, |x - y| * (r * Real.exp (-(r * x))) = 1 / r * Real.exp (-(r * y)) := by
    rw [setIntegral_congr_fun (g := fun x : ℝ => (x - y) * (r * Real.exp (-(r * x)))) measurableSet_Ioi
      fun t ht => by rw [abs_of_pos (by linarith [Set.mem_Ioi.1 ht])]]
    rw [integral_Ioi_of_hasDerivAt_of_tendsto' (fun t _ => hd t) hint hlim]
    simp
  have hlow : ∫ x in Set.Ioc (0 : ℝ) y, |x - y| * (r * Real.exp (-(r * x))) = y - 1 / r + 1 / r * Real.exp (-(r * y)) := by
    rw [setIntegral_congr_fun (g := fun x : ℝ => -((x - y) * (r * Real.exp (-(r * x))))) measurableSet_Ioc
      fun t ht => by rw [abs_of_nonpos (by linarith [ht.2]), neg_mul]]
    rw [integral_neg, ← intervalIntegral.integral_of_le hy.le,
      intervalIntegral.integral_eq_sub_of_hasDerivAt (fun t _ => hd t)
        (Continuous.intervalIntegrable (by fun_prop) _ _)]
    simp
    ring
  rw [setIntegral_union (Set.Ioc_disjoint_Ioi le_rfl) measurableSet_Ioi, hup, hlow]
  · ring
  · exact (Continuous.integrableOn_Icc (by fun_prop)).mono_set Set.Ioc_subset_Icc_self
  · refine hint.congr_fun (fun t ht => ?_) measurableSet_Ioi
    simp only [abs_of_pos (show 0 < t - y by linarith [Set.mem_Ioi.1 ht])]

theorem exp_difference {r : ℝ} (hr : 0 < r) : lawDifference (expMeasure r) = 1 / r := by
  have hpr := isProbabilityMeasure_expMeasure hr
  have hl := Expon.integral_laplace hr hr.le
  have hlap : Integrable (fun x : ℝ => Real.exp (-(r * x))) (expMeasure r) := by
    by_contra h
    rw [integral_undef h] at hl
    have : 0 < r / (r + r) := by positivity
    exact this.ne hl
  have hi := exp_integrable_id hr
  rw [lawDifference, integral_congr_ae (g := fun y => y - 1 / r + 2 / r * Real.exp (-(r * y)))
    ((Expon.ae_pos hr).mono fun y hy => exp_dev hr hy)]
  rw [integral_add (by exact hi.sub (integrable_const _)) (hlap.const_mul _), integral_sub hi (integrable_const _),
    integral_const_mul, hl, Expon.integral_id hr]
  simp
  field_simp
  norm_num

theorem giniIndex_exp {r : ℝ} (hr : 0 < r) : giniIndex (expMeasure r) = 1 / 2 := by
  rw [giniIndex, exp_difference hr, lawMean_exp hr]
  field_simp

theorem uniform_difference {b : ℝ} (hb : 0 < b) : lawDifference (uniformLaw 0 b) = b / 3 := by
  have e : ∀ y ∈ Set.uIcc 0 b, ∫ x, |x - y| ∂uniformLaw 0 b = (y ^ 2 + (b - y) ^ 2) / (2 * b) := fun y hy => by
    rw [Set.uIcc_of_le hb.le] at hy
    rw [uniform_integral hb, intervalIntegral.integral_comp_sub_right (fun x => |x|), zero_sub,
      ← intervalIntegral.integral_add_adjacent_intervals (b := 0) (continuous_abs.intervalIntegrable _ _)
      (continuous_abs.intervalIntegrable _ _)]
    have e1 : ∫ x in (-y)..0, |x| = ∫ x in (-y)..0, -x := by
      refine intervalIntegral.integral_congr fun x hx => ?_
      rw [Set.uIcc_of_le (by linarith [hy.1])] at hx
      exact abs_of_nonpos hx.2
    have e2 : ∫ x in (0 : ℝ)..(b - y), |x| = ∫ x in (0 : ℝ)..(b - y), x := by
      refine intervalIntegral.integral_congr fun x hx => ?_
      rw [Set.uIcc_of_le (by linarith [hy.2])] at hx
      exact abs_of_nonneg hx.1
    rw [e1, e2, intervalIntegral.integral_neg, _root_.integral_id, _root_.integral_id]
    field_simp
    ring
  rw [lawDifference, uniform_integral hb, intervalIntegral.integral_congr e, intervalIntegral.integral_div,
    intervalIntegral.integral_add (Continuous.intervalIntegrable (by fun_prop) _ _)
      (Continuous.intervalIntegrable (by fun_prop) _ _), intervalIntegral.integral_comp_sub_left (fun x => x ^ 2), integral_pow,
    integral_pow]
  field_simp
  norm_num
  ring

/-! ### The criteria -/

section
variable (code : String) (params : Option (List (String × ℝ)))

/-- The ratio that the criterion of Gel, Miao and Gastwirth estimates. -/
noncomputable def lawGmg (μ : Measure ℝ) : ℝ := √(lawVariance μ) / leastDeviation μ

theorem leastDeviation_pos {Q : Measure ℝ} [IsProbabilityMeasure Q] (h2 : Integrable (fun x => |x| ^ 2) Q)
    (hQ : 0 < lawVariance Q) : 0 < leastDeviation Q := by
  have hi : Integrable (fun x => x) Q := by simpa using integrable_power h2 (j := 1) (by norm_num) 0
  obtain ⟨c, hc⟩ := leastDeviation_attained hi
  rw [hc]
  exact absDeviation_law_pos h2 hQ c

theorem gmg_settles {Q : Measure ℝ} [IsProbabilityMeasure Q] (h2 : Integrable (fun x => |x| ^ 2) Q)
    (hQ : 0 < lawVariance Q) : ValueSettles (NormStat.gmg.statistic scipyNorm code params)
      (fun _ x => x / √(Real.pi / 2)) Q (lawGmg Q) := by
  have hi : Integrable (fun x => x) Q := by simpa using integrable_power h2 (j := 1) (by norm_num) 0
  filter_upwards [settles_stdDev h2, settles_leastDeviation hi, eventually_varies h2 hQ] with ω a b c
  choose o ho using fun n => exists_orderStats (List.ofFn (firsts n ω))
  refine ⟨_, a.div (b o ho) (leastDeviation_pos h2 hQ).ne', ?_⟩
  filter_upwards [eventually_gt_atTop 3, c] with n hn hv
  rw [normal_value (C117_gmg scipyNorm hv (by simpa using hn) (ho n) rfl).1, List.length_ofFn]
  simp only [Pi.div_apply]
  congr 1
  rw [div_div, mul_comm]

theorem gaussian_gmg (m : ℝ) {v : ℝ} (hv : 0 < v) : lawGmg (gaussianReal m v.toNNReal) = √(Real.pi / 2) := by
  have hs : 0 < √v := Real.sqrt_pos.2 hv
  rw [lawGmg, gaussian_leastDeviation, lawVariance_gaussian, Real.coe_toNNReal v hv.le, div_mul_eq_div_div, div_self hs.ne',
    one_div, ← Real.sqrt_inv, inv_div]

theorem gmg_grows : ∀ᶠ _ : ℕ in atTop, StrictMono fun x : ℝ => x / √(Real.pi / 2) :=
  .of_forall fun _ _ _ hxy => div_lt_div_of_pos_right hxy (Real.sqrt_pos.2 (by positivity))

/-- The ratio that D'Agostino's criterion estimates. -/
noncomputable def lawDagostino (μ : Measure ℝ) : ℝ := lawDifference μ / (4 * √(lawVariance μ))

theorem dagostino_settles {Q : Measure ℝ} [IsProbabilityMeasure Q] (h2 : Integrable (fun x => |x| ^ 2) Q)
    (hQ : 0 < lawVariance Q) : ValueSettles (NormStat.dagostino.statistic scipyNorm code params)
      (fun n x => √n * (x - 0.28209479) / 0.02998598) Q (lawDagostino Q) := by
  have hi : Integrable (fun x => x) Q := by simpa using integrable_power h2 (j := 1) (by norm_num) 0
  filter_upwards [settles_stdDev h2, settles_difference hi, eventually_varies h2 hQ] with ω a b c
  refine ⟨_, b.div (a.const_mul 4) (mul_pos four_pos (Real.sqrt_pos.2 hQ)).ne', ?_⟩
  filter_upwards [eventually_gt_atTop 3, c] with n hn hv
  rw [normal_value (C117_dagostino scipyNorm hv (by simpa using hn) rfl).1, List.length_ofFn, meanDifference,
    difference_empirical, List.length_ofFn]
  simp only [Pi.div_apply]
  have h1 : (3 : ℝ) < n := by exact_mod_cast hn
  have h3 : (n : ℝ) - 1 ≠ 0 := by linarith
  have h4 : (n : ℝ) ≠ 0 := by linarith
  congr 4
  generalize stdDev (List.ofFn (firsts n ω)) = s
  generalize lawDifference (empiricalLaw (List.ofFn (firsts n ω))) = d
  by_cases hs : s = 0
  · simp [hs]
  field_simp

theorem gaussian_dagostino (m : ℝ) {v : ℝ} (hv : 0 < v) : lawDagostino (gaussianReal m v.toNNReal) = 1 / (2 * √Real.pi) := by
  have hs : 0 < √v := Real.sqrt_pos.2 hv
  have hp := Real.sqrt_pos.2 Real.pi_pos
  rw [lawDagostino, gaussian_difference, lawVariance_gaussian, Real.coe_toNNReal v hv.le]
  field_simp
  norm_num

theorem dagostino_grows : ∀ᶠ n : ℕ in atTop, StrictMono fun x : ℝ => √(n : ℝ) * (x - 0.28209479) / 0.02998598 := by
  filter_upwards [eventually_gt_atTop 0] with n hn x y hxy
  have : 0 < √(n : ℝ) := Real.sqrt_pos.2 (by exact_mod_cast hn)
  exact div_lt_div_of_pos_right (mul_lt_mul_of_pos_left (by linarith) this) (by norm_num)

theorem gini_settles {Q : Measure ℝ} [IsProbabilityMeasure Q] (hi : Integrable (fun x => x) Q) (hpos : ∀ᵐ x ∂Q, 0 < x) :
    ValueSettles (ExpStat.gini.statistic code params) (fun n x => n / ((n : ℝ) - 1) * x) Q (giniIndex Q) := by
  filter_upwards [settles_mean hi, settles_difference hi] with ω a b
  refine ⟨_, b.div (a.const_mul 2) (mul_pos two_pos (lawMean_pos hi hpos)).ne', ?_⟩
  filter_upwards [eventually_gt_atTop 1] with n hn
  refine (C82_gini (by simpa using Nat.succ_le_of_lt hn)).1.trans ?_
  rw [giniCoefficient, difference_empirical, List.length_ofFn]
  simp only [Pi.div_apply, lawMean_empirical, mean, List.length_ofFn]
  have h1 : (1 : ℝ) < n := by exact_mod_cast hn
  have h3 : (n : ℝ) - 1 ≠ 0 := by linarith
  have h4 : (n : ℝ) ≠ 0 := by linarith
  congr 1
  generalize (List.ofFn (firsts n ω)).sum = s
  generalize lawDifference (empiricalLaw (List.ofFn (firsts n ω))) = d
  by_cases hs : s = 0
  · simp [hs]
  field_simp

theorem gini_grows : ∀ᶠ n : ℕ in atTop, StrictMono fun x : ℝ => n / ((n : ℝ) - 1) * x := by
  filter_upwards [eventually_gt_atTop 1] with n hn x y hxy
  have h1 : (1 : ℝ) < n := by exact_mod_cast hn
  exact mul_lt_mul_of_pos_left hxy (div_pos (by linarith) (by linarith))

end

section
variable (code : String) (params : Option (List (String × ℝ)))
variable (classes : List GeneratorClass) (hp : classes.Perm generatorClasses) (m : ℝ) {v : ℝ} (hv : 0 < v)

include hp hv in
/-- **C137 (partial), Gel-Miao-Gastwirth**: a law whose standard deviation exceeds `√(π/2)` times its mean absolute
deviation from the median is rejected in the long run; if it is smaller, the probability of rejection tends to zero, since
the class is judged in the right tail only. -/
theorem C137_gmg_partial : ∃ G, (Gen.Family.normal m v).simulator classes = .ok G ∧
    (∀ n, G.generate n = .ok (iid n (gaussianReal m v.toNNReal))) ∧
    ∀ Q : Measure ℝ, IsProbabilityMeasure Q → Integrable (fun x => |x| ^ 2) Q → (∀ c, Q ≠ Measure.dirac c) →
      (√(Real.pi / 2) < √(lawVariance Q) / leastDeviation Q →
        Consistent (NormStat.gmg.statistic scipyNorm code params) Q (gaussianReal m v.toNNReal)) ∧
      (√(lawVariance Q) / leastDeviation Q < √(Real.pi / 2) →
        Undetected (NormStat.gmg.statistic scipyNorm code params) Q (gaussianReal m v.toNNReal)) := by
  refine with_normal hp m hv fun Q _ h2 hQ => ?_
  have hV := (lawVariance_pos h2).2 hQ
  have hg := gmg_settles code params (gaussian_moment_finite m v.toNNReal 2) (gaussian_variance_pos m hv)
  rw [gaussian_gmg m hv] at hg
  exact ⟨fun h => value_consistent (normal_meas _ code params) gmg_grows (gmg_settles code params h2 hV) hg
      (Or.inl ⟨(fun h => by cases h), h⟩),
    fun h => value_undetected (normal_meas _ code params) gmg_grows (gmg_settles code params h2 hV) hg (Or.inr ⟨rfl, h⟩)⟩

include hp hv in
/-- **C137, D'Agostino**: every law whose ratio of Gini's mean difference to the standard deviation is not that of the normal
laws, `2 / √π`, is rejected in the long run. -/
theorem C137_dagostino : ∃ G, (Gen.Family.normal m v).simulator classes = .ok G ∧
    (∀ n, G.generate n = .ok (iid n (gaussianReal m v.toNNReal))) ∧
    ∀ Q : Measure ℝ, IsProbabilityMeasure Q → Integrable (fun x => |x| ^ 2) Q → (∀ c, Q ≠ Measure.dirac c) →
      lawDifference Q / √(lawVariance Q) ≠ 2 / √Real.pi →
      Consistent (NormStat.dagostino.statistic scipyNorm code params) Q (gaussianReal m v.toNNReal) := by
  refine with_normal hp m hv fun Q _ h2 hQ h => ?_
  have hV := (lawVariance_pos h2).2 hQ
  have hg := dagostino_settles code params (gaussian_moment_finite m v.toNNReal 2) (gaussian_variance_pos m hv)
  rw [gaussian_dagostino m hv] at hg
  have hne : lawDagostino Q ≠ 1 / (2 * √Real.pi) := fun e => h (by
    have hs := Real.sqrt_pos.2 hV
    have hp := Real.sqrt_pos.2 Real.pi_pos
    rw [lawDagostino, div_eq_div_iff (by positivity) (by positivity)] at e
    rw [div_eq_div_iff hs.ne' hp.ne']
    linarith)
  refine value_consistent (normal_meas _ code params) dagostino_grows (dagostino_settles code params h2 hV) hg ?_
  rcases lt_or_gt_of_ne hne with h | h
  · exact Or.inr ⟨(fun h => by cases h), h⟩
  · exact Or.inl ⟨(fun h => by cases h), h⟩

include hp in
/-- **C136, Gini**: every law of positive observations whose Gini index is not that of the exponential laws, `1/2`, is
rejected in the long run. -/
theorem C136_gini {r : ℝ} (hr : 0 < r) : ∃ G, (Gen.Family.exponential r).simulator classes = .ok G ∧
    (∀ n, G.generate n = .ok (iid n (expMeasure r))) ∧
    ∀ Q : Measure ℝ, IsProbabilityMeasure Q → (∀ᵐ x ∂Q, 0 < x) → Integrable (fun x => x) Q → giniIndex Q ≠ 1 / 2 →
      Consistent (ExpStat.gini.statistic code params) Q (expMeasure r) := by
  have hpr := isProbabilityMeasure_expMeasure hr
  obtain ⟨G, hG, hgen⟩ := simulates_all (f := .exponential r) fun n => C111_exponential classes hp r hr n
  refine ⟨G, hG, hgen, fun Q _ hpos hi hne => ?_⟩
  have hg := gini_settles code params (exp_integrable_id hr) (Expon.ae_pos hr)
  rw [giniIndex_exp hr] at hg
  refine value_consistent (exponential_meas _ code params) gini_grows (gini_settles code params hi hpos) hg ?_
  rcases lt_or_gt_of_ne hne with h | h
  · exact Or.inr ⟨(fun h => by cases h), h⟩
  · exact Or.inl ⟨(fun h => by cases h), h⟩

include hp hv in
/-- **C137, refuted, Gel-Miao-Gastwirth**: uniform observations have tails lighter than normal ones; the right-tailed
criterion detects them with a probability that tends to zero. -/
theorem C137_refuted_gmg {b : ℝ} (hb : 0 < b) : (∀ m' v', uniformLaw 0 b ≠ gaussianReal m' v') ∧
    Undetected (NormStat.gmg.statistic scipyNorm code params) (uniformLaw 0 b) (gaussianReal m v.toNNReal) := by
  have hpr := (cdf_uniformLaw hb).1
  obtain ⟨_, _, _, h⟩ := C137_gmg_partial code params _ hp m hv
  refine ⟨uniform_not_normal hb, (h _ hpr (uniform_moment 2) (uniform_not_const hb)).2 ?_⟩
  have hi : Integrable (fun x => x) (uniformLaw 0 b) := uniform_integrable (by fun_prop)
  have hsym : (uniformLaw 0 b).map (fun x => 2 * lawMean (uniformLaw 0 b) - x) = uniformLaw 0 b := by
    rw [lawMean_uniform hb]
    ext s hs
    have hm : Measurable fun x : ℝ => 2 * (b / 2) - x := by fun_prop
    have e : Set.Icc 0 b ∩ (fun x => 2 * (b / 2) - x) ⁻¹' s = (fun x => 2 * (b / 2) - x) ⁻¹' (Set.Icc 0 b ∩ s) := by
      ext x
      simp only [Set.mem_inter_iff, Set.mem_Icc, Set.mem_preimage]
      constructor <;> rintro ⟨⟨h1, h2⟩, h3⟩ <;> exact ⟨⟨by linarith, by linarith⟩, h3⟩
    rw [Measure.map_apply hm hs, uniformLaw, ProbabilityTheory.cond_apply measurableSet_Icc,
      ProbabilityTheory.cond_apply measurableSet_Icc, e,
      (Measure.measurePreserving_sub_left volume (2 * (b / 2))).measure_preimage (measurableSet_Icc.inter hs).nullMeasurableSet]
  rw [leastDeviation_symmetric hi hsym]
  exact geary_uniform_lt hb

end

/-! ### Concrete cases -/

/-- Uniform observations: a mean difference of `b/3` and a standard deviation of `b/√12`. -/
example : Consistent (NormStat.dagostino.statistic scipyNorm "DA" none) (uniformLaw 0 1) (gaussianReal 2 (Real.toNNReal 5)) := by
  obtain ⟨_, _, _, h⟩ := C137_dagostino "DA" none _ (List.Perm.refl _) 2 (v := 5) (by norm_num)
  refine h _ (cdf_uniformLaw one_pos).1 (uniform_moment 2) (uniform_not_const one_pos) fun e => ?_
  rw [uniform_difference one_pos, lawVariance_uniform one_pos] at e
  have e2 := congrArg (fun x => x ^ 2) e
  simp only [div_pow, Real.sq_sqrt (show (0 : ℝ) ≤ 1 ^ 2 / 12 by norm_num), Real.sq_sqrt Real.pi_pos.le] at e2
  rw [eq_div_iff Real.pi_pos.ne'] at e2
  linarith [Real.pi_gt_d2]

/-- Exponential observations: the standard deviation is at least `e/2` times the least mean deviation. -/
example : Consistent (NormStat.gmg.statistic scipyNorm "GMG" none) (expMeasure 1) (gaussianReal 2 (Real.toNNReal 5)) := by
  have hpr := isProbabilityMeasure_expMeasure one_pos
  obtain ⟨_, _, _, h⟩ := C137_gmg_partial "GMG" none _ (List.Perm.refl _) 2 (v := 5) (by norm_num)
  have h2 : Integrable (fun x => |x| ^ 2) (expMeasure 1) := by simpa using exp_integrable_sq one_pos
  have hvar : lawVariance (expMeasure 1) = 1 := by
    have := cvSquared_exp one_pos
    rw [cvSquared, lawMean_exp one_pos] at this
    rw [lawVariance, lawMean_exp one_pos]
    simpa using this
  have hd : leastDeviation (expMeasure 1) ≤ 2 * Real.exp (-1) := by
    have := pietraIndex_exp one_pos
    rw [pietraIndex, lawMean_exp one_pos] at this
    have h1 := leastDeviation_le (μ := expMeasure 1) (1 / 1)
    linarith
  have hpos := leastDeviation_pos h2 (by rw [hvar]; exact one_pos)
  refine (h _ hpr h2 ((lawVariance_pos h2).1 (by rw [hvar]; exact one_pos))).1 ?_
  rw [hvar, Real.sqrt_one, lt_div_iff₀ hpos]
  have he := Real.exp_neg_one_lt_d9
  have hs : √(Real.pi / 2) < 1.26 := by
    rw [Real.sqrt_lt' (by norm_num)]
    linarith [Real.pi_lt_d2]
  have := mul_lt_mul'' hs (hd.trans_lt (mul_lt_mul_of_pos_left he two_pos)) (Real.sqrt_nonneg _) hpos.le
  refine this.trans ?_
  norm_num

example : Consistent (ExpStat.gini.statistic "GINI" none) (uniformLaw 0 1) (expMeasure 3) := by
  obtain ⟨_, _, _, h⟩ := C136_gini "GINI" none _ (List.Perm.refl _) (r := 3) (by norm_num)
  refine h _ (cdf_uniformLaw one_pos).1 (uniform_pos one_pos) (uniform_integrable (by fun_prop)) ?_
  rw [giniIndex, uniform_difference one_pos, lawMean_uniform one_pos]
  norm_num

end Pysatl.Props
