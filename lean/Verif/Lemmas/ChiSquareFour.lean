import Verif.Lemmas.CentralLimit
import Verif.Lemmas.ChiSquare
import Mathlib.Analysis.LConvolution
import Mathlib.MeasureTheory.Measure.WithDensity
import Mathlib.Probability.Independence.Basic

/-! # Several averages at once, and the sum of the squares of four independent standard normal values -/

namespace Pysatl

open Pysatl.Spec MeasureTheory ProbabilityTheory Filter Topology

/-! ### The sum of two independent exponential values -/

theorem exponential_conv {r : ℝ} (hr : 0 < r) : expMeasure r ∗ expMeasure r = gammaMeasure 2 r := by
  rw [expMeasure, gammaMeasure, gammaMeasure, conv_withDensity_eq_lconvolution (by unfold gammaPDF; fun_prop) (by unfold gammaPDF; fun_prop)]
  congr 1
  funext x
  rw [lconvolution]
  have e : ∀ y, gammaPDF 1 r y * gammaPDF 1 r (-y + x) =
      (Set.Icc 0 x).indicator (fun _ => ENNReal.ofReal (r ^ 2 * Real.exp (-(r * x)))) y := fun y => by
    by_cases hy : y ∈ Set.Icc 0 x
    · have h2 : 0 ≤ -y + x := by linarith [hy.2]
      rw [Set.indicator_of_mem hy, gammaPDF_of_nonneg hy.1, gammaPDF_of_nonneg h2, ← ENNReal.ofReal_mul (by simp; positivity)]
      congr 1
      simp only [Real.rpow_one, Real.Gamma_one, div_one, sub_self, Real.rpow_zero, mul_one]
      rw [show -(r * x) = -(r * y) + -(r * (-y + x)) by ring, Real.exp_add]
      ring
    · rw [Set.indicator_of_notMem hy]
      rw [Set.mem_Icc, not_and_or, not_le, not_le] at hy
      rcases hy with h | h
      · rw [gammaPDF_of_neg h, zero_mul]
      · rw [gammaPDF_of_neg (show -y + x < 0 by linarith), mul_zero]
  simp only [e]
  rw [lintegral_indicator measurableSet_Icc, lintegral_const, Measure.restrict_apply_univ, Real.volume_Icc, sub_zero]
  rcases lt_or_ge x 0 with hx | hx
  · rw [gammaPDF_of_neg hx, ENNReal.ofReal_of_nonpos hx.le, mul_zero]
  · rw [gammaPDF_of_nonneg hx, ← ENNReal.ofReal_mul (by positivity)]
    congr 1
    rw [show (2 : ℝ) - 1 = 1 by norm_num, Real.rpow_one, show (2 : ℝ) = 1 + 1 by norm_num,
      Real.Gamma_add_one one_ne_zero, Real.Gamma_one, show (1 : ℝ) + 1 = ((2 : ℕ) : ℝ) by norm_num, Real.rpow_natCast]
    ring

theorem pair_squares_law : ((gaussianReal 0 1).prod (gaussianReal 0 1)).map (fun p => p.1 ^ 2 + p.2 ^ 2) =
    expMeasure (1 / 2) := by
  have hp := isProbabilityMeasure_expMeasure (r := 1 / 2) (by norm_num)
  have hm : Measurable fun p : ℝ × ℝ => p.1 ^ 2 + p.2 ^ 2 := by fun_prop
  have hp2 : IsProbabilityMeasure (((gaussianReal 0 1).prod (gaussianReal 0 1)).map (fun p => p.1 ^ 2 + p.2 ^ 2)) :=
    Measure.isProbabilityMeasure_map hm.aemeasurable
  refine Measure.ext_of_Iic _ _ fun t => ?_
  have h2 := cdf_expMeasure_eq (r := 1 / 2) (by norm_num) t
  rw [cdf_eq_real, Measure.real] at h2
  rw [Measure.map_apply hm measurableSet_Iic]
  have h1 := gaussian_disc t
  rw [← h2, ENNReal.ofReal_toReal (measure_ne_top _ _)] at h1
  exact h1

/-- The sum of the squares of four independent standard normal values has the chi-square law with four degrees of
freedom. -/
theorem sum_four_squares_law : (stdGaussian (EuclideanSpace ℝ (Fin 4))).map (fun x => ∑ i, x i ^ 2) = chiSquareLaw 4 := by
  have hm : Measurable fun x : EuclideanSpace ℝ (Fin 4) => ∑ i, x i ^ 2 := by fun_prop
  rw [← map_pi_eq_stdGaussian, Measure.map_map hm (by fun_prop)]
  set P : Measure (Fin 4 → ℝ) := Measure.pi fun _ => gaussianReal 0 1 with hP
  have hi : iIndepFun (fun (i : Fin 4) (x : Fin 4 → ℝ) => x i) P :=
    iIndepFun_pi (X := fun _ x => x) (fun i => aemeasurable_id)
  have hl : ∀ i : Fin 4, P.map (fun x => x i) = gaussianReal 0 1 := fun i =>
    (measurePreserving_eval (fun _ : Fin 4 => gaussianReal 0 1) i).map_eq
  have hpair : ∀ i j : Fin 4, i ≠ j → P.map (fun x => x i ^ 2 + x j ^ 2) = expMeasure (1 / 2) := fun i j h => by
    have h1 := (indepFun_iff_map_prod_eq_prod_map_map (measurable_pi_apply i).aemeasurable
      (measurable_pi_apply j).aemeasurable).1 (hi.indepFun h)
    rw [hl, hl] at h1
    rw [← pair_squares_law, ← h1, Measure.map_map (by fun_prop) (by fun_prop)]
    rfl
  have h4 := hi.indepFun_prodMk_prodMk (fun i => measurable_pi_apply i) 0 1 2 3 (by decide) (by decide) (by decide) (by decide)
  have h5 : IndepFun (fun x : Fin 4 → ℝ => x 0 ^ 2 + x 1 ^ 2) (fun x => x 2 ^ 2 + x 3 ^ 2) P :=
    h4.comp (φ := fun p : ℝ × ℝ => p.1 ^ 2 + p.2 ^ 2) (ψ := fun p : ℝ × ℝ => p.1 ^ 2 + p.2 ^ 2) (by fun_prop) (by fun_prop)
  have h6 := h5.map_add_eq_map_conv_map₀ (by fun_prop) (by fun_prop)
  rw [hpair 0 1 (by decide), hpair 2 3 (by decide), exponential_conv (by norm_num)] at h6
  rw [chiSquareLaw, show (4 : ℝ) / 2 = 2 by norm_num, ← h6]
  congr 1
  funext x
  simp [Fin.sum_univ_four]
  ring

/-! ### Several averages at once -/

section
variable {μ : Measure ℝ} [IsProbabilityMeasure μ] {d : ℕ}

/-- Several averages, multiplied by `√n`. -/
noncomputable def manyAvg (f : Fin d → ℝ → ℝ) (n : ℕ) (ω : ℕ → ℝ) : EuclideanSpace ℝ (Fin d) :=
  WithLp.toLp 2 fun i => rootAvg (f i) n ω

/-- **The central limit theorem for several averages** with mean zero, uncorrelated and with variance one. -/
theorem clt_many {f : Fin d → ℝ → ℝ} (hf : ∀ i, Measurable (f i)) (hf2 : ∀ i, MemLp (f i) 2 μ)
    (hf0 : ∀ i, ∫ x, f i x ∂μ = 0) (hff : ∀ i j, ∫ x, f i x * f j x ∂μ = if i = j then 1 else 0) :
    TendstoInDistribution (fun n => manyAvg f n) atTop
      (id : EuclideanSpace ℝ (Fin d) → EuclideanSpace ℝ (Fin d)) (fun _ => seqLaw μ) (stdGaussian (EuclideanSpace ℝ (Fin d))) := by
  have hm : ∀ n, Measurable (manyAvg f n) := fun n =>
    (PiLp.continuous_toLp 2 _).measurable.comp (measurable_pi_iff.2 fun i => measurable_rootAvg (hf i) n)
  refine ⟨fun n => (hm n).aemeasurable, aemeasurable_id, ?_⟩
  refine (ProbabilityMeasure.tendsto_iff_tendsto_charFun (E := EuclideanSpace ℝ (Fin d))).2 fun t => ?_
  simp only [ProbabilityMeasure.coe_mk, Measure.map_id, charFun_stdGaussian]
  set h : ℝ → ℝ := fun x => ∑ i, t i * f i x with hh
  have hhm : Measurable h := Finset.measurable_sum _ fun i _ => (hf i).const_mul _
  have hh2 : MemLp h 2 μ := memLp_finsetSum _ fun i _ => (hf2 i).const_mul _
  have hh0 : ∫ x, h x ∂μ = 0 := by
    rw [integral_finsetSum _ fun i _ => ((hf2 i).integrable (by norm_num)).const_mul _]
    simp only [integral_const_mul, hf0, mul_zero, Finset.sum_const_zero]
  have hhh : ∫ x, h x ^ 2 ∂μ = ∑ i, t i ^ 2 := by
    have e : ∀ x, h x ^ 2 = ∑ i, ∑ j, t i * t j * (f i x * f j x) := fun x => by
      simp only [hh]
      rw [sq, Finset.sum_mul_sum]
      refine Finset.sum_congr rfl fun i _ => Finset.sum_congr rfl fun j _ => ?_
      ring
    simp only [e]
    have hij : ∀ i j, Integrable (fun x => t i * t j * (f i x * f j x)) μ := fun i j =>
      ((hf2 i).integrable_mul (hf2 j)).const_mul _
    rw [integral_finsetSum _ fun i _ => integrable_finsetSum _ fun j _ => hij i j]
    refine Finset.sum_congr rfl fun i _ => ?_
    rw [integral_finsetSum _ fun j _ => hij i j]
    simp only [integral_const_mul, hff]
    simp [sq]
  have hc1 := (ProbabilityMeasure.tendsto_iff_tendsto_charFun (E := ℝ)).1 (clt_rootAvg hhm hh2 hh0).tendsto 1
  simp only [ProbabilityMeasure.coe_mk, Measure.map_id, charFun_gaussianReal, hhh] at hc1
  have e1 : ∀ n, charFun ((seqLaw μ).map (manyAvg f n)) t =
      charFun ((seqLaw μ).map (rootAvg h n)) 1 := fun n => by
    have hr := measurable_rootAvg hhm n
    rw [charFun_apply, charFun_apply_real, integral_map (hm n).aemeasurable (by fun_prop),
      integral_map hr.aemeasurable (by fun_prop)]
    refine integral_congr_ae (ae_of_all _ fun ω => ?_)
    have e2 : inner ℝ (manyAvg f n ω) t = rootAvg h n ω := by
      simp only [PiLp.inner_apply, manyAvg, rootAvg, avg, hh, RCLike.inner_apply, conj_trivial]
      rw [Finset.sum_comm, Finset.sum_div, Finset.mul_sum]
      refine Finset.sum_congr rfl fun i _ => ?_
      rw [← Finset.mul_sum]
      ring
    simp only [e2, Complex.ofReal_one, one_mul]
  simp only [e1]
  convert hc1 using 2
  have : ‖t‖ ^ 2 = ∑ i, t i ^ 2 := by
    rw [EuclideanSpace.norm_sq_eq]
    simp
  rw [Real.coe_toNNReal _ (Finset.sum_nonneg fun i _ => sq_nonneg _), ← Complex.ofReal_pow, this]
  congr 1
  push_cast
  ring

end

end Pysatl
