import Verif.Props.NormalReturn
import Verif.Lemmas.Gaussian
import Verif.Spec.EppsPulley

/-! # C103: the Epps-Pulley statistic is a distance between characteristic functions -/

namespace Pysatl.Props

open Pysatl.Decision Pysatl.Graph Pysatl.Edf Pysatl.Exponent Pysatl.Normal Pysatl.Spec
open MeasureTheory ProbabilityTheory

theorem integral_cos_gaussian (v : NNReal) (d : ℝ) :
    ∫ t, Real.cos (d * t) ∂gaussianReal 0 v = Real.exp (-(v * d ^ 2 / 2)) := by
  have h := charFun_gaussianReal (μ := 0) (v := v) d
  rw [charFun_apply_real] at h
  have h2 := congrArg Complex.re h
  have hint : Integrable (fun x : ℝ => Complex.exp (d * x * Complex.I)) (gaussianReal 0 v) := by
    refine Integrable.of_bound (C := 1) (by fun_prop) (ae_of_all _ fun x => ?_)
    rw [← Complex.ofReal_mul, Complex.norm_exp_ofReal_mul_I]
  have e1 : (∫ x : ℝ, Complex.exp (d * x * Complex.I) ∂gaussianReal 0 v).re =
      ∫ x : ℝ, (Complex.exp (d * x * Complex.I)).re ∂gaussianReal 0 v :=
    (integral_re hint).symm
  rw [e1] at h2
  have e2 : ∀ x : ℝ, (Complex.exp (d * x * Complex.I)).re = Real.cos (d * x) := fun x => by
    rw [← Complex.ofReal_mul, Complex.exp_ofReal_mul_I_re]
  simp only [e2] at h2
  rw [h2]
  have e3 : (d * ((0 : ℝ) : ℂ) * Complex.I - (v : ℂ) * d ^ 2 / 2) = ((-(v * d ^ 2 / 2) : ℝ) : ℂ) := by
    push_cast; ring
  rw [e3, Complex.exp_ofReal_re]

theorem charFun_std (t : ℝ) : charFun (gaussianReal 0 1) t = ((Real.exp (-(t ^ 2 / 2)) : ℝ) : ℂ) := by
  rw [charFun_gaussianReal]
  push_cast
  congr 1
  simp

/-- The Gaussian weight absorbs a Gaussian factor. -/
theorem integral_cos_exp (a d : ℝ) (ha : 0 ≤ a) :
    ∫ t, Real.cos (d * t) * Real.exp (-(a * t ^ 2 / 2)) ∂gaussianReal 0 1 =
      Real.exp (-(d ^ 2 / (2 * (1 + a)))) / √(1 + a) := by
  have h1 : 0 < 1 + a := by linarith
  have hv : (1 / (1 + a)).toNNReal ≠ 0 := (Real.toNNReal_pos.2 (by positivity)).ne'
  have hc : ((1 / (1 + a)).toNNReal : ℝ) = 1 / (1 + a) := Real.coe_toNNReal _ (by positivity)
  have key := integral_cos_gaussian (1 / (1 + a)).toNNReal d
  rw [integral_gaussianReal_eq_integral_smul hv] at key
  rw [integral_gaussianReal_eq_integral_smul one_ne_zero]
  have e : ∀ t : ℝ, gaussianPDFReal 0 1 t • (Real.cos (d * t) * Real.exp (-(a * t ^ 2 / 2))) =
      (1 / √(1 + a)) * (gaussianPDFReal 0 (1 / (1 + a)).toNNReal t • Real.cos (d * t)) := by
    intro t
    simp only [gaussianPDFReal, smul_eq_mul, hc, NNReal.coe_one, sub_zero, mul_one]
    have hs : √(2 * Real.pi * (1 / (1 + a))) = √(2 * Real.pi) / √(1 + a) := by
      rw [mul_one_div, Real.sqrt_div (by positivity)]
    have he : Real.exp (-t ^ 2 / (2 * (1 / (1 + a)))) = Real.exp (-t ^ 2 / 2) * Real.exp (-(a * t ^ 2 / 2)) := by
      rw [← Real.exp_add]; congr 1; field_simp; ring
    have hpos : √(1 + a) ≠ 0 := by positivity
    have hpos2 : √(2 * Real.pi) ≠ 0 := by positivity
    rw [hs, he]
    field_simp
  simp only [e]
  rw [integral_const_mul, key]
  rw [one_div_mul_eq_div]
  rw [hc]
  congr 2
  field_simp

theorem normSq_ecf (z : List ℝ) (t g : ℝ) :
    ‖empiricalCharFun z t - ((g : ℝ) : ℂ)‖ ^ 2 =
      (∑ i ∈ Finset.range z.length, ∑ j ∈ Finset.range z.length,
        Real.cos ((at_ z i - at_ z j) * t)) / (z.length : ℝ) ^ 2 -
      2 / z.length * (∑ i ∈ Finset.range z.length, Real.cos (at_ z i * t) * g) + g ^ 2 := by
  have hsum : (z.map fun x : ℝ => Complex.exp (t * x * Complex.I)).sum =
      (((∑ i ∈ Finset.range z.length, Real.cos (at_ z i * t) : ℝ) : ℂ)) +
        ((∑ i ∈ Finset.range z.length, Real.sin (at_ z i * t) : ℝ) : ℂ) * Complex.I := by
    rw [← sum_at (fun x : ℝ => Complex.exp (t * x * Complex.I)) z]
    push_cast
    rw [Finset.sum_mul, ← Finset.sum_add_distrib]
    refine Finset.sum_congr rfl fun i _ => ?_
    rw [Complex.exp_mul_I, mul_comm (t : ℂ)]
  have hcc : ∑ i ∈ Finset.range z.length, ∑ j ∈ Finset.range z.length,
      Real.cos ((at_ z i - at_ z j) * t) =
      (∑ i ∈ Finset.range z.length, Real.cos (at_ z i * t)) ^ 2 +
      (∑ i ∈ Finset.range z.length, Real.sin (at_ z i * t)) ^ 2 := by
    rw [sq, sq, Finset.sum_mul_sum, Finset.sum_mul_sum, ← Finset.sum_add_distrib]
    refine Finset.sum_congr rfl fun i _ => ?_
    rw [← Finset.sum_add_distrib]
    refine Finset.sum_congr rfl fun j _ => ?_
    rw [sub_mul, Real.cos_sub]
  rw [hcc, ← Finset.sum_mul]
  unfold empiricalCharFun
  rw [hsum]
  generalize (∑ i ∈ Finset.range z.length, Real.cos (at_ z i * t)) = C
  generalize (∑ i ∈ Finset.range z.length, Real.sin (at_ z i * t)) = S
  generalize (z.length : ℕ) = n
  have : ((C : ℂ) + S * Complex.I) / n - (g : ℂ) = ((C / n - g : ℝ) : ℂ) + ((S / n : ℝ) : ℂ) * Complex.I := by
    push_cast; ring
  rw [this, ← Complex.normSq_eq_norm_sq, Complex.normSq_add_mul_I]
  ring

theorem integrable_cos_exp (a d : ℝ) (ha : 0 ≤ a) :
    Integrable (fun t : ℝ => Real.cos (d * t) * Real.exp (-(a * t ^ 2 / 2))) (gaussianReal 0 1) := by
  refine Integrable.of_bound (C := 1) (by fun_prop) (ae_of_all _ fun t => ?_)
  rw [Real.norm_eq_abs, abs_mul, Real.abs_exp]
  have h1 := Real.abs_cos_le_one (d * t)
  have h2 : Real.exp (-(a * t ^ 2 / 2)) ≤ 1 := Real.exp_le_one_iff.2 (by
    have : 0 ≤ a * t ^ 2 / 2 := by positivity
    linarith)
  exact mul_le_one₀ h1 (Real.exp_pos _).le h2

theorem charFunDistance_eq {z : List ℝ} (hz : z ≠ []) :
    charFunDistance z = (∑ i ∈ Finset.range z.length, ∑ j ∈ Finset.range z.length,
        Real.exp (-((at_ z i - at_ z j) ^ 2 / 2))) / z.length -
      √2 * (∑ i ∈ Finset.range z.length, Real.exp (-(at_ z i ^ 2 / 4))) + z.length / √3 := by
  have hn : (z.length : ℝ) ≠ 0 := by
    have := List.length_pos_iff.2 hz
    positivity
  have e : ∀ t : ℝ, ‖empiricalCharFun z t - charFun (gaussianReal 0 1) t‖ ^ 2 =
      (∑ i ∈ Finset.range z.length, ∑ j ∈ Finset.range z.length,
        Real.cos ((at_ z i - at_ z j) * t) * Real.exp (-(0 * t ^ 2 / 2))) / (z.length : ℝ) ^ 2 -
      2 / z.length * (∑ i ∈ Finset.range z.length, Real.cos (at_ z i * t) * Real.exp (-(1 * t ^ 2 / 2))) +
      Real.cos (0 * t) * Real.exp (-(2 * t ^ 2 / 2)) := by
    intro t
    rw [charFun_std, normSq_ecf]
    simp only [zero_mul, zero_div, neg_zero, Real.exp_zero, mul_one, one_mul, Real.cos_zero]
    rw [← Real.exp_nat_mul]
    congr 2
    push_cast; ring
  have i1 : Integrable (fun t : ℝ => ∑ i ∈ Finset.range z.length, ∑ j ∈ Finset.range z.length,
        Real.cos ((at_ z i - at_ z j) * t) * Real.exp (-(0 * t ^ 2 / 2))) (gaussianReal 0 1) :=
    integrable_finsetSum _ fun i _ => integrable_finsetSum _ fun j _ => integrable_cos_exp 0 _ le_rfl
  have i2 : Integrable (fun t : ℝ => ∑ i ∈ Finset.range z.length,
        Real.cos (at_ z i * t) * Real.exp (-(1 * t ^ 2 / 2))) (gaussianReal 0 1) :=
    integrable_finsetSum _ fun i _ => integrable_cos_exp 1 _ zero_le_one
  unfold charFunDistance
  simp only [e]
  rw [integral_add (by exact (i1.div_const _).sub (i2.const_mul _)) (integrable_cos_exp 2 0 zero_le_two),
    integral_sub (i1.div_const _) (i2.const_mul _), integral_div, integral_const_mul,
    integral_finsetSum _ fun i _ => integrable_finsetSum _ fun j _ => integrable_cos_exp 0 _ le_rfl,
    integral_finsetSum _ fun i _ => integrable_cos_exp 1 _ zero_le_one]
  simp only [integral_finsetSum _ fun j _ => integrable_cos_exp 0 _ le_rfl]
  simp only [integral_cos_exp 0 _ le_rfl, integral_cos_exp 1 _ zero_le_one, integral_cos_exp 2 0 zero_le_two]
  norm_num
  rw [← Finset.sum_div]
  have h2 : √(2 : ℝ) * √2 = 2 := Real.mul_self_sqrt (by norm_num)
  have p2 : √(2 : ℝ) ≠ 0 := by positivity
  have p3 : √(3 : ℝ) ≠ 0 := by positivity
  generalize (∑ i ∈ Finset.range z.length, Real.exp (-(at_ z i ^ 2 / 4))) = A
  have h2' : √(2 : ℝ) ^ 2 = 2 := Real.sq_sqrt (by norm_num)
  field_simp
  linear_combination (√3 * z.length * A) * h2'

theorem double_sum_symm (f : ℕ → ℕ → ℝ) (hs : ∀ i j, f i j = f j i) (hd : ∀ i, f i i = 1) : ∀ n : ℕ,
    ∑ i ∈ Finset.range n, ∑ j ∈ Finset.range n, f i j =
      n + 2 * ∑ k ∈ Finset.range n, ∑ j ∈ Finset.range k, f j k
  | 0 => by simp
  | n + 1 => by
    rw [Finset.sum_range_succ, Finset.sum_range_succ (fun k => ∑ j ∈ Finset.range k, f j k)]
    have e : ∀ i, ∑ j ∈ Finset.range (n + 1), f i j = (∑ j ∈ Finset.range n, f i j) + f i n :=
      fun i => Finset.sum_range_succ _ _
    simp only [e]
    rw [Finset.sum_add_distrib, double_sum_symm f hs hd n, hd, Finset.sum_congr rfl fun j _ => hs n j]
    push_cast
    ring

theorem charFunDistance_perm {z z' : List ℝ} (h : z.Perm z') : charFunDistance z = charFunDistance z' := by
  unfold charFunDistance empiricalCharFun
  simp only [h.length_eq, (h.map _).sum_eq]

theorem standardisedPop_perm {xs ys : List ℝ} (h : xs.Perm ys) :
    (standardisedPop xs).Perm (standardisedPop ys) := by
  unfold standardisedPop sampleMean
  rw [h.length_eq, h.sum_eq, (h.map _).sum_eq]
  exact h.map _

theorem eppsPulley_eq {xs : List ℝ} (hne : xs ≠ []) :
    Normal.eppsPulley xs = charFunDistance (standardisedPop xs) := by
  rw [charFunDistance_perm (standardisedPop_perm (sort_perm xs).symm)]
  have hs : sort xs ≠ [] := sort_ne_nil hne
  have hl : xs.length = (sort xs).length := (length_sort xs).symm
  unfold Normal.eppsPulley
  simp only [hl]
  generalize hx : sort xs = x at *
  have hn : (x.length : ℝ) ≠ 0 := by
    have := List.length_pos_iff.2 hs
    positivity
  have hz : standardisedPop x = x.map fun v => (v - mean x) / √(variance x) := rfl
  have hzl : (standardisedPop x).length = x.length := by rw [hz, List.length_map]
  have hat : ∀ i ∈ Finset.range x.length, at_ (standardisedPop x) i = (at_ x i - mean x) / √(variance x) := by
    intro i hi
    have hi := Finset.mem_range.1 hi
    rw [hz]
    unfold at_
    rw [List.getD_eq_getElem _ _ (by simpa using hi), List.getD_eq_getElem _ _ hi, List.getElem_map]
  have hv : 0 ≤ variance x := by
    unfold Graph.variance
    refine div_nonneg (List.sum_nonneg ?_) (Nat.cast_nonneg _)
    intro y hy
    obtain ⟨w, _, rfl⟩ := List.mem_map.1 hy
    positivity
  rw [charFunDistance_eq (by intro h; rw [h] at hzl; exact hs (List.length_eq_zero_iff.1 hzl.symm)), hzl]
  have e1 : ∑ i ∈ Finset.range x.length, Real.exp (-(at_ (standardisedPop x) i ^ 2 / 4)) =
      (x.map fun v => Real.exp (-(v - mean x) ^ 2 / (4 * variance x))).sum := by
    rw [← sum_at]
    refine Finset.sum_congr rfl fun i hi => ?_
    rw [hat i hi, div_pow, Real.sq_sqrt hv]
    congr 1
    rw [div_div, neg_div, mul_comm (variance x)]
  have e2 : ∑ i ∈ Finset.range x.length, ∑ j ∈ Finset.range x.length,
        Real.exp (-((at_ (standardisedPop x) i - at_ (standardisedPop x) j) ^ 2 / 2)) =
      ∑ i ∈ Finset.range x.length, ∑ j ∈ Finset.range x.length,
        Real.exp (-(at_ x i - at_ x j) ^ 2 / (2 * variance x)) := by
    refine Finset.sum_congr rfl fun i hi => Finset.sum_congr rfl fun j hj => ?_
    rw [hat i hi, hat j hj, ← sub_div, div_pow, Real.sq_sqrt hv, sub_sub_sub_cancel_right]
    congr 1
    rw [div_div, neg_div, mul_comm (variance x)]
  rw [e1, e2, double_sum_symm (fun i j => Real.exp (-(at_ x i - at_ x j) ^ 2 / (2 * variance x)))
    (fun i j => by rw [← neg_sub (at_ x j), neg_sq]) (fun i => by simp)]
  field_simp
  ring

/-- **C103**: for every sample whose values are not all equal, the Epps-Pulley statistic is the
weighted squared distance between the empirical characteristic function of the standardised sample
and the characteristic function of the standard normal law, times the sample size. -/
theorem C103_eppsPulley (lib : NormLib) {xs : List ℝ} (h : ∃ x ∈ xs, ∃ y ∈ xs, x ≠ y) :
    NormStat.value lib .eppsPulley xs = .ok (some (charFunDistance (standardisedPop xs))) := by
  obtain ⟨x, hx, -⟩ := h
  simp only [NormStat.value, eppsPulley_eq (List.ne_nil_of_mem hx)]

theorem norm_empiricalCharFun_le (z : List ℝ) (t : ℝ) : ‖empiricalCharFun z t‖ ≤ 1 := by
  unfold empiricalCharFun
  rw [norm_div, Complex.norm_natCast]
  refine div_le_one_of_le₀ ?_ (Nat.cast_nonneg _)
  induction z with
  | nil => simp
  | cons a l ih =>
    rw [List.map_cons, List.sum_cons, List.length_cons]
    refine (norm_add_le _ _).trans ?_
    have : ‖Complex.exp (t * a * Complex.I)‖ = 1 := by
      rw [← Complex.ofReal_mul, Complex.norm_exp_ofReal_mul_I]
    rw [this]
    push_cast
    linarith

/-- **C103**, range: the statistic is not negative and at most four times the sample size. -/
theorem C103_range (lib : NormLib) {xs : List ℝ} (h : ∃ x ∈ xs, ∃ y ∈ xs, x ≠ y) :
    ∃ v, NormStat.value lib .eppsPulley xs = .ok (some v) ∧ 0 ≤ v ∧ v ≤ 4 * xs.length := by
  refine ⟨_, C103_eppsPulley lib h, ?_, ?_⟩
  · exact mul_nonneg (Nat.cast_nonneg _) (integral_nonneg fun t => by positivity)
  · have hl : (standardisedPop xs).length = xs.length := by simp [standardisedPop]
    unfold charFunDistance
    rw [hl, mul_comm]
    refine mul_le_mul_of_nonneg_right ?_ (Nat.cast_nonneg _)
    have : ∫ t, ‖empiricalCharFun (standardisedPop xs) t - charFun (gaussianReal 0 1) t‖ ^ 2
        ∂gaussianReal 0 1 ≤ ∫ _, (4 : ℝ) ∂gaussianReal 0 1 := by
      refine integral_mono_of_nonneg (ae_of_all _ fun t => by positivity) (integrable_const _)
        (ae_of_all _ fun t => ?_)
      have h1 := norm_sub_le (empiricalCharFun (standardisedPop xs) t) (charFun (gaussianReal 0 1) t)
      have h2 := norm_empiricalCharFun_le (standardisedPop xs) t
      have h3 := norm_charFun_le_one (μ := gaussianReal 0 1) t
      have h4 := norm_nonneg (empiricalCharFun (standardisedPop xs) t - charFun (gaussianReal 0 1) t)
      show ‖_‖ ^ 2 ≤ (4 : ℝ)
      nlinarith
    simpa using this

/-- Non-vacuity. -/
example : ∃ x ∈ ([1, 2, 4] : List ℝ), ∃ y ∈ ([1, 2, 4] : List ℝ), x ≠ y :=
  ⟨1, by simp, 2, by simp, by norm_num⟩

end Pysatl.Props
