import Verif.Props.ConsistencyNormalRefuted
import Verif.Props.EppsPulley
import Mathlib.MeasureTheory.Measure.CharacteristicFunction.TaylorExpansion

/-! # C137: the Epps-Pulley criterion of normality detects every law with a finite variance that is not normal -/

namespace Pysatl.Props

open Pysatl.Decision Pysatl.Resolver Pysatl.Spec Pysatl.Edf Pysatl.Graph Pysatl.Gen Pysatl.Normal Pysatl.Exponent
open MeasureTheory ProbabilityTheory Filter Topology

/-! ### Empirical characteristic functions -/

theorem ecf_parts (xs : List ℝ) (t : ℝ) : empiricalCharFun xs t =
    ((∫ x, Real.cos (t * x) ∂empiricalLaw xs : ℝ) : ℂ) + ((∫ x, Real.sin (t * x) ∂empiricalLaw xs : ℝ) : ℂ) * Complex.I := by
  rw [integral_empirical, integral_empirical, empiricalCharFun]
  push_cast
  rw [div_mul_eq_mul_div, ← add_div]
  congr 1
  induction xs with
  | nil => simp
  | cons a l ih =>
    simp only [List.map_cons, List.sum_cons, ih]
    rw [Complex.exp_mul_I, ← Complex.ofReal_mul]
    push_cast
    ring

theorem charFun_parts (μ : Measure ℝ) [IsProbabilityMeasure μ] (t : ℝ) : charFun μ t =
    ((∫ x, Real.cos (t * x) ∂μ : ℝ) : ℂ) + ((∫ x, Real.sin (t * x) ∂μ : ℝ) : ℂ) * Complex.I := by
  have hc : Integrable (fun x => Real.cos (t * x)) μ :=
    Integrable.of_bound (C := 1) (by fun_prop) (ae_of_all _ fun x => Real.abs_cos_le_one _)
  have hs : Integrable (fun x => Real.sin (t * x)) μ :=
    Integrable.of_bound (C := 1) (by fun_prop) (ae_of_all _ fun x => Real.abs_sin_le_one _)
  rw [charFun_apply_real, ← integral_complex_ofReal, ← integral_complex_ofReal, ← integral_mul_const,
    ← integral_add hc.ofReal (hs.ofReal.mul_const _)]
  refine integral_congr_ae (ae_of_all _ fun x => ?_)
  show Complex.exp (t * x * Complex.I) = _
  rw [Complex.exp_mul_I, ← Complex.ofReal_mul]
  push_cast
  rfl

/-- Along almost every sequence the empirical characteristic function tends to that of the law at all rational points. -/
theorem empirical_charFun {μ : Measure ℝ} [IsProbabilityMeasure μ] :
    ∀ᵐ ω ∂seqLaw μ, ∀ q : ℚ, Tendsto (fun n => empiricalCharFun (List.ofFn (firsts n ω)) q) atTop (𝓝 (charFun μ q)) := by
  refine ae_all_iff.2 fun q => ?_
  have hc : Integrable (fun x : ℝ => Real.cos (q * x)) μ :=
    Integrable.of_bound (C := 1) (by fun_prop) (ae_of_all _ fun x => Real.abs_cos_le_one _)
  have hs : Integrable (fun x : ℝ => Real.sin (q * x)) μ :=
    Integrable.of_bound (C := 1) (by fun_prop) (ae_of_all _ fun x => Real.abs_sin_le_one _)
  filter_upwards [settles_integral (by fun_prop) hc, settles_integral (by fun_prop) hs] with ω a b
  rw [charFun_parts]
  simp only [ecf_parts]
  exact ((Complex.continuous_ofReal.tendsto _).comp a).add (((Complex.continuous_ofReal.tendsto _).comp b).mul_const _)

theorem ecf_lipschitz (xs : List ℝ) (u v : ℝ) :
    ‖empiricalCharFun xs u - empiricalCharFun xs v‖ ≤ |u - v| * ∫ x, |x| ∂empiricalLaw xs := by
  rw [integral_empirical, empiricalCharFun, empiricalCharFun, ← sub_div, norm_div, Complex.norm_natCast, ← mul_div_assoc]
  refine div_le_div_of_nonneg_right ?_ (Nat.cast_nonneg _)
  induction xs with
  | nil => simp
  | cons a l ih =>
    simp only [List.map_cons, List.sum_cons]
    have h : ‖Complex.exp (u * a * Complex.I) - Complex.exp (v * a * Complex.I)‖ ≤ |u - v| * |a| := by
      have e : Complex.exp (u * a * Complex.I) - Complex.exp (v * a * Complex.I) =
          Complex.exp (((v * a : ℝ) : ℂ) * Complex.I) * (Complex.exp (Complex.I * (((u - v) * a : ℝ) : ℂ)) - 1) := by
        rw [mul_sub, mul_one, ← Complex.exp_add]
        push_cast
        ring_nf
      rw [e, norm_mul, Complex.norm_exp_ofReal_mul_I, one_mul]
      refine Real.norm_exp_I_mul_ofReal_sub_one_le.trans ?_
      rw [Real.norm_eq_abs, abs_mul]
    calc _ = ‖(Complex.exp (u * a * Complex.I) - Complex.exp (v * a * Complex.I)) +
          ((l.map fun x : ℝ => Complex.exp (u * x * Complex.I)).sum -
            (l.map fun x : ℝ => Complex.exp (v * x * Complex.I)).sum)‖ := by congr 1; ring
      _ ≤ _ := (norm_add_le _ _).trans (by rw [mul_add]; exact add_le_add h ih)

/-- ... and at points that tend to any point. -/
theorem empirical_charFun_at {μ : Measure ℝ} [IsProbabilityMeasure μ] {ω : ℕ → ℝ}
    (hω : ∀ q : ℚ, Tendsto (fun n => empiricalCharFun (List.ofFn (firsts n ω)) q) atTop (𝓝 (charFun μ q))) {A : ℝ}
    (hA : Tendsto (fun n => ∫ x, |x| ∂empiricalLaw (List.ofFn (firsts n ω))) atTop (𝓝 A)) {y : ℕ → ℝ} {l : ℝ}
    (hy : Tendsto y atTop (𝓝 l)) :
    Tendsto (fun n => empiricalCharFun (List.ofFn (firsts n ω)) (y n)) atTop (𝓝 (charFun μ l)) := by
  rw [Metric.tendsto_nhds]
  intro ε hε
  have hA0 : 0 ≤ A := ge_of_tendsto hA (.of_forall fun n => integral_nonneg fun x => abs_nonneg x)
  have hB : 0 < A + 1 := by linarith
  obtain ⟨δ, hδ, hcd⟩ := Metric.continuousAt_iff.1 ((continuous_charFun (μ := μ)).continuousAt (x := l)) (ε / 4) (by linarith)
  have hρ : 0 < min δ (ε / (8 * (A + 1))) := by positivity
  obtain ⟨q, hq1, hq2⟩ := exists_rat_btwn (show l < l + min δ (ε / (8 * (A + 1))) by linarith)
  have hm1 := min_le_left δ (ε / (8 * (A + 1)))
  have hm2 := min_le_right δ (ε / (8 * (A + 1)))
  have e1 := hcd (x := (q : ℝ)) (by rw [Real.dist_eq, abs_lt]; constructor <;> linarith)
  have e2 : |l - q| ≤ ε / (8 * (A + 1)) := by rw [abs_le]; constructor <;> linarith
  have t1 := Metric.tendsto_nhds.1 (hω q) (ε / 4) (by linarith)
  have t2 := Metric.tendsto_nhds.1 hy (ε / (8 * (A + 1))) (by positivity)
  filter_upwards [t1, t2, hA.eventually (gt_mem_nhds (show A < A + 1 by linarith))] with n n1 n2 n3
  have h3 := ecf_lipschitz (List.ofFn (firsts n ω)) (y n) q
  have h4 : |y n - q| ≤ ε / (4 * (A + 1)) := by
    rw [Real.dist_eq] at n2
    calc |y n - q| = |(y n - l) + (l - q)| := by congr 1; ring
      _ ≤ ε / (8 * (A + 1)) + ε / (8 * (A + 1)) := (abs_add_le _ _).trans (add_le_add n2.le e2)
      _ = _ := by field_simp; ring
  have h5 : |y n - q| * ∫ x, |x| ∂empiricalLaw (List.ofFn (firsts n ω)) ≤ ε / 4 := by
    calc _ ≤ ε / (4 * (A + 1)) * (A + 1) :=
          mul_le_mul h4 n3.le (integral_nonneg fun x => abs_nonneg x) (by positivity)
      _ = ε / 4 := by field_simp
  rw [← dist_eq_norm] at h3
  have := dist_triangle4 (empiricalCharFun (List.ofFn (firsts n ω)) (y n)) (empiricalCharFun (List.ofFn (firsts n ω)) q)
    (charFun μ q) (charFun μ l)
  linarith

/-! ### Standardised laws -/

/-- The law of `(X - E X) / σ`. -/
noncomputable def standardisedLaw (μ : Measure ℝ) : Measure ℝ := μ.map fun x => (x - lawMean μ) / √(lawVariance μ)

theorem standardisedLaw_charFun (μ : Measure ℝ) (t : ℝ) : charFun (standardisedLaw μ) t =
    Complex.exp (-(t / √(lawVariance μ) * lawMean μ) * Complex.I) * charFun μ (t / √(lawVariance μ)) := by
  rw [charFun_apply_real, charFun_apply_real, standardisedLaw, integral_map (by fun_prop) (by fun_prop), ← integral_const_mul]
  refine integral_congr_ae (ae_of_all _ fun x => ?_)
  show Complex.exp _ = Complex.exp _ * Complex.exp _
  rw [← Complex.exp_add]
  congr 1
  push_cast
  ring

theorem standardisedPop_charFun (xs : List ℝ) (t : ℝ) : empiricalCharFun (standardisedPop xs) t =
    Complex.exp (-(t / stdDev xs * mean xs) * Complex.I) * empiricalCharFun xs (t / stdDev xs) := by
  have es : √((xs.map fun y => (y - sampleMean xs) ^ 2).sum / xs.length) = stdDev xs := by
    rw [stdDev, Spec.centralMoment, meanOf, meanOf, sampleMean, List.map_id]
  have em : sampleMean xs = mean xs := rfl
  rw [standardisedPop, es, em]
  clear es em
  generalize stdDev xs = s
  generalize mean xs = M
  rw [empiricalCharFun, empiricalCharFun, List.map_map, List.length_map, ← mul_div_assoc]
  congr 1
  induction xs with
  | nil => simp
  | cons a l ih =>
    simp only [List.map_cons, List.sum_cons, ih, mul_add]
    congr 1
    rw [← Complex.exp_add, Function.comp]
    congr 1
    push_cast
    ring

theorem standardisedLaw_normal {μ : Measure ℝ} (hv : 0 < lawVariance μ) (h : standardisedLaw μ = gaussianReal 0 1) :
    μ = gaussianReal (lawMean μ) (lawVariance μ).toNNReal := by
  have hs := Real.sqrt_pos.2 hv
  have e : (standardisedLaw μ).map (fun x => √(lawVariance μ) * x + lawMean μ) = μ := by
    rw [standardisedLaw, Measure.map_map (by fun_prop) (by fun_prop)]
    conv_rhs => rw [← Measure.map_id (μ := μ)]
    congr 1
    funext x
    simp only [Function.comp, id]
    field_simp
    ring
  rw [h] at e
  have e2 : (fun x => √(lawVariance μ) * x + lawMean μ) = (fun x => x + lawMean μ) ∘ fun x => √(lawVariance μ) * x := rfl
  rw [e2, ← Measure.map_map (by fun_prop) (by fun_prop), gaussianReal_map_const_mul, gaussianReal_map_add_const, mul_zero,
    zero_add, mul_one] at e
  refine e.symm.trans ?_
  congr 1
  ext
  simp [Real.sq_sqrt hv.le, Real.coe_toNNReal _ hv.le]

theorem standardisedLaw_gaussian (m : ℝ) {v : ℝ} (hv : 0 < v) :
    standardisedLaw (gaussianReal m v.toNNReal) = gaussianReal 0 1 := by
  have hs := Real.sqrt_pos.2 hv
  rw [standardisedLaw, lawMean_gaussian, lawVariance_gaussian, Real.coe_toNNReal _ hv.le]
  have e : (fun x => (x - m) / √v) = (fun x => x / √v) ∘ fun x => x - m := rfl
  rw [e, ← Measure.map_map (by fun_prop) (by fun_prop), gaussianReal_map_sub_const, gaussianReal_map_div_const, sub_self,
    zero_div]
  congr 1
  ext
  simp [Real.sq_sqrt hv.le, Real.coe_toNNReal _ hv.le, hv.ne']

/-- The weighted distance of characteristic functions. -/
noncomputable def eppsPulleyLimit (μ : Measure ℝ) : ℝ :=
  ∫ t, ‖charFun (standardisedLaw μ) t - charFun (gaussianReal 0 1) t‖ ^ 2 ∂gaussianReal 0 1

theorem norm_sub_sq_le {a b : ℂ} (ha : ‖a‖ ≤ 1) (hb : ‖b‖ ≤ 1) : ‖a - b‖ ^ 2 ≤ 4 := by
  have := (norm_sub_le a b).trans (add_le_add ha hb)
  nlinarith [norm_nonneg (a - b)]

theorem eppsPulleyLimit_pos {μ : Measure ℝ} [IsProbabilityMeasure μ] (hv : 0 < lawVariance μ)
    (h : ∀ m v, μ ≠ gaussianReal m v) : 0 < eppsPulleyLimit μ := by
  have hpr : IsProbabilityMeasure (standardisedLaw μ) := Measure.isProbabilityMeasure_map (by fun_prop)
  have hc : Continuous fun t => ‖charFun (standardisedLaw μ) t - charFun (gaussianReal 0 1) t‖ ^ 2 :=
    ((continuous_charFun.sub continuous_charFun).norm.pow 2)
  have hi : Integrable (fun t => ‖charFun (standardisedLaw μ) t - charFun (gaussianReal 0 1) t‖ ^ 2) (gaussianReal 0 1) :=
    Integrable.of_bound (C := 4) hc.aestronglyMeasurable (ae_of_all _ fun t => by
      rw [Real.norm_of_nonneg (by positivity)]
      exact norm_sub_sq_le (norm_charFun_le_one t) (norm_charFun_le_one t))
  refine lt_of_le_of_ne (integral_nonneg fun t => by positivity) fun h0 => ?_
  have h1 := (integral_eq_zero_iff_of_nonneg (fun t => by positivity) hi).1 h0.symm
  have h2 := (gaussianReal_absolutelyContinuous' 0 one_ne_zero).ae_eq h1
  have h3 := (hc.ae_eq_iff_eq volume continuous_zero).1 h2
  refine h _ _ (standardisedLaw_normal hv (Measure.ext_of_charFun (funext fun t => ?_)))
  have := congrFun h3 t
  simpa [sub_eq_zero] using this

variable (code : String) (params : Option (List (String × ℝ)))

theorem eppsPulley_settles {μ : Measure ℝ} [IsProbabilityMeasure μ] (h2 : Integrable (fun x => |x| ^ 2) μ)
    (hv : 0 < lawVariance μ) : ValueSettles (NormStat.eppsPulley.statistic scipyNorm code params) (fun n x => n * x) μ
      (eppsPulleyLimit μ) := by
  have hi : Integrable (fun x => x) μ := by simpa using integrable_power h2 (j := 1) (by norm_num) 0
  have hs := Real.sqrt_pos.2 hv
  filter_upwards [settles_stdDev h2, settles_sampleMean h2, eventually_varies h2 hv, empirical_charFun (μ := μ),
    settles_integral (f := fun x => |x|) (by fun_prop) hi.abs] with ω a b c d e
  refine ⟨fun n => ∫ t, ‖empiricalCharFun (standardisedPop (List.ofFn (firsts n ω))) t - charFun (gaussianReal 0 1) t‖ ^ 2
    ∂gaussianReal 0 1, ?_, ?_⟩
  · refine tendsto_integral_of_dominated_convergence (fun _ => 4) (fun n => ?_) (integrable_const _) (fun n => ?_) ?_
    · refine Continuous.aestronglyMeasurable ?_
      have : Continuous fun t : ℝ => empiricalCharFun (standardisedPop (List.ofFn (firsts n ω))) t := by
        unfold empiricalCharFun
        refine Continuous.div_const ?_ _
        generalize standardisedPop (List.ofFn (firsts n ω)) = z
        induction z with
        | nil => simpa using continuous_const
        | cons x z ih =>
          simp only [List.map_cons, List.sum_cons]
          exact Continuous.add (by fun_prop) ih
      exact (this.sub continuous_charFun).norm.pow 2
    · refine ae_of_all _ fun t => ?_
      rw [Real.norm_of_nonneg (by positivity)]
      exact norm_sub_sq_le (norm_empiricalCharFun_le _ t) (norm_charFun_le_one t)
    · refine ae_of_all _ fun t => ?_
      have hy : Tendsto (fun n => t / stdDev (List.ofFn (firsts n ω))) atTop (𝓝 (t / √(lawVariance μ))) :=
        tendsto_const_nhds.div a hs.ne'
      have h1 := empirical_charFun_at d e hy
      have h3 : Tendsto (fun n => Complex.exp (-(t / stdDev (List.ofFn (firsts n ω)) * mean (List.ofFn (firsts n ω)) : ℝ) *
          Complex.I)) atTop (𝓝 (Complex.exp (-(t / √(lawVariance μ) * lawMean μ : ℝ) * Complex.I))) :=
        ((Complex.continuous_exp.comp (by fun_prop : Continuous fun x : ℝ => -(x : ℂ) * Complex.I)).tendsto _).comp (hy.mul b)
      have h4 := ((h3.mul h1).sub_const (charFun (gaussianReal 0 1) t)).norm.pow 2
      convert h4 using 3
      · rw [standardisedPop_charFun]
        push_cast
        rfl
      · rw [standardisedLaw_charFun]
        push_cast
        rfl
  · filter_upwards [c] with n hn
    rw [normal_value (C103_eppsPulley scipyNorm hn), charFunDistance, standardisedPop, List.length_map, List.length_ofFn]

variable (classes : List GeneratorClass) (hp : classes.Perm generatorClasses) (m : ℝ) {v : ℝ} (hv : 0 < v)

include hp hv in
/-- **C137, Epps-Pulley**: every law with a finite variance that is not a normal law (nor a constant) is rejected in the long
run. -/
theorem C137_eppsPulley : ∃ G, (Gen.Family.normal m v).simulator classes = .ok G ∧
    (∀ n, G.generate n = .ok (iid n (gaussianReal m v.toNNReal))) ∧
    ∀ Q : Measure ℝ, IsProbabilityMeasure Q → Integrable (fun x => |x| ^ 2) Q → (∀ m' v', Q ≠ gaussianReal m' v') →
      Consistent (NormStat.eppsPulley.statistic scipyNorm code params) Q (gaussianReal m v.toNNReal) := by
  refine with_normal hp m hv fun Q _ h2 hQ => ?_
  have hV := (lawVariance_pos h2).2 fun c hc => hQ c 0 (by rw [hc, gaussianReal_zero_var])
  have hg := eppsPulley_settles code params (gaussian_moment_finite m v.toNNReal 2) (gaussian_variance_pos m hv)
  have e : eppsPulleyLimit (gaussianReal m v.toNNReal) = 0 := by
    rw [eppsPulleyLimit, standardisedLaw_gaussian m hv]
    simp
  rw [e] at hg
  exact value_consistent (normal_meas _ code params) mul_strictMono (eppsPulley_settles code params h2 hV) hg
    (Or.inl ⟨(fun h => by cases h), eppsPulleyLimit_pos hV hQ⟩)

example : Consistent (NormStat.eppsPulley.statistic scipyNorm "EP" none) (uniformLaw 0 1)
    (gaussianReal 2 (Real.toNNReal 5)) := by
  obtain ⟨_, _, _, h⟩ := C137_eppsPulley "EP" none _ (List.Perm.refl _) 2 (v := 5) (by norm_num)
  exact h _ (cdf_uniformLaw one_pos).1 (uniform_moment 2) (uniform_not_normal one_pos)

end Pysatl.Props
