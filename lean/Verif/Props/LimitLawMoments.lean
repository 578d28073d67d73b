import Verif.Props.LimitLawNormal

/-! # C138: criteria built on the skewness and the kurtosis, for large samples -/

namespace Pysatl.Props

open Pysatl.Decision Pysatl.Resolver Pysatl.Spec Pysatl.Edf Pysatl.Graph Pysatl.Gen Pysatl.Normal Pysatl.Exponent
open MeasureTheory ProbabilityTheory Filter Topology

/-! ### Smooth functions of small values -/

theorem measurable_dslope {f : ℝ → ℝ} (hf : Measurable f) : Measurable (dslope f 0) := by
  have e : dslope f 0 = fun x => if x = 0 then deriv f 0 else (f x - f 0) / x := by
    funext x
    split_ifs with h
    · rw [h, dslope_same]
    · rw [dslope_of_ne _ h, slope_def_field, sub_zero]
  rw [e]
  exact Measurable.ite (measurableSet_eq_fun measurable_id measurable_const) measurable_const
    ((hf.sub_const _).div measurable_id)

theorem eq_dslope (f : ℝ → ℝ) (x : ℝ) : f x = f 0 + x * dslope f 0 x := by
  have := sub_smul_dslope f 0 x
  rw [sub_zero, smul_eq_mul] at this
  linarith

/-- The difference quotient of a function at values that tend to zero. -/
theorem near_dslope {μ : Measure ℝ} [IsProbabilityMeasure μ] {f : ℝ → ℝ} (hf : Measurable f)
    (hd : DifferentiableAt ℝ f 0) {b : ℕ → (ℕ → ℝ) → ℝ} (hb : ∀ n, Measurable (b n))
    (h0 : ∀ᵐ ω ∂seqLaw μ, Tendsto (fun n => b n ω) atTop (𝓝 0)) :
    Near μ (fun n ω => dslope f 0 (b n ω)) (fun _ _ => deriv f 0) := by
  refine Near.of_ae (fun n => (measurable_dslope hf).comp (hb n)) ?_
  filter_upwards [h0] with ω h
  have hc : ContinuousAt (dslope f 0) 0 := continuousAt_dslope_same.2 hd
  have := hc.tendsto.comp h
  rwa [dslope_same] at this

section
variable (code : String) (params : Option (List (String × ℝ))) (m : ℝ) {v : ℝ} (hv : 0 < v)

/-! ### The skewness after D'Agostino's transform -/

/-- The skewness, in terms of averages. -/
noncomputable def skewAvg (m v : ℝ) (n : ℕ) (ω : ℕ → ℝ) : ℝ :=
  (zavg m v 3 n ω - 3 * zavg m v 1 n ω * zavg m v 2 n ω + 2 * zavg m v 1 n ω ^ 3) * (√(zvar m v n ω) ^ 3)⁻¹

theorem measurable_skewAvg (v : ℝ) (n : ℕ) : Measurable (skewAvg m v n) := by
  have h1 := measurable_zavg m v 1 n
  have h2 := measurable_zavg m v 2 n
  have h3 := measurable_zavg m v 3 n
  exact ((h3.sub ((h1.const_mul 3).mul h2)).add ((h1.pow_const 3).const_mul 2)).mul
    (((measurable_zvar m v n).sqrt.pow_const 3).inv)

include hv in
theorem skewAvg_settles : ∀ᵐ ω ∂seqLaw (gaussianReal m v.toNNReal),
    Tendsto (fun n => skewAvg m v n ω) atTop (𝓝 0) := by
  filter_upwards [settles_skewness (third_of_fourth (gaussian_moment_finite m v.toNNReal 4)) (gaussian_variance_pos m hv)]
    with ω a
  rw [gaussian_skewness m (toNNReal_ne hv)] at a
  refine a.congr' ?_
  filter_upwards [eventually_gt_atTop 0] with n hn
  exact skewness_zavg m hv hn ω

/-- A polynomial of the standardised values divided by a number. -/
theorem rootAvg_scale (f : ℝ → ℝ) (c : ℝ) (n : ℕ) (ω : ℕ → ℝ) :
    rootAvg (fun x => f x / c) n ω = rootAvg f n ω * c⁻¹ := by
  simp only [rootAvg, avg, ← Finset.sum_div]
  ring

include hv in
theorem near_skewAvg : Near (gaussianReal m v.toNNReal) (fun n ω => √(n : ℝ) * skewAvg m v n ω)
    (rootAvg fun x => he3 (zval m v x)) :=
  (near_skewness m hv).congr (ae_of_all _ fun ω => by
    filter_upwards [eventually_gt_atTop 0] with n hn
    rw [skewness_zavg m hv hn]
    rfl)

include hv in
/-- The transformed skewness of a normal sample is close to an average. -/
theorem near_dagostinoSkew : Near (gaussianReal m v.toNNReal) (fun n ω => dagostinoSkew n (skewAvg m v n ω))
    (rootAvg fun x => he3 (zval m v x) / √6) := by
  obtain ⟨p, q, hp, hq, h⟩ := dagostinoSkew_form
  have ht := tight_zval m hv measurable_he3 memLp_he3 hermite_integrals.1
  have hd := near_dslope (μ := gaussianReal m v.toNNReal) (f := Real.arsinh) Real.continuous_arsinh.measurable
    Real.differentiable_arsinh.differentiableAt (b := fun n ω => skewAvg m v n ω * p n)
    (fun n => (measurable_skewAvg m v n).mul_const _) (by
      filter_upwards [skewAvg_settles m hv] with ω a
      simpa using a.mul hp)
  have hr : Near (gaussianReal m v.toNNReal) (fun n _ => p n / q n) (fun _ _ => √(3 / 2) / 3) :=
    Near.of_seq (hp.div hq (by norm_num))
  have h1 := ((near_skewAvg m hv).mul hd ht (Tight.const _)).mul hr (ht.mul (Tight.const _)) (Tight.const _)
  refine (h1.of_eq fun n ω => ?_).congr (ae_of_all _ fun ω => ?_)
  · rw [rootAvg_scale, mul_assoc]
    congr 1
    have e : deriv Real.arsinh 0 = 1 := by
      rw [(Real.hasDerivAt_arsinh 0).deriv]
      simp
    rw [e, one_mul, show (3 : ℝ) / 2 = 9 / 6 by norm_num, Real.sqrt_div (by norm_num),
      show (9 : ℝ) = 3 ^ 2 by norm_num, Real.sqrt_sq (by norm_num)]
    have : √(6 : ℝ) ≠ 0 := (Real.sqrt_pos.2 (by norm_num)).ne'
    field_simp
  · filter_upwards [h, eventually_gt_atTop 0] with n hn h0
    have hn0 : √(n : ℝ) ≠ 0 := (Real.sqrt_pos.2 (by exact_mod_cast h0)).ne'
    have := hn (skewAvg m v n ω)
    rw [div_eq_iff hn0] at this
    rw [this, eq_dslope Real.arsinh, Real.arsinh_zero, zero_add]
    ring

theorem integrals_z (hv : 0 < v) : (∫ x, he3 (zval m v x) / √6 ∂gaussianReal m v.toNNReal = 0) ∧
    (∫ x, he4 (zval m v x) / √24 ∂gaussianReal m v.toNNReal = 0) ∧
    (∫ x, (he3 (zval m v x) / √6) ^ 2 ∂gaussianReal m v.toNNReal = 1) ∧
    (∫ x, (he4 (zval m v x) / √24) ^ 2 ∂gaussianReal m v.toNNReal = 1) ∧
    ∫ x, he3 (zval m v x) / √6 * (he4 (zval m v x) / √24) ∂gaussianReal m v.toNNReal = 0 := by
  obtain ⟨h3, h4, h33, h44, h34⟩ := hermite_integrals
  have m3 := measurable_he3
  have m4 := measurable_he4
  refine ⟨?_, ?_, ?_, ?_, ?_⟩
  · rw [integral_zval m hv (f := fun x => he3 x / √6) (by fun_prop), integral_div, h3, zero_div]
  · rw [integral_zval m hv (f := fun x => he4 x / √24) (by fun_prop), integral_div, h4, zero_div]
  · rw [integral_zval m hv (f := fun x => (he3 x / √6) ^ 2) (by fun_prop)]
    simp only [div_pow]
    rw [integral_div, h33, Real.sq_sqrt (by norm_num)]
    norm_num
  · rw [integral_zval m hv (f := fun x => (he4 x / √24) ^ 2) (by fun_prop)]
    simp only [div_pow]
    rw [integral_div, h44, Real.sq_sqrt (by norm_num)]
    norm_num
  · rw [integral_zval m hv (f := fun x => he3 x / √6 * (he4 x / √24)) (by fun_prop)]
    simp only [div_mul_div_comm]
    rw [integral_div, h34, zero_div]

theorem memLp_z3 (hv : 0 < v) : MemLp (fun x => he3 (zval m v x) / √6) 2 (gaussianReal m v.toNNReal) := by
  have := (memLp_zval m hv memLp_he3).const_mul (√6)⁻¹
  simpa only [div_eq_inv_mul] using this

theorem memLp_z4 (hv : 0 < v) : MemLp (fun x => he4 (zval m v x) / √24) 2 (gaussianReal m v.toNNReal) := by
  have := (memLp_zval m hv memLp_he4).const_mul (√24)⁻¹
  simpa only [div_eq_inv_mul] using this

theorem measurable_z3 (v : ℝ) : Measurable fun x => he3 (zval m v x) / √6 :=
  (measurable_he3.comp (measurable_zval m v)).div_const _

theorem measurable_z4 (v : ℝ) : Measurable fun x => he4 (zval m v x) / √24 :=
  (measurable_he4.comp (measurable_zval m v)).div_const _

theorem gaussian_point (t : ℝ) : gaussianReal 0 1 {t} = 0 := by
  have := nullSingletonClass_gaussianReal (μ := 0) (v := 1) one_ne_zero
  exact measure_singleton t

include hv in
theorem clt_z3 : TendstoInDistribution (rootAvg fun x => he3 (zval m v x) / √6) atTop (id : ℝ → ℝ)
    (fun _ => seqLaw (gaussianReal m v.toNNReal)) (gaussianReal 0 1) := by
  have := clt_rootAvg (measurable_z3 m v) (memLp_z3 m hv) (integrals_z m hv).1
  rwa [(integrals_z m hv).2.2.1, Real.toNNReal_one] at this

include hv in
theorem clt_z4 : TendstoInDistribution (rootAvg fun x => he4 (zval m v x) / √24) atTop (id : ℝ → ℝ)
    (fun _ => seqLaw (gaussianReal m v.toNNReal)) (gaussianReal 0 1) := by
  have := clt_rootAvg (measurable_z4 m v) (memLp_z4 m hv) (integrals_z m hv).2.1
  rwa [(integrals_z m hv).2.2.2.1, Real.toNNReal_one] at this

/-- A skewness of exactly zero, which the code replaces, has a vanishing probability. -/
theorem small_zero_skew (hv : 0 < v) (g : ℕ → ℝ) :
    Small (gaussianReal m v.toNNReal) (fun n ω => if skewAvg m v n ω = 0 then g n else 0) := by
  have hN := (near_skewAvg m hv).mul (Near.refl fun _ _ => (√6)⁻¹)
    (tight_zval m hv measurable_he3 memLp_he3 hermite_integrals.1) (Tight.const _)
  have hm : ∀ n : ℕ, Measurable fun ω => √(n : ℝ) * skewAvg m v n ω * (√6)⁻¹ := fun n =>
    ((measurable_skewAvg m v n).const_mul _).mul_const _
  have ht := (hN.of_eq fun n ω => (rootAvg_scale _ _ n ω).symm).tendsto hm (clt_z3 m hv)
    fun n => measurable_rootAvg (measurable_z3 m v) n
  have hs := small_point ht hm (gaussian_point 0) g
  have hg : Small (gaussianReal m v.toNNReal) (fun n ω => (if skewAvg m v n ω = 0 then g n else 0) -
      if √(n : ℝ) * skewAvg m v n ω * (√6)⁻¹ = 0 then g n else 0) := by
    refine Small.of_ae (fun n => (Measurable.ite (measurableSet_eq_fun (measurable_skewAvg m v n) measurable_const)
      measurable_const measurable_const).sub (Measurable.ite (measurableSet_eq_fun (hm n) measurable_const)
      measurable_const measurable_const)) (ae_of_all _ fun ω => tendsto_const_nhds.congr' ?_)
    filter_upwards [eventually_gt_atTop 0] with n hn
    have hn0 : √(n : ℝ) ≠ 0 := (Real.sqrt_pos.2 (by exact_mod_cast hn)).ne'
    have h6 : (√(6 : ℝ))⁻¹ ≠ 0 := inv_ne_zero (Real.sqrt_pos.2 (by norm_num)).ne'
    simp [hn0]
  exact (hg.add hs).of_eq fun n ω => sub_add_cancel _ _

/-- What the code computes from the skewness. -/
noncomputable def skewZ (n : ℕ) (b : ℝ) : ℝ := dagostinoSkew n (if b = 0 then skewReplaced n else b)

include hv in
theorem near_skewZ : Near (gaussianReal m v.toNNReal) (fun n ω => skewZ n (skewness (List.ofFn (firsts n ω))))
    (rootAvg fun x => he3 (zval m v x) / √6) := by
  have h0 : ∀ n : ℕ, dagostinoSkew n 0 = 0 := fun n => by simp [dagostinoSkew]
  obtain ⟨R, hR, h⟩ := near_dagostinoSkew m hv
  refine ⟨_, hR.add (small_zero_skew m hv fun n => dagostinoSkew n (skewReplaced n)), ?_⟩
  filter_upwards [h] with ω hω
  filter_upwards [hω, eventually_gt_atTop 0] with n hn hn0
  have e : skewness (List.ofFn (firsts n ω)) = skewAvg m v n ω := skewness_zavg m hv hn0 ω
  rw [skewZ, e, ← add_assoc, ← hn]
  split_ifs with hz
  · rw [hz, h0, zero_add]
  · rw [add_zero]

/-! ### The kurtosis after the transform of Anscombe and Glynn -/

/-- The kurtosis, in terms of averages. -/
noncomputable def kurtAvg (m v : ℝ) (n : ℕ) (ω : ℕ → ℝ) : ℝ :=
  (zavg m v 4 n ω - 4 * zavg m v 1 n ω * zavg m v 3 n ω + 6 * zavg m v 1 n ω ^ 2 * zavg m v 2 n ω -
      3 * zavg m v 1 n ω ^ 4) * (√(zvar m v n ω) ^ 4)⁻¹

theorem measurable_kurtAvg (v : ℝ) (n : ℕ) : Measurable (kurtAvg m v n) := by
  have h1 := measurable_zavg m v 1 n
  have h2 := measurable_zavg m v 2 n
  have h3 := measurable_zavg m v 3 n
  have h4 := measurable_zavg m v 4 n
  exact (((h4.sub ((h1.const_mul 4).mul h3)).add (((h1.pow_const 2).const_mul 6).mul h2)).sub
    ((h1.pow_const 4).const_mul 3)).mul (((measurable_zvar m v n).sqrt.pow_const 4).inv)

include hv in
theorem kurtAvg_settles : ∀ᵐ ω ∂seqLaw (gaussianReal m v.toNNReal),
    Tendsto (fun n => kurtAvg m v n ω) atTop (𝓝 3) := by
  filter_upwards [settles_kurtosis (gaussian_moment_finite m v.toNNReal 4) (gaussian_variance_pos m hv)]
    with ω a
  rw [gaussian_kurtosis m (toNNReal_ne hv)] at a
  refine a.congr' ?_
  filter_upwards [eventually_gt_atTop 0] with n hn
  exact kurtosis_zavg m hv hn ω

include hv in
theorem near_kurtAvg : Near (gaussianReal m v.toNNReal) (fun n ω => √(n : ℝ) * (kurtAvg m v n ω - 3))
    (rootAvg fun x => he4 (zval m v x)) :=
  (near_kurtosis m hv).congr (ae_of_all _ fun ω => by
    filter_upwards [eventually_gt_atTop 0] with n hn
    rw [kurtosis_zavg m hv hn]
    rfl)

theorem sqrt_inv_tendsto : Tendsto (fun n : ℕ => (√(n : ℝ))⁻¹) atTop (𝓝 0) :=
  (Real.tendsto_sqrt_atTop.comp tendsto_natCast_atTop_atTop).inv_tendsto_atTop

theorem anscombe_mean_root {E V A : ℕ → ℝ} (h : ∀ n : ℕ, 5 ≤ n → AnscombeGlynn n (E n) (V n) (A n)) :
    Tendsto (fun n : ℕ => √(n : ℝ) * (3 - E n)) atTop (𝓝 0) := by
  have h1 : Tendsto (fun n : ℕ => 6 * ((n : ℝ) / (n + 1)) * (√(n : ℝ))⁻¹) atTop (𝓝 0) := by
    have := (tendsto_natCast_div_add_atTop (1 : ℝ)).const_mul 6 |>.mul sqrt_inv_tendsto
    simpa using this
  refine h1.congr' ?_
  filter_upwards [eventually_ge_atTop 5] with n hn
  have hn0 : (0 : ℝ) < n := by
    have : (5 : ℝ) ≤ n := by exact_mod_cast hn
    linarith
  have hs := Real.sqrt_pos.2 hn0
  rw [(h n hn).mean]
  have e : (n : ℝ) = √(n : ℝ) * √n := (Real.mul_self_sqrt hn0.le).symm
  have : (n : ℝ) + 1 ≠ 0 := by positivity
  have e2 : (3 : ℝ) - 3 * (n - 1) / (n + 1) = 6 / (n + 1) := by
    field_simp
    ring
  rw [e2]
  rw [show 6 * ((n : ℝ) / (n + 1)) * (√(n : ℝ))⁻¹ = 6 / (n + 1) * (n * (√(n : ℝ))⁻¹) by ring]
  rw [show (n : ℝ) * (√(n : ℝ))⁻¹ = √n by
    nth_rewrite 1 [e]
    field_simp]
  ring

/-- The part of the transform that does not depend on the data vanishes. -/
theorem anscombe_bias {E V A : ℕ → ℝ} (h : ∀ n : ℕ, 5 ≤ n → AnscombeGlynn n (E n) (V n) (A n)) :
    Tendsto (fun n : ℕ => (1 - 2 / (9 * A n) - (1 - 2 / A n) ^ (1 / 3 : ℝ)) / √(2 / (9 * A n))) atTop (𝓝 0) := by
  have hi := anscombe_inv h
  set f : ℝ → ℝ := fun u => 1 - 2 / 9 * u - (1 - 2 * u) ^ (1 / 3 : ℝ) with hf
  have hd : DifferentiableAt ℝ f 0 := by
    refine DifferentiableAt.sub (by fun_prop) (DifferentiableAt.rpow_const (by fun_prop) (Or.inl (by norm_num)))
  have hc : ContinuousAt (dslope f 0) 0 := continuousAt_dslope_same.2 hd
  have h1 := (hi.sqrt.mul (hc.tendsto.comp hi)).div_const √(2 / 9)
  rw [Real.sqrt_zero, zero_mul, zero_div] at h1
  refine h1.congr' ?_
  filter_upwards [eventually_ge_atTop 5] with n hn
  obtain ⟨-, hA6, -⟩ := kurtosis_param (by exact_mod_cast hn) (h n hn) rfl
  have hA : 0 < A n := by linarith
  have e := eq_dslope f (1 / A n)
  have f0 : f 0 = 0 := by simp [hf]
  rw [f0, zero_add] at e
  have e1 : 1 - 2 / (9 * A n) - (1 - 2 / A n) ^ (1 / 3 : ℝ) = f (1 / A n) := by
    simp only [hf]
    congr 2
    · rw [div_mul_div_comm, mul_one]
    · ring
  have hu : 0 < 1 / A n := by positivity
  rw [e1, e, show 2 / (9 * A n) = 2 / 9 * (1 / A n) by rw [div_mul_div_comm, mul_one], Real.sqrt_mul (by norm_num)]
  simp only [Function.comp]
  generalize dslope f 0 (1 / A n) = ψ
  generalize 1 / A n = u at hu
  have hs := Real.sqrt_pos.2 hu
  have e3 : u = √u * √u := (Real.mul_self_sqrt hu.le).symm
  have h29 : √(2 / 9 : ℝ) ≠ 0 := (Real.sqrt_pos.2 (by norm_num)).ne'
  nth_rewrite 2 [e3]
  field_simp

include hv in
/-- The transformed kurtosis of a normal sample is close to an average. -/
theorem near_kurtosisZ : Near (gaussianReal m v.toNNReal) (fun n ω => kurtosisZ n (kurtosis (List.ofFn (firsts n ω))))
    (rootAvg fun x => he4 (zval m v x) / √24) := by
  obtain ⟨E, V, A, h⟩ := anscombe_exists
  have hi := anscombe_inv h
  have hA := anscombe_param (A := A) ((eventually_ge_atTop 5).mono fun n hn => ⟨_, _, h n hn⟩)
  have hV : Tendsto (fun n : ℕ => n * V n) atTop (𝓝 24) := by
    refine anscombe_var.congr' ?_
    filter_upwards [eventually_ge_atTop 5] with n hn
    rw [(h n hn).var]
  have ht := tight_zval m hv measurable_he4 memLp_he4 hermite_integrals.2.1
  set P := gaussianReal m v.toNNReal
  -- the standardised kurtosis
  set t : ℕ → (ℕ → ℝ) → ℝ := fun n ω => (kurtAvg m v n ω - E n) / √(V n) * √(2 / (A n - 4)) with htd
  have htm : ∀ n, Measurable (t n) := fun n =>
    (((measurable_kurtAvg m v n).sub_const _).div_const _).mul_const _
  have ht0 : ∀ᵐ ω ∂seqLaw P, Tendsto (fun n => t n ω) atTop (𝓝 0) := by
    filter_upwards [kurtAvg_settles m hv] with ω a
    have := (kurtosis_denominator ((eventually_ge_atTop 5).mono h) a).sub_const 1
    rw [show (1 : ℝ) + 3 / 4 * (3 - 3) - 1 = 0 by norm_num] at this
    exact this.congr fun n => add_sub_cancel_left _ _
  set f : ℝ → ℝ := fun u => (1 + u) ^ (-(1 / 3) : ℝ) with hf
  have hfd : HasDerivAt f (-(1 / 3)) 0 := by
    have h1 : HasDerivAt (fun u : ℝ => 1 + u) 1 0 := (hasDerivAt_id 0).const_add 1
    have := h1.rpow_const (p := -(1 / 3)) (Or.inl (by norm_num))
    refine this.congr_deriv ?_
    norm_num
  have hψ := near_dslope (μ := P) (f := f) (by simp only [hf]; fun_prop) hfd.differentiableAt htm ht0
  rw [hfd.deriv] at hψ
  have hr : Tendsto (fun n : ℕ => √(9 * (A n / n) / (((A n / n) - 4 * (1 / n)) * (n * V n)))) atTop (𝓝 (3 * (√24)⁻¹)) := by
    have := (((hA.const_mul 9)).div ((hA.sub (inv_tendsto.const_mul 4)).mul hV) (by norm_num)).sqrt
    rw [show (9 : ℝ) * (4 / 27) / ((4 / 27 - 4 * 0) * 24) = 9 / 24 by norm_num, Real.sqrt_div (by norm_num),
      show (9 : ℝ) = 3 ^ 2 by norm_num, Real.sqrt_sq (by norm_num)] at this
    norm_num only at this ⊢
    exact this
  have hcn : Tendsto (fun n : ℕ => (1 - 2 / A n) ^ (1 / 3 : ℝ)) atTop (𝓝 1) := by
    have := ((hi.const_mul 2).const_sub 1).rpow_const (p := 1 / 3) (Or.inr (by norm_num))
    norm_num only at this
    refine this.congr fun n => ?_
    congr 2
    ring
  have hk : Near P (fun n ω => √(n : ℝ) * (kurtAvg m v n ω - E n)) (rootAvg fun x => he4 (zval m v x)) := by
    have := (near_kurtAvg m hv).add (Near.of_seq (anscombe_mean_root h))
    refine (this.of_eq fun n ω => add_zero _).congr (ae_of_all _ fun ω => .of_forall fun n => ?_)
    ring
  have h1 := ((hk.mul (Near.of_seq hr) ht (Tight.const _)).mul hψ (ht.mul (Tight.const _)) (Tight.const _)).mul
    (Near.of_seq hcn) ((ht.mul (Tight.const _)).mul (Tight.const _)) (Tight.const _)
  have h2 := (Near.of_seq (anscombe_bias h)).add (h1.mul (Near.refl fun _ _ => -1)
    (((ht.mul (Tight.const _)).mul (Tight.const _)).mul (Tight.const _)) (Tight.const _))
  refine (h2.of_eq fun n ω => ?_).congr ?_
  · rw [rootAvg_scale]
    ring
  · filter_upwards [ht0] with ω hω
    have hω1 := hω.const_add 1
    rw [add_zero] at hω1
    filter_upwards [eventually_ge_atTop 5, hω1.eventually (lt_mem_nhds one_pos)] with n hn hD
    have hn' : (5 : ℝ) ≤ n := by exact_mod_cast hn
    obtain ⟨-, hA6, hV0⟩ := kurtosis_param hn' (h n hn) rfl
    have hn0 : (0 : ℝ) < n := by linarith
    have e : kurtosis (List.ofFn (firsts n ω)) = kurtAvg m v n ω := kurtosis_zavg m hv (by omega) ω
    rw [e, kurtosisZ_spec hn' (h n hn) rfl]
    have hA4 : 0 < A n - 4 := by linarith
    have hc0 : 0 ≤ 1 - 2 / A n := by
      rw [sub_nonneg, div_le_one (by linarith)]
      linarith
    change (1 - 2 / (9 * A n) - Real.sign (1 + t n ω) * ((1 - 2 / A n) / |1 + t n ω|) ^ (1 / 3 : ℝ)) / √(2 / (9 * A n)) = _
    rw [Real.sign_of_pos hD, abs_of_pos hD, one_mul, Real.div_rpow hc0 hD.le]
    have ef : (1 - 2 / A n) ^ (1 / 3 : ℝ) / (1 + t n ω) ^ (1 / 3 : ℝ) = (1 - 2 / A n) ^ (1 / 3 : ℝ) *
        (1 + t n ω * dslope f 0 (t n ω)) := by
      have h3 := eq_dslope f (t n ω)
      have f0 : f 0 = 1 := by simp [hf]
      rw [f0] at h3
      rw [← h3, hf]
      simp only
      rw [Real.rpow_neg hD.le, div_eq_mul_inv]
    rw [ef]
    have er : t n ω / √(2 / (9 * A n)) = √(n : ℝ) * (kurtAvg m v n ω - E n) *
        √(9 * (A n / n) / (((A n / n) - 4 * (1 / n)) * (n * V n))) := by
      have e1 : √(n : ℝ) * √(9 * (A n / n) / (((A n / n) - 4 * (1 / n)) * (n * V n))) = √(9 * A n / ((A n - 4) * V n)) := by
        rw [← Real.sqrt_mul hn0.le]
        congr 1
        rw [show A n / n - 4 * (1 / n) = (A n - 4) / n by ring]
        field_simp
      have e2 : 1 / √(V n) * √(2 / (A n - 4)) / √(2 / (9 * A n)) = √(9 * A n / ((A n - 4) * V n)) := by
        rw [← Real.sqrt_one, ← Real.sqrt_div' _ hV0.le, ← Real.sqrt_mul (by positivity), ← Real.sqrt_div' _ (by positivity)]
        congr 1
        have : A n ≠ 0 := by linarith
        field_simp
      rw [mul_right_comm, e1, ← e2, htd]
      ring
    generalize dslope f 0 (t n ω) = ψ at *
    generalize (1 - 2 / A n) ^ (1 / 3 : ℝ) = c at *
    generalize √(9 * (A n / n) / (((A n / n) - 4 * (1 / n)) * (n * V n))) = r at *
    rw [show (1 - 2 / (9 * A n) - c * (1 + t n ω * ψ)) / √(2 / (9 * A n)) = (1 - 2 / (9 * A n) - c) / √(2 / (9 * A n)) -
      c * ψ * (t n ω / √(2 / (9 * A n))) by ring, er]
    ring

end

end Pysatl.Props
