import Verif.Props.LimitLawMoments
import Verif.Props.LimitLawExponential
import Verif.Props.ConsistencyDeviation

/-! # C138: the laws of the criteria of normality for large normal samples -/

namespace Pysatl.Props

open Pysatl.Decision Pysatl.Resolver Pysatl.Spec Pysatl.Edf Pysatl.Graph Pysatl.Gen Pysatl.Normal Pysatl.Exponent
open MeasureTheory ProbabilityTheory Filter Topology

section
variable (code : String) (params : Option (List (String × ℝ))) (classes : List GeneratorClass)
  (hp : classes.Perm generatorClasses) (m : ℝ) {v : ℝ} (hv : 0 < v)

theorem skew_limitLaw (hv : 0 < v) : LimitLaw (NormStat.skew.statistic scipyNorm code params)
    (gaussianReal m v.toNNReal) (gaussianReal 0 1) := by
  refine limitLaw_of_near (normal_meas _ code params) (ae_of_all _ fun ω => ?_) (near_skewZ m hv) (clt_z3 m hv)
    (measurable_rootAvg (measurable_z3 m v))
  filter_upwards [eventually_ge_atTop 8] with n hn
  rw [skew_execute code params (by simpa using hn), List.length_ofFn]
  rfl

theorem kurtosis_limitLaw (hv : 0 < v) : LimitLaw (NormStat.kurtosis.statistic scipyNorm code params)
    (gaussianReal m v.toNNReal) (gaussianReal 0 1) := by
  refine limitLaw_of_near (normal_meas _ code params) (ae_of_all _ fun ω => ?_) (near_kurtosisZ m hv) (clt_z4 m hv)
    (measurable_rootAvg (measurable_z4 m v))
  filter_upwards [eventually_ge_atTop 5] with n hn
  rw [normal_value (kurtosis_value scipyNorm (by simpa using hn)), List.length_ofFn]

theorem near_rootSkew (hv : 0 < v) : Near (gaussianReal m v.toNNReal)
    (fun n ω => √(n : ℝ) * skewness (List.ofFn (firsts n ω)) * (√6)⁻¹) (rootAvg fun x => he3 (zval m v x) / √6) :=
  ((near_skewness m hv).mul (Near.refl fun _ _ => (√6)⁻¹) (tight_zval m hv measurable_he3 memLp_he3 hermite_integrals.1)
    (Tight.const _)).of_eq fun n ω => (rootAvg_scale _ _ n ω).symm

theorem near_rootKurt (hv : 0 < v) : Near (gaussianReal m v.toNNReal)
    (fun n ω => √(n : ℝ) * (kurtosis (List.ofFn (firsts n ω)) - 3) * (√24)⁻¹)
    (rootAvg fun x => he4 (zval m v x) / √24) :=
  ((near_kurtosis m hv).mul (Near.refl fun _ _ => (√24)⁻¹)
    (tight_zval m hv measurable_he4 memLp_he4 hermite_integrals.2.1)
    (Tight.const _)).of_eq fun n ω => (rootAvg_scale _ _ n ω).symm

/-- The sum of the squares of a value close to the average of the third Hermite polynomial and one close to that of the fourth. -/
theorem hermite_limitLaw (hv : 0 < v) {st : Statistic ℝ}
    (hm : ∀ n, OutcomeMeas fun x : Fin n → ℝ => st.execute (List.ofFn x)) {T S : ℕ → (ℕ → ℝ) → ℝ}
    (hT : ∀ᵐ ω ∂seqLaw (gaussianReal m v.toNNReal), ∀ᶠ n in atTop,
      st.execute (List.ofFn (firsts n ω)) = .ok (T n ω ^ 2 + S n ω ^ 2))
    (h1 : Near (gaussianReal m v.toNNReal) T (rootAvg fun x => he3 (zval m v x) / √6))
    (h2 : Near (gaussianReal m v.toNNReal) S (rootAvg fun x => he4 (zval m v x) / √24)) :
    LimitLaw st (gaussianReal m v.toNNReal) (chiSquareLaw 2) := by
  obtain ⟨i1, i2, i3, i4, i5⟩ := integrals_z m hv
  exact limitLaw_squares hm hT (measurable_z3 m v) (measurable_z4 m v) (memLp_z3 m hv) (memLp_z4 m hv) i1 i2 i3 i4 i5 h1 h2

theorem jarqueBera_limitLaw (hv : 0 < v) : LimitLaw (NormStat.jarqueBera.statistic scipyNorm code params)
    (gaussianReal m v.toNNReal) (chiSquareLaw 2) := by
  refine hermite_limitLaw m hv (normal_meas _ code params) (ae_of_all _ fun ω => ?_) (near_rootSkew m hv) (near_rootKurt m hv)
  filter_upwards [eventually_gt_atTop 1] with n hn
  rw [normal_value (C117_jarqueBera scipyNorm (ofFn_ne hn _)), List.length_ofFn]
  have h6 : √6 ^ 2 = (6 : ℝ) := Real.sq_sqrt (by norm_num)
  have h24 : √24 ^ 2 = (24 : ℝ) := Real.sq_sqrt (by norm_num)
  have hn : √(n : ℝ) ^ 2 = n := Real.sq_sqrt (Nat.cast_nonneg n)
  rw [mul_pow, mul_pow, mul_pow, mul_pow, inv_pow, inv_pow, h6, h24, hn]
  congr 1
  ring

theorem dap_limitLaw (hv : 0 < v) : LimitLaw (NormStat.dap.statistic scipyNorm code params)
    (gaussianReal m v.toNNReal) (chiSquareLaw 2) := by
  refine hermite_limitLaw m hv (normal_meas _ code params) (ae_of_all _ fun ω => ?_) (near_skewZ m hv) (near_kurtosisZ m hv)
  filter_upwards [eventually_ge_atTop 8] with n hn
  rw [dap_execute code params (by simpa using hn), List.length_ofFn]
  rfl

/-! ### Bontemps-Meddahi -/

theorem bontemps_bias : Tendsto (fun n : ℕ => √(n : ℝ) * (3 * (((n : ℝ) - 1) / n - 1) ^ 2)) atTop (𝓝 0) := by
  have h := (sqrt_inv_tendsto.mul (inv_tendsto)).const_mul 3
  rw [mul_zero, mul_zero] at h
  refine h.congr' ?_
  filter_upwards [eventually_gt_atTop 0] with n hn
  have hn0 : (0 : ℝ) < n := by exact_mod_cast hn
  have hs : 0 < √(n : ℝ) := Real.sqrt_pos.2 hn0
  have e : (n : ℝ) = √(n : ℝ) ^ 2 := (Real.sq_sqrt hn0.le).symm
  generalize √(n : ℝ) = r at *
  rw [e]
  field_simp
  ring

theorem bontempsMeddahi1_limitLaw (hv : 0 < v) : LimitLaw (NormStat.bontempsMeddahi1.statistic scipyNorm code params)
    (gaussianReal m v.toNNReal) (chiSquareLaw 2) := by
  have t3 := tight_rootAvg (measurable_z3 m v) (memLp_z3 m hv) (integrals_z m hv).1
  have t4 := tight_rootAvg (measurable_z4 m v) (memLp_z4 m hv) (integrals_z m hv).2.1
  have n3 := (near_rootSkew m hv).mul (Near.of_seq ((ratio_tendsto.sqrt).pow 3)) t3 (Tight.const _)
  have n4 := ((near_rootKurt m hv).mul (Near.of_seq (ratio_tendsto.pow 2)) t4 (Tight.const _)).add
    (Near.of_seq (bontemps_bias.mul_const (√24)⁻¹))
  refine hermite_limitLaw m hv (normal_meas _ code params) ?_ (n3.of_eq fun n ω => by simp) (n4.of_eq fun n ω => by simp)
  have h2 := second_of_fourth (gaussian_moment_finite m v.toNNReal 4)
  have hV := gaussian_variance_pos m hv
  filter_upwards [settles_stdDev h2] with ω c
  filter_upwards [eventually_gt_atTop 3, c.eventually (lt_mem_nhds (Real.sqrt_pos.2 hV))] with n hn hs
  refine normal_value ?_
  simp only [NormStat.value, guarded, List.length_ofFn, if_pos hn, Except.map]
  rw [bontemps_value hn (List.length_ofFn) hs]
  have h6 : √6 ^ 2 = (6 : ℝ) := Real.sq_sqrt (by norm_num)
  have h24 : √24 ^ 2 = (24 : ℝ) := Real.sq_sqrt (by norm_num)
  have hn : √(n : ℝ) ^ 2 = n := Real.sq_sqrt (Nat.cast_nonneg n)
  generalize skewness (List.ofFn (firsts n ω)) = S
  generalize kurtosis (List.ofFn (firsts n ω)) = T
  generalize √(((n : ℝ) - 1) / n) = r
  generalize ((n : ℝ) - 1) / n = ρ
  have e1 : (√(n : ℝ) * S * (√6)⁻¹ * r ^ 3) ^ 2 = √(n : ℝ) ^ 2 * (S * r ^ 3) ^ 2 / √6 ^ 2 := by ring
  have e2 : (√(n : ℝ) * (T - 3) * (√24)⁻¹ * ρ ^ 2 + √(n : ℝ) * (3 * (ρ - 1) ^ 2) * (√24)⁻¹) ^ 2 =
    √(n : ℝ) ^ 2 * (T * ρ ^ 2 - 6 * ρ + 3) ^ 2 / √24 ^ 2 := by ring
  rw [e1, e2, h6, h24, hn]
  congr 1
  ring

/-! ### Doornik-Hansen -/

theorem near_dhZ1 (hv : 0 < v) : Near (gaussianReal m v.toNNReal)
    (fun n ω => dagostinoSkew n (skewness (List.ofFn (firsts n ω)))) (rootAvg fun x => he3 (zval m v x) / √6) :=
  (near_dagostinoSkew m hv).congr <| ae_of_all _ fun ω => by
    filter_upwards [eventually_gt_atTop 0] with n hn
    rw [skewness_zavg m hv hn]
    rfl

/-- The part of the shape that does not depend on the skewness. -/
noncomputable def dhA (n : ℕ) : ℝ := ((n : ℝ) - 2) * (n + 5) * (n + 7) * (n ^ 2 + 27 * n - 70) /
  (6 * ((n - 3) * (n + 1) * (n ^ 2 + 15 * n - 4)))
noncomputable def dhC (n : ℕ) : ℝ := ((n : ℝ) - 7) * (n + 5) * (n + 7) * (n ^ 2 + 2 * n - 5) /
  (6 * ((n - 3) * (n + 1) * (n ^ 2 + 15 * n - 4)))
noncomputable def dhK (n : ℕ) : ℝ := ((n : ℝ) + 5) * (n + 7) * (n ^ 3 + 37 * n ^ 2 + 11 * n - 313) /
  (12 * ((n - 3) * (n + 1) * (n ^ 2 + 15 * n - 4)))

theorem dhA_tendsto : Tendsto (fun n => dhA n / n) atTop (𝓝 (1 / 6)) := by
  have := doornik_alpha (s := fun _ => 0) tendsto_const_nhds
  simpa [dhA] using this

theorem dhC_tendsto : Tendsto (fun n => dhC n / n) atTop (𝓝 (1 / 6)) := by
  have := (doornik_alpha (s := fun _ => 1) tendsto_const_nhds).sub dhA_tendsto
  norm_num only at this
  refine this.congr fun n => ?_
  rw [dhA, dhC]
  ring

theorem dhK_tendsto : Tendsto (fun n => dhK n / n) atTop (𝓝 (1 / 12)) := doornik_scale

/-- Twice the scale and the shape differ by a bounded amount. -/
theorem dhK_dhA : Tendsto (fun n => 2 * dhK n - dhA n) atTop (𝓝 2) := by
  have h1 : ContinuousAt (fun u : ℝ => (1 + 5 * u) * (1 + 7 * u) * (12 + 135 * u - 453 * u ^ 2) /
      (6 * ((1 - 3 * u) * (1 + u) * (1 + 15 * u - 4 * u ^ 2)))) 0 := by
    fun_prop (disch := norm_num)
  have h := h1.tendsto.comp inv_tendsto
  have e : ((1 : ℝ) + 5 * 0) * (1 + 7 * 0) * (12 + 135 * 0 - 453 * 0 ^ 2) /
      (6 * ((1 - 3 * 0) * (1 + 0) * (1 + 15 * 0 - 4 * 0 ^ 2))) = 2 := by
    norm_num
  rw [e] at h
  refine h.congr' ?_
  filter_upwards [eventually_gt_atTop 7] with n hn
  have : (7 : ℝ) < n := by exact_mod_cast hn
  have h3 : (n : ℝ) - 3 ≠ 0 := by linarith
  have h4 : (n : ℝ) ^ 2 + 15 * n - 4 ≠ 0 := by nlinarith
  have h5 : (1 : ℝ) + 15 * (1 / n) - 4 * (1 / n) ^ 2 ≠ 0 := by
    have : (1 : ℝ) + 15 * (1 / n) - 4 * (1 / n) ^ 2 = (n ^ 2 + 15 * n - 4) / n ^ 2 := by field_simp
    rw [this]
    exact div_ne_zero h4 (by positivity)
  have h6 : (1 : ℝ) - 3 * (1 / n) ≠ 0 := by
    have : (1 : ℝ) - 3 * (1 / n) = (n - 3) / n := by field_simp
    rw [this]
    exact div_ne_zero h3 (by positivity)
  simp only [Function.comp, dhA, dhK]
  field_simp
  ring

include hv in
theorem near_dhZ2 : Near (gaussianReal m v.toNNReal)
    (fun n ω => dhZ2 (skewness (List.ofFn (firsts n ω))) (kurtosis (List.ofFn (firsts n ω))) n)
    (rootAvg fun x => he4 (zval m v x) / √24) := by
  set P := gaussianReal m v.toNNReal with hP
  set s := skewAvg m v with hs
  set k := kurtAvg m v with hk
  set α : ℕ → (ℕ → ℝ) → ℝ := fun n ω => dhA n + s n ω ^ 2 * dhC n with hα
  have ms : ∀ n, Measurable (s n) := measurable_skewAvg m v
  have mk : ∀ n, Measurable (k n) := measurable_kurtAvg m v
  have mα : ∀ n, Measurable (α n) := fun n => (((ms n).pow_const 2).mul_const _).const_add _
  have hs0 : ∀ᵐ ω ∂seqLaw P, Tendsto (fun n => s n ω) atTop (𝓝 0) := skewAvg_settles m hv
  have hk3 : ∀ᵐ ω ∂seqLaw P, Tendsto (fun n => k n ω) atTop (𝓝 3) := kurtAvg_settles m hv
  have hα6 : ∀ᵐ ω ∂seqLaw P, Tendsto (fun n => α n ω / n) atTop (𝓝 (1 / 6)) := by
    filter_upwards [hs0] with ω a
    have := doornik_alpha a
    rw [show ((1 : ℝ) + 0 ^ 2) / 6 = 1 / 6 by norm_num] at this
    exact this
  have t3 : Tight P (rootAvg fun x => he3 (zval m v x)) := tight_zval m hv measurable_he3 memLp_he3 hermite_integrals.1
  have t4 : Tight P (rootAvg fun x => he4 (zval m v x)) := tight_zval m hv measurable_he4 memLp_he4 hermite_integrals.2.1
  -- the three parts of the deviation of the ratio from one
  have p1 : Near P (fun n ω => dhK n / n / (α n ω / n)) (fun _ _ => 1 / 2) := by
    refine Near.of_ae (fun n => measurable_const.div ((mα n).div_const _)) ?_
    filter_upwards [hα6] with ω a
    have := dhK_tendsto.div a (by norm_num)
    norm_num only at this
    exact this
  have p2 : Near P (fun n ω => (2 * dhK n - dhA n) * (√(n : ℝ))⁻¹ / (α n ω / n)) (fun _ _ => 0) := by
    refine Near.of_ae (fun n => measurable_const.div ((mα n).div_const _)) ?_
    filter_upwards [hα6] with ω a
    have := (dhK_dhA.mul sqrt_inv_tendsto).div a (by norm_num)
    rw [mul_zero, zero_div] at this
    exact this
  have p3 : Near P (fun n ω => s n ω * (dhC n / n + dhK n / n) / (α n ω / n)) (fun _ _ => 0) := by
    refine Near.of_ae (fun n => ((ms n).mul_const _).div ((mα n).div_const _)) ?_
    filter_upwards [hα6, hs0] with ω a b
    have := (b.mul (dhC_tendsto.add dhK_tendsto)).div a (by norm_num)
    rw [zero_mul, zero_div] at this
    exact this
  set u : ℕ → (ℕ → ℝ) → ℝ := fun n ω => (k n ω - 1 - s n ω ^ 2) * (dhK n / n) / (α n ω / n) - 1 with hu
  have mu : ∀ n, Measurable (u n) := fun n =>
    (((((mk n).sub_const 1).sub ((ms n).pow_const 2)).mul_const _).div ((mα n).div_const _)).sub_const _
  have hu0 : ∀ᵐ ω ∂seqLaw P, Tendsto (fun n => u n ω) atTop (𝓝 0) := by
    filter_upwards [hα6, hs0, hk3] with ω a b c
    have := ((((c.sub_const 1).sub (b.pow 2)).mul dhK_tendsto).div a (by norm_num)).sub_const 1
    norm_num only at this
    exact this
  have hun : Near P (fun n ω => √(n : ℝ) * u n ω) (fun n ω => rootAvg (fun x => he4 (zval m v x)) n ω * (1 / 2)) := by
    have h1 := ((near_kurtAvg m hv).mul p1 t4 (Tight.const _)).add
      (p2.add (((near_skewAvg m hv).mul p3 t3 (Tight.const _)).mul (Near.refl fun _ _ => -1)
        (t3.mul (Tight.const _)) (Tight.const _)))
    refine (h1.of_eq fun n ω => by ring).congr ?_
    filter_upwards [hα6] with ω a
    filter_upwards [eventually_gt_atTop 0, a.eventually (lt_mem_nhds (show (0 : ℝ) < 1 / 6 by norm_num))] with n hn h0
    have hn0 : (0 : ℝ) < n := by exact_mod_cast hn
    have hr : 0 < √(n : ℝ) := Real.sqrt_pos.2 hn0
    have e : α n ω / n = dhA n / n + s n ω ^ 2 * (dhC n / n) := by rw [hα]; ring
    have e' : (√(n : ℝ))⁻¹ = √(n : ℝ) / n := by
      rw [eq_div_iff hn0.ne', ← div_eq_inv_mul, Real.div_sqrt]
    rw [e']
    simp only [hu]
    rw [show (2 * dhK n - dhA n) * (√(n : ℝ) / n) = √(n : ℝ) * (2 * (dhK n / n) - dhA n / n) by ring]
    change _ = √(n : ℝ) * (k n ω - 3) * _ + (_ + √(n : ℝ) * s n ω * _ * -1)
    generalize k n ω = k at *
    generalize s n ω = s at *
    generalize dhA n / n = A at *
    generalize dhC n / n = C at *
    generalize dhK n / n = K at *
    rw [e] at h0 ⊢
    field_simp
    ring
  set f : ℝ → ℝ := fun u => (1 + u) ^ (1 / 3 : ℝ) with hf
  have hd : HasDerivAt f (1 / 3) 0 := by
    have := (((hasDerivAt_id (0 : ℝ)).const_add 1).rpow_const (p := 1 / 3) (Or.inl (by norm_num)))
    norm_num at this
    rw [hf]
    norm_num
    exact this
  have hψ := near_dslope (μ := P) (f := f) ((measurable_id.const_add 1).pow_const _) hd.differentiableAt mu hu0
  rw [hd.deriv] at hψ
  have p4 : Near P (fun n ω => √(9 * (α n ω / n))) (fun _ _ => √(3 / 2)) := by
    refine Near.of_ae (fun n => (((mα n).div_const _).const_mul _).sqrt) ?_
    filter_upwards [hα6] with ω a
    have := (a.const_mul 9).sqrt
    norm_num only at this
    exact this
  have p5 : Near P (fun n ω => √(9 * (α n ω / n)) / (9 * (α n ω / n)) * (√(n : ℝ))⁻¹) (fun _ _ => 0) := by
    refine Near.of_ae (fun n => ((((mα n).div_const _).const_mul _).sqrt.div (((mα n).div_const _).const_mul _)).mul_const _) ?_
    filter_upwards [hα6] with ω a
    have := ((a.const_mul 9).sqrt.div (a.const_mul 9) (by norm_num)).mul sqrt_inv_tendsto
    rw [mul_zero] at this
    exact this
  have t5 := t4.mul (Tight.const (μ := P) (1 / 2))
  have h2 := ((hun.mul hψ t5 (Tight.const _)).mul p4 (t5.mul (Tight.const _)) (Tight.const _)).add p5
  refine (h2.of_eq fun n ω => ?_).congr ?_
  · rw [rootAvg_scale, add_zero, mul_assoc, mul_assoc]
    congr 1
    rw [show (24 : ℝ) = (3 / 2) * 4 ^ 2 by norm_num, Real.sqrt_mul (by norm_num), Real.sqrt_sq (by norm_num)]
    have h0 : (0 : ℝ) < √(3 / 2) := Real.sqrt_pos.2 (by norm_num)
    have h1 : √(3 / 2) ^ 2 = (3 / 2 : ℝ) := Real.sq_sqrt (by norm_num)
    generalize √(3 / 2 : ℝ) = r at *
    field_simp
    linarith
  · filter_upwards [hα6] with ω a
    filter_upwards [eventually_gt_atTop 0, a.eventually (lt_mem_nhds (show (0 : ℝ) < 1 / 6 by norm_num))] with n hn h0
    have hn0 : (0 : ℝ) < n := by exact_mod_cast hn
    have hr : 0 < √(n : ℝ) := Real.sqrt_pos.2 hn0
    have es : skewness (List.ofFn (firsts n ω)) = s n ω := skewness_zavg m hv hn ω
    have ek : kurtosis (List.ofFn (firsts n ω)) = k n ω := kurtosis_zavg m hv hn ω
    have hα0 : 0 < α n ω := by
      have := mul_pos h0 hn0
      rwa [div_mul_cancel₀ _ hn0.ne'] at this
    have e : dhZ2 (s n ω) (k n ω) n = ((0.5 * (2 * (k n ω - 1 - s n ω ^ 2) * dhK n) / α n ω) ^ (1 / 3 : ℝ) - 1 +
      1 / (9 * α n ω)) * √(9 * α n ω) := rfl
    have e1 : 0.5 * (2 * (k n ω - 1 - s n ω ^ 2) * dhK n) / α n ω = 1 + u n ω := by
      simp only [hu]
      rw [← mul_div_assoc, div_div_div_cancel_right₀ hn0.ne']
      ring
    have e2 : (1 + u n ω) ^ (1 / 3 : ℝ) = 1 + u n ω * dslope f 0 (u n ω) := by
      have h3 := eq_dslope f (u n ω)
      have f0 : f 0 = 1 := by simp [hf]
      rw [f0] at h3
      exact h3
    have e3 : √(9 * α n ω) = √(n : ℝ) * √(9 * (α n ω / n)) := by
      rw [← Real.sqrt_mul hn0.le]
      congr 1
      field_simp
    have e4 : 9 * α n ω = √(n : ℝ) ^ 2 * (9 * (α n ω / n)) := by
      rw [Real.sq_sqrt hn0.le]
      field_simp
    rw [es, ek, e, e1, e2, e3, e4]
    generalize dslope f 0 (u n ω) = ψ
    generalize u n ω = u at *
    generalize √(9 * (α n ω / n)) = q
    have : (0 : ℝ) < 9 * (α n ω / n) := by linarith
    generalize 9 * (α n ω / n) = w at *
    generalize √(n : ℝ) = r at *
    field_simp
    ring

theorem doornikHansen_limitLaw (hv : 0 < v) : LimitLaw (NormStat.doornikHansen.statistic scipyNorm code params)
    (gaussianReal m v.toNNReal) (chiSquareLaw 2) := by
  refine hermite_limitLaw m hv (normal_meas _ code params) (ae_of_all _ fun ω => ?_) (near_dhZ1 m hv) (near_dhZ2 m hv)
  filter_upwards [eventually_ge_atTop 8] with n hn
  have hn' : (8 : ℝ) ≤ n := by exact_mod_cast hn
  refine normal_value ?_
  simp only [NormStat.value, Normal.doornikHansen]
  set xs := List.ofFn (firsts n ω) with hxs
  have hlen : xs.length = n := List.length_ofFn
  have h1 : moment 3 xs / moment 2 xs ^ (1.5 : ℝ) = skewness xs := by
    rw [← skew_spec, skew]
    norm_num
  have h2 : moment 4 xs / moment 2 xs ^ 2 = kurtosis xs := by rw [← kurt_spec, kurt]
  rw [h1, h2, hlen, dhZ1_spec hn']

/-! ### Criteria whose values drift away -/

/-- Values that grow without bound exceed every `t` in the long run. -/
theorem drifts {st : Statistic ℝ} {P : Measure ℝ} [IsProbabilityMeasure P]
    (hm : ∀ n, OutcomeMeas fun x : Fin n → ℝ => st.execute (List.ofFn x)) {T : (ℕ → ℝ) → ℕ → ℝ}
    (h : ∀ᵐ ω ∂seqLaw P, Tendsto (T ω) atTop atTop ∧ ∀ᶠ n in atTop, st.execute (List.ofFn (firsts n ω)) = .ok (T ω n)) (t : ℝ) :
    Tendsto (fun n => iid n P {x | ∃ d ≤ t, st.execute (List.ofFn x) = .ok d}) atTop (𝓝 0) := by
  have hset : ∀ n, MeasurableSet {x : Fin n → ℝ | t < outcomeVal (st.execute (List.ofFn x))} := fun n =>
    measurableSet_lt measurable_const (measurable_outcomeVal (hm n))
  have h2 := eventually_prob_compl hset (μ := P) <| by
    filter_upwards [h] with ω hω
    filter_upwards [hω.2, hω.1.eventually_gt_atTop t] with n hn ht
    show t < outcomeVal (st.execute (List.ofFn (firsts n ω)))
    rw [hn]
    exact ht
  refine tendsto_of_tendsto_of_tendsto_of_le_of_le tendsto_const_nhds h2 (fun n => zero_le) fun n => measure_mono ?_
  rintro x ⟨d, hd, he⟩
  simp only [Set.mem_compl_iff, Set.mem_ofPred_eq, he, outcomeVal, not_lt]
  exact hd

theorem normal_half : gaussianReal 0 1 (Set.Iic 0) ≠ 0 := by
  intro h
  have h1 : gaussianReal 0 1 (Set.Ici 0) = 0 := by
    have e := gaussianReal_map_neg (μ := 0) (v := 1)
    rw [neg_zero] at e
    rw [← e, Measure.map_apply measurable_neg measurableSet_Ici]
    have : (fun x : ℝ => -x) ⁻¹' Set.Ici 0 = Set.Iic 0 := by
      ext x
      simp
    rw [this, h]
  have h2 : gaussianReal 0 1 Set.univ = 0 := by
    rw [← Set.Iic_union_Ici (a := (0 : ℝ))]
    exact measure_union_null h h1
  rw [measure_univ] at h2
  exact one_ne_zero h2

theorem drifts_not_normal {st : Statistic ℝ} {P : Measure ℝ}
    (h : ∀ t, Tendsto (fun n => iid n P {x | ∃ d ≤ t, st.execute (List.ofFn x) = .ok d}) atTop (𝓝 0)) :
    ¬ LimitLaw st P (gaussianReal 0 1) := fun hl =>
  normal_half (tendsto_nhds_unique (hl 0 (gaussian_point 0)) (h 0))

theorem bonettSeier_constant : 3 < 13.29 * Real.log (√(Real.pi / 2)) := by
  have h1 : Real.exp (6 / 13.29) < Real.pi / 2 := by
    have h := Real.exp_bound' (x := 6 / 13.29) (by norm_num) (by norm_num) (n := 7) (by norm_num)
    refine h.trans_lt ?_
    have := Real.pi_gt_d6
    norm_num [Finset.sum_range_succ, Nat.factorial]
    linarith
  have h2 := (Real.lt_log_iff_exp_lt (by positivity)).2 h1
  rw [Real.log_sqrt (by positivity)]
  norm_num at h2 ⊢
  linarith

theorem dagostino_constant : 0.28209479 < 1 / (2 * √Real.pi) := by
  have hp := Real.sqrt_pos.2 Real.pi_pos
  rw [lt_div_iff₀ (by positivity)]
  have h := Real.pi_lt_d20
  have : √Real.pi < 1.7724538511 := by
    rw [Real.sqrt_lt' (by norm_num)]
    refine h.trans ?_
    norm_num
  norm_num at this ⊢
  linarith

theorem bonettSeier_drifts (hv : 0 < v) (t : ℝ) : Tendsto (fun n => iid n (gaussianReal m v.toNNReal)
    {x | ∃ d ≤ t, (NormStat.bonettSeier.statistic scipyNorm code params).execute (List.ofFn x) = .ok d}) atTop (𝓝 0) := by
  have h := bonettSeier_settles code params (gaussian_moment_finite m v.toNNReal 2) (gaussian_variance_pos m hv)
  rw [gaussian_geary m hv] at h
  choose! s hs using fun ω (h : ∃ s : ℕ → ℝ, Tendsto s atTop (𝓝 (Real.log (√(Real.pi / 2)))) ∧ ∀ᶠ n in atTop,
    (NormStat.bonettSeier.statistic scipyNorm code params).execute (List.ofFn (firsts n ω)) =
      .ok (√((n : ℝ) + 2) * (13.29 * s n - 3) / 3.54)) => h
  refine drifts (normal_meas _ code params) (T := fun ω n => √((n : ℝ) + 2) * (13.29 * s ω n - 3) / 3.54) ?_ t
  filter_upwards [h] with ω hω
  refine ⟨?_, (hs ω hω).2⟩
  have h1 : Tendsto (fun n : ℕ => √((n : ℝ) + 2)) atTop atTop :=
    Real.tendsto_sqrt_atTop.comp (tendsto_atTop_add_const_right _ _ tendsto_natCast_atTop_atTop)
  have h2 := ((hs ω hω).1.const_mul 13.29).sub_const 3
  exact (h1.atTop_mul_pos (by linarith [bonettSeier_constant]) h2).atTop_div_const (by norm_num)

theorem dagostino_drifts (hv : 0 < v) (t : ℝ) : Tendsto (fun n => iid n (gaussianReal m v.toNNReal)
    {x | ∃ d ≤ t, (NormStat.dagostino.statistic scipyNorm code params).execute (List.ofFn x) = .ok d}) atTop (𝓝 0) := by
  have h := dagostino_settles code params (gaussian_moment_finite m v.toNNReal 2) (gaussian_variance_pos m hv)
  rw [gaussian_dagostino m hv] at h
  choose! s hs using fun ω (h : ∃ s : ℕ → ℝ, Tendsto s atTop (𝓝 (1 / (2 * √Real.pi))) ∧ ∀ᶠ n in atTop,
    (NormStat.dagostino.statistic scipyNorm code params).execute (List.ofFn (firsts n ω)) =
      .ok (√(n : ℝ) * (s n - 0.28209479) / 0.02998598)) => h
  refine drifts (normal_meas _ code params) (T := fun ω n => √(n : ℝ) * (s ω n - 0.28209479) / 0.02998598) ?_ t
  filter_upwards [h] with ω hω
  refine ⟨?_, (hs ω hω).2⟩
  have h1 : Tendsto (fun n : ℕ => √(n : ℝ)) atTop atTop := Real.tendsto_sqrt_atTop.comp tendsto_natCast_atTop_atTop
  have h2 := (hs ω hω).1.sub_const 0.28209479
  exact (h1.atTop_mul_pos (by linarith [dagostino_constant]) h2).atTop_div_const (by norm_num)

/-! ### The theorems -/

include hp hv in
/-- **C138, skewness**: for large normal samples the value follows the standard normal law. -/
theorem C138_skew : ∃ G, (Gen.Family.normal m v).simulator classes = .ok G ∧
    (∀ n, G.generate n = .ok (iid n (gaussianReal m v.toNNReal))) ∧
    LimitLaw (NormStat.skew.statistic scipyNorm code params) (gaussianReal m v.toNNReal) (gaussianReal 0 1) :=
  with_normal hp m hv (skew_limitLaw code params m hv)

include hp hv in
/-- **C138, kurtosis**: for large normal samples the value follows the standard normal law. -/
theorem C138_kurtosis : ∃ G, (Gen.Family.normal m v).simulator classes = .ok G ∧
    (∀ n, G.generate n = .ok (iid n (gaussianReal m v.toNNReal))) ∧
    LimitLaw (NormStat.kurtosis.statistic scipyNorm code params) (gaussianReal m v.toNNReal) (gaussianReal 0 1) :=
  with_normal hp m hv (kurtosis_limitLaw code params m hv)

include hp hv in
/-- **C138, Jarque-Bera**: for large normal samples the value follows the chi-square law with two degrees of freedom. -/
theorem C138_jarqueBera : ∃ G, (Gen.Family.normal m v).simulator classes = .ok G ∧
    (∀ n, G.generate n = .ok (iid n (gaussianReal m v.toNNReal))) ∧
    LimitLaw (NormStat.jarqueBera.statistic scipyNorm code params) (gaussianReal m v.toNNReal) (chiSquareLaw 2) :=
  with_normal hp m hv (jarqueBera_limitLaw code params m hv)

include hp hv in
/-- **C138, D'Agostino-Pearson**: for large normal samples the value follows the chi-square law with two degrees of freedom. -/
theorem C138_dap : ∃ G, (Gen.Family.normal m v).simulator classes = .ok G ∧
    (∀ n, G.generate n = .ok (iid n (gaussianReal m v.toNNReal))) ∧
    LimitLaw (NormStat.dap.statistic scipyNorm code params) (gaussianReal m v.toNNReal) (chiSquareLaw 2) :=
  with_normal hp m hv (dap_limitLaw code params m hv)

include hp hv in
/-- **C138, Bontemps-Meddahi with two polynomials**: for large normal samples the value follows the chi-square law with two
degrees of freedom. -/
theorem C138_bontempsMeddahi1 : ∃ G, (Gen.Family.normal m v).simulator classes = .ok G ∧
    (∀ n, G.generate n = .ok (iid n (gaussianReal m v.toNNReal))) ∧
    LimitLaw (NormStat.bontempsMeddahi1.statistic scipyNorm code params) (gaussianReal m v.toNNReal) (chiSquareLaw 2) :=
  with_normal hp m hv (bontempsMeddahi1_limitLaw code params m hv)

include hp hv in
/-- **C138, Doornik-Hansen**: for large normal samples the value follows the chi-square law with two degrees of freedom. -/
theorem C138_doornikHansen : ∃ G, (Gen.Family.normal m v).simulator classes = .ok G ∧
    (∀ n, G.generate n = .ok (iid n (gaussianReal m v.toNNReal))) ∧
    LimitLaw (NormStat.doornikHansen.statistic scipyNorm code params) (gaussianReal m v.toNNReal) (chiSquareLaw 2) :=
  with_normal hp m hv (doornikHansen_limitLaw code params m hv)

include hp in
/-- **C138, Epps-Pulley**: for large exponential samples of any rate the value follows the standard normal law, as the
documentation says. -/
theorem C138_eppsPulley {r : ℝ} (hr : 0 < r) : ∃ G, (Gen.Family.exponential r).simulator classes = .ok G ∧
    (∀ n, G.generate n = .ok (iid n (expMeasure r))) ∧
    LimitLaw (ExpStat.eppsPulley.statistic code params) (expMeasure r) (gaussianReal 0 1) := by
  obtain ⟨G, hG, hgen⟩ := simulates_all (f := .exponential r) fun n => C111_exponential classes hp r hr n
  exact ⟨G, hG, hgen, eppsPulley_limitLaw code params hr⟩

include hp hv in
/-- **C138, refuted, Bonett-Seier**: the rounded constants of the code, `13.29` and `3`, do not match: for large normal samples
the value exceeds every bound. -/
theorem C138_refuted_bonettSeier : ∃ G, (Gen.Family.normal m v).simulator classes = .ok G ∧
    (∀ n, G.generate n = .ok (iid n (gaussianReal m v.toNNReal))) ∧
    (∀ t, Tendsto (fun n => iid n (gaussianReal m v.toNNReal)
      {x | ∃ d ≤ t, (NormStat.bonettSeier.statistic scipyNorm code params).execute (List.ofFn x) = .ok d}) atTop (𝓝 0)) ∧
    ¬ LimitLaw (NormStat.bonettSeier.statistic scipyNorm code params) (gaussianReal m v.toNNReal) (gaussianReal 0 1) :=
  with_normal hp m hv ⟨bonettSeier_drifts code params m hv, drifts_not_normal (bonettSeier_drifts code params m hv)⟩

include hp hv in
/-- **C138, refuted, D'Agostino**: the constant of the code, `0.28209479`, is below `1 / (2√π)`: for large normal samples the
value exceeds every bound. -/
theorem C138_refuted_dagostino : ∃ G, (Gen.Family.normal m v).simulator classes = .ok G ∧
    (∀ n, G.generate n = .ok (iid n (gaussianReal m v.toNNReal))) ∧
    (∀ t, Tendsto (fun n => iid n (gaussianReal m v.toNNReal)
      {x | ∃ d ≤ t, (NormStat.dagostino.statistic scipyNorm code params).execute (List.ofFn x) = .ok d}) atTop (𝓝 0)) ∧
    ¬ LimitLaw (NormStat.dagostino.statistic scipyNorm code params) (gaussianReal m v.toNNReal) (gaussianReal 0 1) :=
  with_normal hp m hv ⟨dagostino_drifts code params m hv, drifts_not_normal (dagostino_drifts code params m hv)⟩

theorem chiSquareLaw_two : chiSquareLaw 2 = expMeasure (1 / 2) := by
  rw [chiSquareLaw, expMeasure]
  norm_num

/-- The chi-square law with two degrees of freedom exceeds `-2 log α` with probability `α`. -/
theorem chiSquareLaw_level {α : ℝ} (h0 : 0 < α) (h1 : α ≤ 1) : chiSquareLaw 2 {-2 * Real.log α} = 0 ∧
    chiSquareLaw 2 (Set.Iic (-2 * Real.log α)) = ENNReal.ofReal (1 - α) := by
  have hl := Real.log_nonpos h0.le h1
  have hpr := isProbabilityMeasure_expMeasure (r := 1 / 2) (by norm_num)
  rw [chiSquareLaw_two]
  constructor
  · have : expMeasure (1 / 2) ≪ volume := withDensity_absolutelyContinuous _ _
    exact this (by simp)
  · rw [← ofReal_measureReal, ← cdf_eq_real, cdf_expMeasure_eq (by norm_num), if_pos (by linarith)]
    congr 2
    rw [show -(1 / 2 * (-2 * Real.log α)) = Real.log α by ring, Real.exp_log h0]

include hv in
/-- **C138, the level**: the samples for which the value is at most `-2 log α` have a probability that tends to `1 - α`, for each
criterion whose limit is the chi-square law with two degrees of freedom. -/
theorem C138_level {α : ℝ} (h0 : 0 < α) (h1 : α ≤ 1) {s : NormStat}
    (hs : s ∈ [NormStat.jarqueBera, .dap, .bontempsMeddahi1, .doornikHansen]) :
    Tendsto (fun n => iid n (gaussianReal m v.toNNReal)
      {x | ∃ d ≤ -2 * Real.log α, (s.statistic scipyNorm code params).execute (List.ofFn x) = .ok d}) atTop
      (𝓝 (ENNReal.ofReal (1 - α))) := by
  obtain ⟨a, b⟩ := chiSquareLaw_level h0 h1
  rw [← b]
  simp only [List.mem_cons, List.not_mem_nil, or_false] at hs
  rcases hs with rfl | rfl | rfl | rfl
  · exact jarqueBera_limitLaw code params m hv _ a
  · exact dap_limitLaw code params m hv _ a
  · exact bontempsMeddahi1_limitLaw code params m hv _ a
  · exact doornikHansen_limitLaw code params m hv _ a

/-- Half of the large samples of the law `N(5, 4)` get a negative value of the skewness criterion. -/
example : Tendsto (fun n => iid n (gaussianReal 5 (4 : ℝ).toNNReal)
    {x | ∃ d ≤ 0, (NormStat.skew.statistic scipyNorm code params).execute (List.ofFn x) = .ok d}) atTop
    (𝓝 (gaussianReal 0 1 (Set.Iic 0))) :=
  skew_limitLaw code params 5 (by norm_num) 0 (gaussian_point 0)

end

end Pysatl.Props
