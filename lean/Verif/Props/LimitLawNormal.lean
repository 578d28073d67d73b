import Verif.Props.LimitLaw

/-! # C138: moments of normal samples, for large samples -/

namespace Pysatl.Props

open Pysatl.Decision Pysatl.Resolver Pysatl.Spec Pysatl.Edf Pysatl.Graph Pysatl.Gen Pysatl.Normal Pysatl.Exponent
open MeasureTheory ProbabilityTheory Filter Topology

/-! ### Moments of the standard normal law -/

theorem stdNormal_odd (k : ℕ) (hk : Odd k) : ∫ x, x ^ k ∂gaussianReal 0 1 = 0 := by
  have hm : (gaussianReal 0 1).map (fun y : ℝ => -y) = gaussianReal 0 1 := by
    have := gaussianReal_map_neg (μ := 0) (v := 1)
    simpa using this
  have h : ∫ x, x ^ k ∂gaussianReal 0 1 = ∫ x, (-x) ^ k ∂gaussianReal 0 1 := by
    conv_lhs => rw [← hm]
    rw [integral_map (by fun_prop) (by fun_prop)]
  simp only [hk.neg_pow, integral_neg] at h
  linarith

theorem stdNormal_step (k : ℕ) (hk : Even k) :
    ∫ x, x ^ (k + 2) ∂gaussianReal 0 1 = (k + 1) * ∫ x, x ^ k ∂gaussianReal 0 1 := by
  have e : ∀ j : ℕ, Even j → ∫ x, x ^ j ∂gaussianReal 0 1 = 2 ^ ((j : ℝ) / 2) * Real.Gamma (((j : ℝ) + 1) / 2) / √Real.pi := by
    intro j hj
    rw [← stdNormal_abs_moment j (by have : (0 : ℝ) ≤ j := Nat.cast_nonneg j; linarith)]
    congr 1
    funext x
    rw [Real.rpow_natCast, hj.pow_abs]
  rw [e _ (hk.add (by decide)), e _ hk]
  have hk0 : (0 : ℝ) ≤ k := Nat.cast_nonneg k
  push_cast
  rw [show ((k : ℝ) + 2 + 1) / 2 = (k + 1) / 2 + 1 by ring, Real.Gamma_add_one (by positivity),
    show ((k : ℝ) + 2) / 2 = k / 2 + 1 by ring, Real.rpow_add two_pos, Real.rpow_one]
  ring

theorem stdNormal_power (k : ℕ) : Integrable (fun x => x ^ k) (gaussianReal 0 1) := by
  simpa using integrable_power (gaussian_moment_finite 0 1 k) le_rfl 0

theorem stdNormal_moments : (∫ x, x ^ 0 ∂gaussianReal 0 1 = 1) ∧ (∫ x, x ^ 2 ∂gaussianReal 0 1 = 1) ∧
    (∫ x, x ^ 4 ∂gaussianReal 0 1 = 3) ∧ (∫ x, x ^ 6 ∂gaussianReal 0 1 = 15) ∧ ∫ x, x ^ 8 ∂gaussianReal 0 1 = 105 := by
  have h0 : ∫ x, x ^ 0 ∂gaussianReal 0 1 = 1 := by simp
  have h2 := stdNormal_step 0 (by decide)
  rw [h0] at h2
  have h4 := stdNormal_step 2 (by decide)
  rw [show 0 + 2 = 2 from rfl] at h2
  rw [h2] at h4
  have h6 := stdNormal_step 4 (by decide)
  rw [show 2 + 2 = 4 from rfl] at h4
  rw [h4] at h6
  have h8 := stdNormal_step 6 (by decide)
  rw [show 4 + 2 = 6 from rfl] at h6
  rw [h6] at h8
  norm_num at *
  exact ⟨h2, h4, h6, h8⟩

/-- The expectation of a polynomial. -/
theorem stdNormal_poly (a b c d e f g h i : ℝ) :
    ∫ x, (a + b * x ^ 1 + c * x ^ 2 + d * x ^ 3 + e * x ^ 4 + f * x ^ 5 + g * x ^ 6 + h * x ^ 7 + i * x ^ 8) ∂gaussianReal 0 1 =
      a + c + 3 * e + 15 * g + 105 * i := by
  have p := fun (c : ℝ) (k : ℕ) => (stdNormal_power k).const_mul c
  obtain ⟨-, m2, m4, m6, m8⟩ := stdNormal_moments
  have p0 : Integrable (fun _ : ℝ => a) (gaussianReal 0 1) := integrable_const a
  have p1 := p0.add (p b 1)
  have p2 := p1.add (p c 2)
  have p3 := p2.add (p d 3)
  have p4 := p3.add (p e 4)
  have p5 := p4.add (p f 5)
  have p6 := p5.add (p g 6)
  have p7 := p6.add (p h 7)
  rw [integral_add (by exact p7) (p i 8), integral_add (by exact p6) (p h 7), integral_add (by exact p5) (p g 6),
    integral_add (by exact p4) (p f 5), integral_add (by exact p3) (p e 4), integral_add (by exact p2) (p d 3),
    integral_add (by exact p1) (p c 2), integral_add p0 (p b 1)]
  simp only [integral_const_mul, stdNormal_odd 1 (by decide), stdNormal_odd 3 (by decide), stdNormal_odd 5 (by decide),
    stdNormal_odd 7 (by decide), m2, m4, m6, m8, integral_const, probReal_univ, smul_eq_mul]
  ring

/-! ### Functions of standardised values -/

section
variable (m : ℝ) {v : ℝ} (hv : 0 < v)

/-- A value standardised by the parameters of the hypothesis. -/
noncomputable def zval (m v x : ℝ) : ℝ := (x - m) / √v

theorem measurable_zval (v : ℝ) : Measurable (zval m v) := by unfold zval; fun_prop

include hv in
theorem map_zval : (gaussianReal m v.toNNReal).map (zval m v) = gaussianReal 0 1 := by
  have h1 : (gaussianReal m v.toNNReal).map (fun x => x - m) = gaussianReal 0 v.toNNReal := by
    rw [gaussianReal_map_sub_const, sub_self]
  have h2 := gaussianReal_map_div_const (μ := 0) (v := v.toNNReal) √v
  have e : zval m v = (fun x => x / √v) ∘ fun x => x - m := rfl
  rw [e, ← Measure.map_map (by fun_prop) (by fun_prop), h1, h2]
  congr 1
  · simp
  · ext
    simp [Real.sq_sqrt hv.le, Real.coe_toNNReal _ hv.le, hv.ne']

include hv in
theorem integral_zval {f : ℝ → ℝ} (hf : Measurable f) :
    ∫ x, f (zval m v x) ∂gaussianReal m v.toNNReal = ∫ x, f x ∂gaussianReal 0 1 := by
  rw [← map_zval m hv, integral_map (measurable_zval m v).aemeasurable hf.aestronglyMeasurable]

include hv in
theorem memLp_zval {f : ℝ → ℝ} {p : ENNReal} (h : MemLp f p (gaussianReal 0 1)) :
    MemLp (fun x => f (zval m v x)) p (gaussianReal m v.toNNReal) := by
  rw [← map_zval m hv] at h
  exact h.comp_of_map (measurable_zval m v).aemeasurable

end

/-- A polynomial has finite moments. -/
theorem memLp_poly (p : Polynomial ℝ) : MemLp (fun x => p.eval x) 2 (gaussianReal 0 1) := by
  rw [memLp_two_iff_integrable_sq (by fun_prop)]
  have : ∀ q : Polynomial ℝ, Integrable (fun x => q.eval x) (gaussianReal 0 1) := fun q => by
    induction q using Polynomial.induction_on' with
    | add a b ha hb =>
      simp only [Polynomial.eval_add]
      exact ha.add hb
    | monomial k c => simpa using (stdNormal_power k).const_mul c
  exact (this (p ^ 2)).congr (ae_of_all _ fun x => by simp)

/-- Powers, and the Hermite polynomials of degree three and four. -/
theorem memLp_pow (k : ℕ) : MemLp (fun x => x ^ k) 2 (gaussianReal 0 1) := by
  simpa using memLp_poly (Polynomial.X ^ k)

theorem memLp_he3 : MemLp he3 2 (gaussianReal 0 1) := by
  refine (memLp_poly (Polynomial.X ^ 3 - 3 * Polynomial.X)).ae_eq (ae_of_all _ fun x => ?_)
  simp [he3]

theorem memLp_he4 : MemLp he4 2 (gaussianReal 0 1) := by
  refine (memLp_poly (Polynomial.X ^ 4 - 6 * Polynomial.X ^ 2 + 3)).ae_eq (ae_of_all _ fun x => ?_)
  simp [he4]

theorem hermite_integrals : (∫ x, he3 x ∂gaussianReal 0 1 = 0) ∧ (∫ x, he4 x ∂gaussianReal 0 1 = 0) ∧
    (∫ x, he3 x ^ 2 ∂gaussianReal 0 1 = 6) ∧ (∫ x, he4 x ^ 2 ∂gaussianReal 0 1 = 24) ∧
    ∫ x, he3 x * he4 x ∂gaussianReal 0 1 = 0 := by
  have key : ∀ (F : ℝ → ℝ) (r a b c d e f g h i : ℝ), (∀ x, F x = a + b * x ^ 1 + c * x ^ 2 + d * x ^ 3 + e * x ^ 4 +
      f * x ^ 5 + g * x ^ 6 + h * x ^ 7 + i * x ^ 8) → a + c + 3 * e + 15 * g + 105 * i = r →
      ∫ x, F x ∂gaussianReal 0 1 = r := by
    intro F r a b c d e f g h i hF hr
    rw [← hr, ← stdNormal_poly a b c d e f g h i]
    simp only [hF]
  refine ⟨?_, ?_, ?_, ?_, ?_⟩
  · exact key _ _ 0 (-3) 0 1 0 0 0 0 0 (fun x => by rw [he3]; ring) (by norm_num)
  · exact key _ _ 3 0 (-6) 0 1 0 0 0 0 (fun x => by rw [he4]; ring) (by norm_num)
  · exact key _ _ 0 0 9 0 (-6) 0 1 0 0 (fun x => by rw [he3]; ring) (by norm_num)
  · exact key _ _ 9 0 (-36) 0 42 0 (-12) 0 1 (fun x => by rw [he4]; ring) (by norm_num)
  · exact key _ _ 0 (-9) 0 21 0 (-9) 0 1 0 (fun x => by rw [he3, he4]; ring) (by norm_num)

/-! ### Sample moments -/

section
variable (m : ℝ) {v : ℝ} (hv : 0 < v)

/-- The average of a power of the standardised values. -/
noncomputable def zavg (m v : ℝ) (k n : ℕ) (ω : ℕ → ℝ) : ℝ := avg (fun x => zval m v x ^ k) n ω

theorem measurable_zpow (v : ℝ) (k : ℕ) : Measurable fun x => zval m v x ^ k := (measurable_zval m v).pow_const k

include hv in
theorem mean_zavg {n : ℕ} (hn : 0 < n) (ω : ℕ → ℝ) :
    meanOf id (List.ofFn (firsts n ω)) = m + √v * zavg m v 1 n ω := by
  have hn' : (n : ℝ) ≠ 0 := by exact_mod_cast hn.ne'
  have hs : √v ≠ 0 := (Real.sqrt_pos.2 hv).ne'
  rw [meanOf_empirical, integral_firsts, zavg, avg]
  simp only [zval, pow_one, id, ← Finset.sum_div, Finset.sum_sub_distrib, Finset.sum_const, Finset.card_range, nsmul_eq_mul]
  field_simp
  ring

include hv in
/-- Sample central moments, in terms of the standardised values. -/
theorem central_zavg {n : ℕ} (hn : 0 < n) (ω : ℕ → ℝ) (k : ℕ) :
    Spec.centralMoment k (List.ofFn (firsts n ω)) =
      √v ^ k * avg (fun x => (zval m v x - zavg m v 1 n ω) ^ k) n ω := by
  have hs : √v ≠ 0 := (Real.sqrt_pos.2 hv).ne'
  rw [Spec.centralMoment, mean_zavg m hv hn, meanOf_empirical, integral_firsts, avg, ← mul_div_assoc, Finset.mul_sum]
  congr 1
  refine Finset.sum_congr rfl fun i _ => ?_
  rw [← mul_pow, zval]
  congr 1
  field_simp
  ring

theorem zavg_second {n : ℕ} (hn : 0 < n) (ω : ℕ → ℝ) : avg (fun x => (zval m v x - zavg m v 1 n ω) ^ 2) n ω =
    zavg m v 2 n ω - zavg m v 1 n ω ^ 2 := by
  have hn' : (n : ℝ) ≠ 0 := by exact_mod_cast hn.ne'
  have e : ∀ x, (zval m v x - zavg m v 1 n ω) ^ 2 = zval m v x ^ 2 - 2 * zavg m v 1 n ω * zval m v x ^ 1 +
    zavg m v 1 n ω ^ 2 := fun x => by ring
  simp only [e]
  simp only [zavg, avg, Finset.sum_add_distrib, Finset.sum_sub_distrib, ← Finset.mul_sum, Finset.sum_const,
    Finset.card_range, nsmul_eq_mul]
  field_simp
  ring

theorem zavg_third {n : ℕ} (hn : 0 < n) (ω : ℕ → ℝ) : avg (fun x => (zval m v x - zavg m v 1 n ω) ^ 3) n ω =
    zavg m v 3 n ω - 3 * zavg m v 1 n ω * zavg m v 2 n ω + 2 * zavg m v 1 n ω ^ 3 := by
  have hn' : (n : ℝ) ≠ 0 := by exact_mod_cast hn.ne'
  have e : ∀ x, (zval m v x - zavg m v 1 n ω) ^ 3 = zval m v x ^ 3 - 3 * zavg m v 1 n ω * zval m v x ^ 2 +
    3 * zavg m v 1 n ω ^ 2 * zval m v x ^ 1 - zavg m v 1 n ω ^ 3 := fun x => by ring
  simp only [e]
  simp only [zavg, avg, Finset.sum_add_distrib, Finset.sum_sub_distrib, ← Finset.mul_sum, Finset.sum_const,
    Finset.card_range, nsmul_eq_mul]
  field_simp
  ring

theorem zavg_fourth {n : ℕ} (hn : 0 < n) (ω : ℕ → ℝ) : avg (fun x => (zval m v x - zavg m v 1 n ω) ^ 4) n ω =
    zavg m v 4 n ω - 4 * zavg m v 1 n ω * zavg m v 3 n ω + 6 * zavg m v 1 n ω ^ 2 * zavg m v 2 n ω -
      3 * zavg m v 1 n ω ^ 4 := by
  have hn' : (n : ℝ) ≠ 0 := by exact_mod_cast hn.ne'
  have e : ∀ x, (zval m v x - zavg m v 1 n ω) ^ 4 = zval m v x ^ 4 - 4 * zavg m v 1 n ω * zval m v x ^ 3 +
    6 * zavg m v 1 n ω ^ 2 * zval m v x ^ 2 - 4 * zavg m v 1 n ω ^ 3 * zval m v x ^ 1 + zavg m v 1 n ω ^ 4 := fun x => by ring
  simp only [e]
  simp only [zavg, avg, Finset.sum_add_distrib, Finset.sum_sub_distrib, ← Finset.mul_sum, Finset.sum_const,
    Finset.card_range, nsmul_eq_mul]
  field_simp
  ring

/-- The sample variance over the variance of the hypothesis. -/
noncomputable def zvar (m v : ℝ) (n : ℕ) (ω : ℕ → ℝ) : ℝ := zavg m v 2 n ω - zavg m v 1 n ω ^ 2

include hv in
theorem skewness_zavg {n : ℕ} (hn : 0 < n) (ω : ℕ → ℝ) : skewness (List.ofFn (firsts n ω)) =
    (zavg m v 3 n ω - 3 * zavg m v 1 n ω * zavg m v 2 n ω + 2 * zavg m v 1 n ω ^ 3) * (√(zvar m v n ω) ^ 3)⁻¹ := by
  have hs := Real.sqrt_pos.2 hv
  rw [skewness, stdDev, central_zavg m hv hn, central_zavg m hv hn, zavg_second m hn, zavg_third m hn,
    Real.sqrt_mul (by positivity), Real.sqrt_sq hs.le, mul_pow, ← zvar, mul_div_mul_left _ _ (by positivity), div_eq_mul_inv]

include hv in
theorem kurtosis_zavg {n : ℕ} (hn : 0 < n) (ω : ℕ → ℝ) : kurtosis (List.ofFn (firsts n ω)) =
    (zavg m v 4 n ω - 4 * zavg m v 1 n ω * zavg m v 3 n ω + 6 * zavg m v 1 n ω ^ 2 * zavg m v 2 n ω -
      3 * zavg m v 1 n ω ^ 4) * (√(zvar m v n ω) ^ 4)⁻¹ := by
  have hs := Real.sqrt_pos.2 hv
  rw [kurtosis, stdDev, central_zavg m hv hn, central_zavg m hv hn, zavg_second m hn, zavg_fourth m hn,
    Real.sqrt_mul (by positivity), Real.sqrt_sq hs.le, mul_pow, ← zvar, mul_div_mul_left _ _ (by positivity), div_eq_mul_inv]

include hv in
theorem zavg_settles (k : ℕ) : ∀ᵐ ω ∂seqLaw (gaussianReal m v.toNNReal),
    Tendsto (fun n => zavg m v k n ω) atTop (𝓝 (∫ x, x ^ k ∂gaussianReal 0 1)) := by
  rw [← integral_zval m hv (f := fun x => x ^ k) (by fun_prop)]
  exact law_of_large_numbers (measurable_zpow m v k)
    ((memLp_zval m hv (memLp_pow k)).integrable (by norm_num))

theorem measurable_zavg (v : ℝ) (k n : ℕ) : Measurable (zavg m v k n) := measurable_avg (measurable_zpow m v k) n

theorem measurable_zvar (v : ℝ) (n : ℕ) : Measurable (zvar m v n) :=
  (measurable_zavg m v 2 n).sub ((measurable_zavg m v 1 n).pow_const 2)

include hv in
theorem zvar_settles : ∀ᵐ ω ∂seqLaw (gaussianReal m v.toNNReal), Tendsto (fun n => zvar m v n ω) atTop (𝓝 1) := by
  filter_upwards [zavg_settles m hv 1, zavg_settles m hv 2] with ω a b
  rw [stdNormal_odd 1 (by decide)] at a
  rw [stdNormal_moments.2.1] at b
  have := b.sub (a.pow 2)
  norm_num only at this
  exact this

include hv in
theorem near_zvar (k : ℕ) : Near (gaussianReal m v.toNNReal) (fun n ω => (√(zvar m v n ω) ^ k)⁻¹) (fun _ _ => 1) := by
  refine Near.of_ae (fun n => ((measurable_zvar m v n).sqrt.pow_const k).inv) ?_
  filter_upwards [zvar_settles m hv] with ω a
  have := (a.sqrt.pow k).inv₀ (by simp)
  simpa using this

/-- Averages of the standardised values multiplied by `√n`. -/
theorem tight_zval (hv : 0 < v) {f : ℝ → ℝ} (hf : Measurable f) (h2 : MemLp f 2 (gaussianReal 0 1))
    (h0 : ∫ x, f x ∂gaussianReal 0 1 = 0) :
    Tight (gaussianReal m v.toNNReal) (rootAvg fun x => f (zval m v x)) :=
  tight_rootAvg (hf.comp (measurable_zval m v)) (memLp_zval m hv h2) (by rw [integral_zval m hv hf, h0])

include hv in
theorem small_zval {f : ℝ → ℝ} (hf : Measurable f) (h2 : MemLp f 2 (gaussianReal 0 1))
    (h0 : ∫ x, f x ∂gaussianReal 0 1 = 0) :
    Small (gaussianReal m v.toNNReal) (avg fun x => f (zval m v x)) :=
  small_avg (hf.comp (measurable_zval m v)) ((memLp_zval m hv h2).integrable (by norm_num))
    (by rw [integral_zval m hv hf, h0])

theorem measurable_he3 : Measurable he3 := by unfold he3; fun_prop
theorem measurable_he4 : Measurable he4 := by unfold he4; fun_prop

/-- **The skewness of a large normal sample** is close to an average. -/
theorem near_skewness (hv : 0 < v) : Near (gaussianReal m v.toNNReal)
    (fun n ω => √(n : ℝ) * skewness (List.ofFn (firsts n ω))) (rootAvg fun x => he3 (zval m v x)) := by
  have h1 : Near (gaussianReal m v.toNNReal) (fun n ω => √(n : ℝ) *
      (zavg m v 3 n ω - 3 * zavg m v 1 n ω * zavg m v 2 n ω + 2 * zavg m v 1 n ω ^ 3))
      (rootAvg fun x => he3 (zval m v x)) := by
    have t1 := tight_zval m hv (f := fun x => x ^ 1) (by fun_prop) (memLp_pow 1) (stdNormal_odd 1 (by decide))
    have s1 : Small (gaussianReal m v.toNNReal) (fun n ω => 2 * zavg m v 1 n ω ^ 2 - 3 * (zavg m v 2 n ω - 1)) := by
      refine Small.of_ae (fun n => ((((measurable_zavg m v 1 n).pow_const 2)).const_mul 2).sub
        (((measurable_zavg m v 2 n).sub_const 1).const_mul 3)) ?_
      filter_upwards [zavg_settles m hv 1, zavg_settles m hv 2] with ω a b
      rw [stdNormal_odd 1 (by decide)] at a
      rw [stdNormal_moments.2.1] at b
      simpa using ((a.pow 2).const_mul 2).sub ((b.sub_const 1).const_mul 3)
    refine (Near.of_small (W := rootAvg fun x => he3 (zval m v x)) (t1.mul_small s1)).congr
      (ae_of_all _ fun ω => .of_forall fun n => ?_)
    have e : avg (fun x => he3 (zval m v x)) n ω = zavg m v 3 n ω - 3 * zavg m v 1 n ω := by
      simp only [avg, he3, zavg, Finset.sum_sub_distrib, ← Finset.mul_sum, pow_one]
      ring
    simp only [rootAvg, e]
    change _ = _ + √(n : ℝ) * zavg m v 1 n ω * _
    ring
  have h2 := h1.mul (near_zvar m hv 3) (tight_zval m hv measurable_he3 memLp_he3 hermite_integrals.1) (Tight.const 1)
  refine (h2.of_eq fun n ω => mul_one _).congr (ae_of_all _ fun ω => ?_)
  filter_upwards [eventually_gt_atTop 0] with n hn
  rw [skewness_zavg m hv hn]
  ring

/-- **The kurtosis of a large normal sample** is close to three plus an average. -/
theorem near_kurtosis (hv : 0 < v) : Near (gaussianReal m v.toNNReal)
    (fun n ω => √(n : ℝ) * (kurtosis (List.ofFn (firsts n ω)) - 3)) (rootAvg fun x => he4 (zval m v x)) := by
  have h1 : Near (gaussianReal m v.toNNReal) (fun n ω => √(n : ℝ) *
      (zavg m v 4 n ω - 4 * zavg m v 1 n ω * zavg m v 3 n ω + 6 * zavg m v 1 n ω ^ 2 * zavg m v 2 n ω -
      3 * zavg m v 1 n ω ^ 4 - 3 * zvar m v n ω ^ 2))
      (rootAvg fun x => he4 (zval m v x)) := by
    have t1 := tight_zval m hv (f := fun x => x ^ 1) (by fun_prop) (memLp_pow 1) (stdNormal_odd 1 (by decide))
    have t2 := tight_zval m hv (f := fun x => x ^ 2 - 1) (by fun_prop)
      ((memLp_pow 2).sub (memLp_const 1)) (by
        rw [integral_sub (stdNormal_power 2) (integrable_const 1), stdNormal_moments.2.1]
        simp)
    have s1 : Small (gaussianReal m v.toNNReal) (fun n ω => -4 * zavg m v 3 n ω + 12 * (zavg m v 1 n ω * zavg m v 2 n ω) -
        6 * zavg m v 1 n ω ^ 3) := by
      refine Small.of_ae (fun n => ((((measurable_zavg m v 3 n)).const_mul (-4)).add
        (((measurable_zavg m v 1 n).mul (measurable_zavg m v 2 n)).const_mul 12)).sub
        (((measurable_zavg m v 1 n).pow_const 3).const_mul 6)) ?_
      filter_upwards [zavg_settles m hv 1, zavg_settles m hv 2, zavg_settles m hv 3] with ω a b c
      rw [stdNormal_odd 1 (by decide)] at a
      rw [stdNormal_moments.2.1] at b
      rw [stdNormal_odd 3 (by decide)] at c
      have := ((c.const_mul (-4)).add ((a.mul b).const_mul 12)).sub ((a.pow 3).const_mul 6)
      norm_num only at this
      exact this
    have s2 : Small (gaussianReal m v.toNNReal) (fun n ω => -3 * (zavg m v 2 n ω - 1)) := by
      refine Small.of_ae (fun n => ((measurable_zavg m v 2 n).sub_const 1).const_mul (-3)) ?_
      filter_upwards [zavg_settles m hv 2] with ω b
      rw [stdNormal_moments.2.1] at b
      simpa using ((b.sub_const 1).const_mul (-3))
    refine (Near.of_small (W := rootAvg fun x => he4 (zval m v x)) ((t1.mul_small s1).add (t2.mul_small s2))).congr
      (ae_of_all _ fun ω => ?_)
    filter_upwards [eventually_gt_atTop 0] with n hn
    have hn' : (n : ℝ) ≠ 0 := by exact_mod_cast hn.ne'
    have e : avg (fun x => he4 (zval m v x)) n ω = zavg m v 4 n ω - 6 * zavg m v 2 n ω + 3 := by
      simp only [avg, he4, zavg, Finset.sum_sub_distrib, Finset.sum_add_distrib, ← Finset.mul_sum, Finset.sum_const,
        Finset.card_range, nsmul_eq_mul]
      field_simp
    have e2 : avg (fun x => zval m v x ^ 2 - 1) n ω = zavg m v 2 n ω - 1 := by
      simp only [avg, zavg, Finset.sum_sub_distrib, Finset.sum_const, Finset.card_range, nsmul_eq_mul]
      field_simp
    simp only [rootAvg, e, e2]
    change _ = _ + (√(n : ℝ) * zavg m v 1 n ω * _ + _)
    rw [zvar]
    ring
  have h2 := h1.mul (near_zvar m hv 4) (tight_zval m hv measurable_he4 memLp_he4 hermite_integrals.2.1) (Tight.const 1)
  refine (h2.of_eq fun n ω => mul_one _).congr ?_
  filter_upwards [zvar_settles m hv] with ω a
  filter_upwards [eventually_gt_atTop 0, a.eventually (lt_mem_nhds one_pos)] with n hn hz
  rw [kurtosis_zavg m hv hn, mul_assoc]
  have e : √(zvar m v n ω) ^ 4 = zvar m v n ω ^ 2 := by
    rw [show √(zvar m v n ω) ^ 4 = (√(zvar m v n ω) ^ 2) ^ 2 by ring, Real.sq_sqrt hz.le]
  rw [e]
  field_simp

end

end Pysatl.Props
