import Verif.Spec.BetaLaw
import Verif.Lemmas.BetaLaw
import Verif.Lemmas.SampleMoments
import Verif.Props.Families
import Verif.Props.NormalFit
import Verif.Props.UniformMoments

/-! # C119: the beta criteria compare with the constants of the beta law -/

namespace Pysatl.Props

open Pysatl.Decision Pysatl.Graph Pysatl.Edf Pysatl.Exponent Pysatl.Normal Pysatl.Uniform
open Pysatl.Beta Pysatl.Spec
open MeasureTheory ProbabilityTheory

/-! ### Moments of the beta law -/

theorem integrable_beta_pow {a b : ℝ} (ha : 0 < a) (hb : 0 < b) (k : ℕ) :
    Integrable (fun x : ℝ => x ^ k) (betaMeasure a b) :=
  integrable_beta_bounded ha hb (by fun_prop) 1 fun x h0 h1 => by
    rw [abs_of_pos (pow_pos h0 k)]
    exact pow_le_one₀ h0.le h1.le

theorem integral_beta_poly {a b : ℝ} (ha : 0 < a) (hb : 0 < b) (d : ℕ) (c : ℕ → ℝ) :
    ∫ x, (∑ k ∈ Finset.range d, c k * x ^ k) ∂betaMeasure a b =
      ∑ k ∈ Finset.range d, c k * ∏ i ∈ Finset.range k, (a + i) / (a + b + i) := by
  rw [integral_finsetSum _ fun k _ => (integrable_beta_pow ha hb k).const_mul _]
  refine Finset.sum_congr rfl fun k _ => ?_
  rw [integral_const_mul, integral_beta_pow ha hb]

theorem beta_mean {a b : ℝ} (ha : 0 < a) (hb : 0 < b) : lawMean (betaMeasure a b) = a / (a + b) := by
  have := integral_beta_pow ha hb 1
  simpa [lawMean] using this

theorem beta_raw {a b : ℝ} (ha : 0 < a) (hb : 0 < b) (c0 c1 c2 c3 c4 : ℝ) :
    ∫ x, (c0 + c1 * x + c2 * x ^ 2 + c3 * x ^ 3 + c4 * x ^ 4) ∂betaMeasure a b =
      c0 + c1 * (a / (a + b)) + c2 * (a * (a + 1) / ((a + b) * (a + b + 1))) +
      c3 * (a * (a + 1) * (a + 2) / ((a + b) * (a + b + 1) * (a + b + 2))) +
      c4 * (a * (a + 1) * (a + 2) * (a + 3) / ((a + b) * (a + b + 1) * (a + b + 2) * (a + b + 3))) := by
  have h := integral_beta_poly ha hb 5 fun k =>
    if k = 0 then c0 else if k = 1 then c1 else if k = 2 then c2 else if k = 3 then c3 else c4
  simp only [Finset.sum_range_succ, Finset.prod_range_succ, Finset.prod_range_zero,
    Finset.sum_range_zero] at h
  norm_num at h
  rw [h]
  simp only [div_mul_div_comm]

theorem beta_variance {a b : ℝ} (ha : 0 < a) (hb : 0 < b) :
    lawVariance (betaMeasure a b) = Beta.theoreticalVar ⟨a, b⟩ := by
  have h := beta_raw ha hb ((a / (a + b)) ^ 2) (-2 * (a / (a + b))) 1 0 0
  have e : ∀ x : ℝ, (x - a / (a + b)) ^ 2 = (a / (a + b)) ^ 2 + -2 * (a / (a + b)) * x + 1 * x ^ 2 +
      0 * x ^ 3 + 0 * x ^ 4 := fun x => by ring
  rw [lawVariance, beta_mean ha hb]
  simp only [e]
  rw [h]
  simp only [Beta.theoreticalVar]
  have h1 : (a + b) ≠ 0 := by positivity
  have h2 : (a + b + 1) ≠ 0 := by positivity
  field_simp
  ring

theorem beta_third {a b : ℝ} (ha : 0 < a) (hb : 0 < b) :
    ∫ x, (x - lawMean (betaMeasure a b)) ^ 3 ∂betaMeasure a b =
      2 * a * b * (b - a) / ((a + b) ^ 3 * (a + b + 1) * (a + b + 2)) := by
  rw [beta_mean ha hb]
  generalize hm : a / (a + b) = m
  have h := beta_raw ha hb (-m ^ 3) (3 * m ^ 2) (-3 * m) 1 0
  have e : ∀ x : ℝ, (x - m) ^ 3 = -m ^ 3 + 3 * m ^ 2 * x + -3 * m * x ^ 2 +
      1 * x ^ 3 + 0 * x ^ 4 := fun x => by ring
  simp only [e]
  rw [h]
  subst hm
  have h1 : (a + b) ≠ 0 := by positivity
  have h2 : (a + b + 1) ≠ 0 := by positivity
  have h3 : (a + b + 2) ≠ 0 := by positivity
  field_simp
  ring

theorem beta_fourth {a b : ℝ} (ha : 0 < a) (hb : 0 < b) :
    ∫ x, (x - lawMean (betaMeasure a b)) ^ 4 ∂betaMeasure a b =
      3 * a * b * (2 * (a + b) ^ 2 + a * b * (a + b - 6)) /
        ((a + b) ^ 4 * (a + b + 1) * (a + b + 2) * (a + b + 3)) := by
  rw [beta_mean ha hb]
  generalize hm : a / (a + b) = m
  have h := beta_raw ha hb (m ^ 4) (-4 * m ^ 3) (6 * m ^ 2) (-4 * m) 1
  have e : ∀ x : ℝ, (x - m) ^ 4 = m ^ 4 + -4 * m ^ 3 * x + 6 * m ^ 2 * x ^ 2 +
      -4 * m * x ^ 3 + 1 * x ^ 4 := fun x => by ring
  simp only [e]
  rw [h]
  subst hm
  have h1 : (a + b) ≠ 0 := by positivity
  have h2 : (a + b + 1) ≠ 0 := by positivity
  have h3 : (a + b + 2) ≠ 0 := by positivity
  have h4 : (a + b + 3) ≠ 0 := by positivity
  field_simp
  ring

theorem lawStandardised_eq (μ : Measure ℝ) (k : ℕ) :
    lawStandardised μ k = (∫ x, (x - lawMean μ) ^ k ∂μ) / √(lawVariance μ) ^ k := by
  rw [lawStandardised, ← integral_div]
  simp only [div_pow]

theorem theoreticalVar_pos {a b : ℝ} (ha : 0 < a) (hb : 0 < b) : 0 < Beta.theoreticalVar ⟨a, b⟩ := by
  simp only [Beta.theoreticalVar]; positivity

theorem beta_skewness {a b : ℝ} (ha : 0 < a) (hb : 0 < b) :
    lawStandardised (betaMeasure a b) 3 = Beta.theoreticalSkew ⟨a, b⟩ := by
  rw [lawStandardised_eq, beta_third ha hb, beta_variance ha hb]
  have hv : √(Beta.theoreticalVar ⟨a, b⟩) = √(a * b) / ((a + b) * √(a + b + 1)) := by
    simp only [Beta.theoreticalVar]
    rw [Real.sqrt_div (by positivity), Real.sqrt_mul (sq_nonneg (a + b)),
      Real.sqrt_sq (by positivity)]
  rw [hv]
  simp only [Beta.theoreticalSkew]
  have h1 : 0 < √(a * b) := Real.sqrt_pos.2 (by positivity)
  have h2 : 0 < √(a + b + 1) := Real.sqrt_pos.2 (by positivity)
  have e1 : √(a * b) ^ 2 = a * b := Real.sq_sqrt (by positivity)
  have e2 : √(a + b + 1) ^ 2 = a + b + 1 := Real.sq_sqrt (by positivity)
  generalize √(a * b) = s at *
  generalize √(a + b + 1) = t at *
  have h3 : (a + b) ≠ 0 := by positivity
  have h4 : (a + b + 1) ≠ 0 := by positivity
  have h5 : (a + b + 2) ≠ 0 := by positivity
  have e3 : s ^ 3 = s * (a * b) := by rw [← e1]; ring
  have e4 : t ^ 3 = t * (a + b + 1) := by rw [← e2]; ring
  have h6 := ha.ne'
  have h7 := hb.ne'
  rw [div_pow, mul_pow, e3, e4]
  field_simp

theorem beta_kurtosis {a b : ℝ} (ha : 0 < a) (hb : 0 < b) :
    lawStandardised (betaMeasure a b) 4 - 3 = Beta.theoreticalKurt ⟨a, b⟩ := by
  rw [lawStandardised_eq, beta_fourth ha hb, beta_variance ha hb,
    show √(Beta.theoreticalVar ⟨a, b⟩) ^ 4 = (√(Beta.theoreticalVar ⟨a, b⟩) ^ 2) ^ 2 by ring,
    Real.sq_sqrt (theoreticalVar_pos ha hb).le]
  simp only [Beta.theoreticalVar, Beta.theoreticalKurt]
  have h1 : (a + b) ≠ 0 := by positivity
  have h2 : (a + b + 1) ≠ 0 := by positivity
  have h3 : (a + b + 2) ≠ 0 := by positivity
  have h4 : (a + b + 3) ≠ 0 := by positivity
  field_simp
  ring

theorem beta_entropy {a b : ℝ} (ha : 0 < a) (hb : 0 < b) :
    lawEntropy (betaPDFReal a b) = Real.log (Real.Gamma a * Real.Gamma b / Real.Gamma (a + b)) -
      (a - 1) * digamma a - (b - 1) * digamma b + (a + b - 2) * digamma (a + b) := by
  have := isProbabilityMeasureBeta ha hb
  rw [lawEntropy, ← integral_beta ha hb fun x => Real.log (betaPDFReal a b x)]
  have e : ∀ᵐ x ∂betaMeasure a b, Real.log (betaPDFReal a b x) =
      -Real.log (beta a b) + (a - 1) * Real.log x + (b - 1) * Real.log (1 - x) := by
    filter_upwards [ae_beta a b] with x hx
    have hB := beta_pos ha hb
    rw [betaPDFReal, if_pos hx, Real.log_mul (mul_ne_zero (one_div_pos.2 hB).ne'
        (Real.rpow_pos_of_pos hx.1 _).ne') (Real.rpow_pos_of_pos (by linarith [hx.2]) _).ne',
      Real.log_mul (one_div_pos.2 hB).ne' (Real.rpow_pos_of_pos hx.1 _).ne', Real.log_rpow hx.1,
      Real.log_rpow (by linarith [hx.2]), one_div, Real.log_inv]
  have i1 : Integrable (fun x => (a - 1) * Real.log x) (betaMeasure a b) :=
    (integrable_beta_log ha hb).const_mul _
  have i2 : Integrable (fun x => (b - 1) * Real.log (1 - x)) (betaMeasure a b) :=
    (integrable_beta_reflect ha hb (integrable_beta_log hb ha)).const_mul _
  have i0 : Integrable (fun _ : ℝ => -Real.log (beta a b)) (betaMeasure a b) := integrable_const _
  have i3 : Integrable (fun x => -Real.log (beta a b) + (a - 1) * Real.log x) (betaMeasure a b) :=
    i0.add i1
  rw [integral_congr_ae e, integral_add i3 i2, integral_add i0 i1, integral_const_mul,
    integral_const_mul, integral_beta_reflect ha hb Real.log, integral_beta_log ha hb,
    integral_beta_log hb ha, integral_const]
  simp only [digamma, beta, probReal_univ, one_smul, add_comm b a]
  ring

theorem beta_mode {a b : ℝ} (ha : 1 < a) (hb : 1 < b) :
    IsMode (betaPDFReal a b) ((a - 1) / (a + b - 2)) := by
  have hs : 0 < a + b - 2 := by linarith
  set m := (a - 1) / (a + b - 2) with hm
  have hm0 : 0 < m := div_pos (by linarith) hs
  have hm1 : m < 1 := by rw [hm, div_lt_one hs]; linarith
  intro x hx
  have hpos : 0 < betaPDFReal a b m := betaPDFReal_pos hm0 hm1 (by linarith) (by linarith)
  by_cases h : 0 < x ∧ x < 1
  · have hB := beta_pos (show 0 < a by linarith) (show 0 < b by linarith)
    rw [betaPDFReal, betaPDFReal, if_pos h, if_pos ⟨hm0, hm1⟩, mul_assoc, mul_assoc]
    refine mul_lt_mul_of_pos_left ?_ (one_div_pos.2 hB)
    have p1 := Real.rpow_pos_of_pos h.1 (a - 1)
    have p2 := Real.rpow_pos_of_pos (show 0 < 1 - x by linarith [h.2]) (b - 1)
    have p3 := Real.rpow_pos_of_pos hm0 (a - 1)
    have p4 := Real.rpow_pos_of_pos (show 0 < 1 - m by linarith) (b - 1)
    rw [← Real.log_lt_log_iff (mul_pos p1 p2) (mul_pos p3 p4), Real.log_mul p1.ne' p2.ne',
      Real.log_mul p3.ne' p4.ne', Real.log_rpow h.1, Real.log_rpow (by linarith [h.2]),
      Real.log_rpow hm0, Real.log_rpow (by linarith)]
    have l1 : Real.log (x / m) < x / m - 1 := Real.log_lt_sub_one_of_pos (div_pos h.1 hm0)
      fun he => hx (by rw [div_eq_one_iff_eq hm0.ne'] at he; exact he)
    have l2 : Real.log ((1 - x) / (1 - m)) ≤ (1 - x) / (1 - m) - 1 :=
      Real.log_le_sub_one_of_pos (div_pos (by linarith [h.2]) (by linarith))
    rw [Real.log_div h.1.ne' hm0.ne'] at l1
    rw [Real.log_div (by linarith [h.2]) (by linarith)] at l2
    have k1 : (a - 1) * (x / m - 1) = (a + b - 2) * x - (a - 1) := by
      rw [hm]; have := hs.ne'; have : a - 1 ≠ 0 := by linarith
      field_simp
    have hm' : 1 - m = (b - 1) / (a + b - 2) := by
      rw [hm]; have := hs.ne'; field_simp; ring
    have k2 : (b - 1) * ((1 - x) / (1 - m) - 1) = (a + b - 2) * (1 - x) - (b - 1) := by
      rw [hm']; have := hs.ne'; have : b - 1 ≠ 0 := by linarith
      field_simp
    have j1 := mul_lt_mul_of_pos_left l1 (show 0 < a - 1 by linarith)
    have j2 := mul_le_mul_of_nonneg_left l2 (show 0 ≤ b - 1 by linarith)
    linarith
  · rw [betaPDFReal, if_neg h]; exact hpos

/-! ### The criteria -/

/-- The functions of `scipy.special` are the digamma function and the logarithm of the beta function. -/
structure ScipyBeta (lib : BetaLib) : Prop where
  psi : ∀ t, 0 < t → lib.psi t = Spec.digamma t
  betaln : ∀ a b, 0 < a → 0 < b →
    lib.betaln a b = Real.log (Real.Gamma a * Real.Gamma b / Real.Gamma (a + b))

/-- A library that satisfies `ScipyBeta`. -/
noncomputable def idealBeta : BetaLib where
  cdf a b x := cdf (betaMeasure a b) x
  logcdf a b x := Real.log (cdf (betaMeasure a b) x)
  logsf a b x := Real.log (1 - cdf (betaMeasure a b) x)
  psi := Spec.digamma
  betaln a b := Real.log (Real.Gamma a * Real.Gamma b / Real.Gamma (a + b))

theorem scipyBeta_ideal : ScipyBeta idealBeta := ⟨fun _ _ => rfl, fun _ _ _ _ => rfl⟩

theorem var1_spec {xs : List ℝ} (h : 1 ≤ xs.length) : var1 xs = stdDev1 xs ^ 2 := by
  have hn : (1 : ℝ) ≤ xs.length := by exact_mod_cast h
  have hnn : 0 ≤ (xs.map fun x => (x - mean xs) ^ 2).sum / ((xs.length : ℝ) - 1) := by
    refine div_nonneg (List.sum_nonneg ?_) (by linarith)
    simp only [List.mem_map]
    rintro _ ⟨x, _, rfl⟩
    positivity
  rw [stdDev1, ← mean_spec, Real.sq_sqrt hnn, var1]

theorem sq_root_scaled {n t d : ℝ} (hn : 0 ≤ n) (ht : 0 ≤ t) : (√n * d / √t) ^ 2 = n * d ^ 2 / t := by
  rw [div_pow, mul_pow, Real.sq_sqrt hn, Real.sq_sqrt ht]

/-- **C119 (moments).** The moment statistic compares the mean and the unbiased variance of the sample
with the expectation and the variance of the beta law, and is zero exactly when both agree. -/
theorem C119_moments (lib : BetaLib) {a b : ℝ} (ha : 0 < a) (hb : 0 < b) {xs : List ℝ}
    (hn : 2 ≤ xs.length) (hx : ∀ x ∈ xs, 0 ≤ x ∧ x ≤ 1) :
    let M := lawMean (betaMeasure a b)
    let V := lawVariance (betaMeasure a b)
    BetaStat.value lib ⟨a, b⟩ .momentBased xs =
      .ok (xs.length * (meanOf id xs - M) ^ 2 / V + xs.length * (stdDev1 xs ^ 2 - V) ^ 2 / V) ∧
    (BetaStat.value lib ⟨a, b⟩ .momentBased xs = .ok 0 ↔ meanOf id xs = M ∧ stdDev1 xs ^ 2 = V) := by
  intro M V
  have hV : 0 < V := by simp only [V]; rw [beta_variance ha hb]; exact theoreticalVar_pos ha hb
  have hn' : (0 : ℝ) < xs.length := by exact_mod_cast (by omega : 0 < xs.length)
  have h : BetaStat.value lib ⟨a, b⟩ .momentBased xs =
      .ok (xs.length * (meanOf id xs - M) ^ 2 / V + xs.length * (stdDev1 xs ^ 2 - V) ^ 2 / V) := by
    simp only [BetaStat.value, beta_validate_ok hx, bind, Except.bind, pure, Except.pure,
      Beta.momentBased, M, V]
    rw [beta_mean ha hb, beta_variance ha hb, mean_spec, var1_spec (by omega),
      sq_root_scaled hn'.le (theoreticalVar_pos ha hb).le,
      sq_root_scaled hn'.le (theoreticalVar_pos ha hb).le]
  refine ⟨h, ?_⟩
  rw [h]
  simp only [Except.ok.injEq]
  constructor
  · intro h0
    have t1 : 0 ≤ xs.length * (meanOf id xs - M) ^ 2 / V := by positivity
    have t2 : 0 ≤ xs.length * (stdDev1 xs ^ 2 - V) ^ 2 / V := by positivity
    have z1 : xs.length * (meanOf id xs - M) ^ 2 / V = 0 := by linarith
    have z2 : xs.length * (stdDev1 xs ^ 2 - V) ^ 2 / V = 0 := by linarith
    rw [div_eq_zero_iff, mul_eq_zero, pow_eq_zero_iff two_ne_zero, sub_eq_zero] at z1 z2
    exact ⟨(z1.resolve_right hV.ne').resolve_left hn'.ne', (z2.resolve_right hV.ne').resolve_left hn'.ne'⟩
  · rintro ⟨h1, h2⟩
    rw [h1, h2]
    simp

example : (2 : ℕ) ≤ [(1 : ℝ) / 2, 1 / 3, 1].length ∧ ∀ x ∈ [(1 : ℝ) / 2, 1 / 3, 1], 0 ≤ x ∧ x ≤ 1 :=
  ⟨by simp, by norm_num⟩

theorem skewUnbiased_kStat {xs : List ℝ} (hn : 3 ≤ xs.length) (hv : Varies xs) :
    skewUnbiased xs = kStat3 xs / √(kStat2 xs) ^ 3 := by
  have hn' : (3 : ℝ) ≤ xs.length := by exact_mod_cast hn
  have hs := stdDev_pos hv
  simp only [skewUnbiased, kStat3, kStat2]
  rw [if_pos (by omega), skew_spec, skewness, ← stdDev_sq]
  generalize Spec.centralMoment 3 xs = c
  generalize stdDev xs = s at *
  generalize (xs.length : ℝ) = n at *
  have h1 : 0 < n - 1 := by linarith
  rw [Real.sqrt_mul (show 0 ≤ n by linarith),
    Real.sqrt_mul (div_nonneg (show 0 ≤ n by linarith) h1.le) (s ^ 2), Real.sqrt_sq hs.le,
    Real.sqrt_div (by linarith)]
  have q1 : 0 < √n := Real.sqrt_pos.2 (by linarith)
  have q2 : 0 < √(n - 1) := Real.sqrt_pos.2 h1
  have r1 : √n ^ 2 = n := Real.sq_sqrt (by linarith)
  have r2 : √(n - 1) ^ 2 = n - 1 := Real.sq_sqrt h1.le
  generalize √n = u at *
  generalize √(n - 1) = v at *
  have h2 : n - 2 ≠ 0 := by linarith
  rw [← r2, show n ^ 2 = u ^ 4 by rw [← r1]; ring]
  field_simp

/-- **C119 (shape).** From four observations on, the statistic of skewness and kurtosis compares the
estimates of both from the k-statistics with the skewness and the excess kurtosis of the beta law. -/
theorem C119_shape (lib : BetaLib) {a b : ℝ} (ha : 0 < a) (hb : 0 < b) {xs : List ℝ}
    (hn : 4 ≤ xs.length) (hv : Varies xs) (hx : ∀ x ∈ xs, 0 ≤ x ∧ x ≤ 1) :
    BetaStat.value lib ⟨a, b⟩ .skewnessKurtosis xs =
      .ok (xs.length / 6 *
          (kStat3 xs / √(kStat2 xs) ^ 3 - lawStandardised (betaMeasure a b) 3) ^ 2 +
        xs.length / 24 *
          (kStat4 xs / kStat2 xs ^ 2 - (lawStandardised (betaMeasure a b) 4 - 3)) ^ 2) := by
  have hn' : (4 : ℝ) ≤ xs.length := by exact_mod_cast hn
  simp only [BetaStat.value, beta_validate_ok hx, bind, Except.bind, pure, Except.pure,
    Beta.skewnessKurtosis]
  rw [beta_skewness ha hb, beta_kurtosis ha hb]
  have hs := stdDev_pos hv
  have e1 := skewUnbiased_kStat (by omega : 3 ≤ xs.length) hv
  have e2 : kurtUnbiased xs = kStat4 xs / kStat2 xs ^ 2 := by
    simp only [kurtUnbiased, kStat4, kStat2]
    rw [if_pos (by omega), kurt_spec, kurtosis, ← stdDev_sq]
    generalize Spec.centralMoment 4 xs = c
    generalize stdDev xs = s at *
    generalize (xs.length : ℝ) = n at *
    have h1 : n - 1 ≠ 0 := by linarith
    have h2 : n - 2 ≠ 0 := by linarith
    have h3 : n - 3 ≠ 0 := by linarith
    have h4 : n ≠ 0 := by linarith
    field_simp
    ring
  rw [e1, e2]

/-- **C119 (shape), three observations.** The skewness is that of the k-statistics; the kurtosis cannot
be estimated and is the excess of the sample. -/
theorem C119_shape_three (lib : BetaLib) {a b : ℝ} (ha : 0 < a) (hb : 0 < b) {xs : List ℝ}
    (hn : xs.length = 3) (hv : Varies xs) (hx : ∀ x ∈ xs, 0 ≤ x ∧ x ≤ 1) :
    BetaStat.value lib ⟨a, b⟩ .skewnessKurtosis xs =
      .ok (3 / 6 * (kStat3 xs / √(kStat2 xs) ^ 3 - lawStandardised (betaMeasure a b) 3) ^ 2 +
        3 / 24 * (kurtosis xs - 3 - (lawStandardised (betaMeasure a b) 4 - 3)) ^ 2) := by
  simp only [BetaStat.value, beta_validate_ok hx, bind, Except.bind, pure, Except.pure,
    Beta.skewnessKurtosis]
  rw [beta_skewness ha hb, beta_kurtosis ha hb, skewUnbiased_kStat hn.ge hv]
  have e2 : kurtUnbiased xs = kurtosis xs - 3 := by
    simp only [kurtUnbiased]
    rw [if_neg (by omega), kurt_spec]
  rw [e2, hn]
  norm_num

example : [(1 : ℝ) / 2, 1 / 3, 1].length = 3 ∧ Varies [(1 : ℝ) / 2, 1 / 3, 1] :=
  ⟨rfl, ⟨1 / 2, by simp, 1 / 3, by simp, by norm_num⟩⟩

example : 4 ≤ [(1 : ℝ) / 2, 1 / 3, 1, 0].length ∧ Varies [(1 : ℝ) / 2, 1 / 3, 1, 0] ∧
    ∀ x ∈ [(1 : ℝ) / 2, 1 / 3, 1, 0], 0 ≤ x ∧ x ≤ 1 :=
  ⟨by simp, ⟨1, by simp, 0, by simp, by norm_num⟩, by norm_num⟩

theorem geometricMean_spec {xs : List ℝ} (hne : xs ≠ []) (hx : ∀ x ∈ xs, 0 ≤ x) :
    Beta.geometricMean xs = Spec.geometricMean xs := by
  have hn : (xs.length : ℝ) ≠ 0 := by
    have := List.length_pos_iff.2 hne
    positivity
  unfold Beta.geometricMean Spec.geometricMean
  by_cases h : (0 : ℝ) ∈ xs
  · have h1 : xs.any (fun x => decide (x = 0)) = true := by
      rw [List.any_eq_true]; exact ⟨0, h, by simp⟩
    rw [if_pos h1, List.prod_eq_zero h, Real.zero_rpow (one_div_ne_zero hn)]
  · have h1 : ¬ xs.any (fun x => decide (x = 0)) = true := by
      rw [List.any_eq_true]
      rintro ⟨x, hx, h0⟩
      exact h (by simpa [of_decide_eq_true h0] using hx)
    have h2 : ∀ x ∈ xs, 0 < x := fun x hm => lt_of_le_of_ne (hx x hm) fun h0 => h (h0 ▸ hm)
    have h3 : ∀ l : List ℝ, (∀ x ∈ l, 0 < x) → 0 < l.prod ∧ (l.map Real.log).sum = Real.log l.prod := by
      intro l
      induction l with
      | nil => intro; simp
      | cons y l ih =>
        intro hl
        have hy := hl y (by simp)
        obtain ⟨i1, i2⟩ := ih fun x hm => hl x (by simp [hm])
        simp only [List.prod_cons, List.map_cons, List.sum_cons]
        exact ⟨mul_pos hy i1, by rw [i2, Real.log_mul hy.ne' i1.ne']⟩
    obtain ⟨h4, h5⟩ := h3 xs h2
    rw [if_neg h1, mean, h5, List.length_map, Real.rpow_def_of_pos h4]
    congr 1
    ring

/-- **C119 (ratio).** The ratio statistic compares the ratio of the geometric to the arithmetic mean of
the sample with the same ratio of the beta law. -/
theorem C119_ratio {lib : BetaLib} (hl : ScipyBeta lib) {a b : ℝ} (ha : 0 < a) (hb : 0 < b)
    {xs : List ℝ} (h0 : ∃ x ∈ xs, x ≠ 0) (hx : ∀ x ∈ xs, 0 ≤ x ∧ x ≤ 1) :
    BetaStat.value lib ⟨a, b⟩ .ratio xs =
      .ok (√(xs.length : ℝ) * |Spec.geometricMean xs / meanOf id xs -
        lawGeometricMean (betaMeasure a b) / lawMean (betaMeasure a b)|) := by
  obtain ⟨y, hy, hy0⟩ := h0
  have hne : xs ≠ [] := by rintro rfl; simp at hy
  have hpos : 0 < mean xs := by
    have h1 : y ≤ xs.sum := List.single_le_sum (fun x hm => (hx x hm).1) y hy
    have h2 : 0 < y := lt_of_le_of_ne (hx y hy).1 (Ne.symm hy0)
    have h3 := List.length_pos_iff.2 hne
    unfold mean
    have : 0 < xs.sum := by linarith
    positivity
  simp only [BetaStat.value, beta_validate_ok hx, bind, Except.bind, Beta.ratio]
  rw [if_neg hpos.ne', geometricMean_spec hne fun x hm => (hx x hm).1, hl.psi a ha,
    hl.psi (a + b) (add_pos ha hb), mean_spec, lawGeometricMean, integral_beta_log ha hb, beta_mean ha hb]
  rfl

example : ∃ x ∈ [(1 : ℝ) / 2, 1 / 3, 0], x ≠ 0 := ⟨1 / 2, by simp, by norm_num⟩

/-- **C119 (entropy).** For distinct observations and a window of at least one place, the entropy
statistic compares Vasicek's estimate with the differential entropy of the beta law. -/
theorem C119_entropy {lib : BetaLib} (hl : ScipyBeta lib) {a b : ℝ} (ha : 0 < a) (hb : 0 < b)
    {xs : List ℝ} {o : ℕ → ℝ} (ho : OrderStats xs o) (hd : xs.Nodup) (hn : 2 ≤ xs.length)
    (hx : ∀ x ∈ xs, 0 ≤ x ∧ x ≤ 1) (m : Option ℕ) (w : ℕ) (hw : w = m.getD (xs.length / 4))
    (hw1 : 1 ≤ w) :
    BetaStat.value lib ⟨a, b⟩ (.entropy m) xs =
      .ok (√(xs.length : ℝ) * |vasicekEntropy xs.length w o - lawEntropy (betaPDFReal a b)|) := by
  simp only [BetaStat.value, beta_validate_ok hx, bind, Except.bind, Beta.entropy]
  rw [if_neg (by omega), ← hw]
  have e1 : theoreticalEntropy lib ⟨a, b⟩ = lawEntropy (betaPDFReal a b) := by
    rw [beta_entropy ha hb]
    simp only [theoreticalEntropy]
    rw [hl.psi a ha, hl.psi b hb, hl.psi _ (add_pos ha hb), hl.betaln a b ha hb]
  have hlt : ∀ i j, i < j → j < xs.length → at_ (sort xs) i < at_ (sort xs) j := by
    intro i j hij hj
    have hs : (sort xs).Pairwise (· < ·) := by
      have h1 := sort_pairwise xs
      have h2 : (sort xs).Nodup := (sort_perm xs).nodup_iff.2 hd
      exact (h1.and h2).imp fun h => lt_of_le_of_ne h.1 h.2
    have hi : i < (sort xs).length := by rw [length_sort]; omega
    have hj' : j < (sort xs).length := by rw [length_sort]; omega
    have := List.pairwise_iff_getElem.1 hs i j hi hj' hij
    rwa [at_, at_, List.getD_eq_getElem _ _ hi, List.getD_eq_getElem _ _ hj']
  have e2 : vasicek w xs = vasicekEntropy xs.length w o := by
    simp only [vasicek, vasicekEntropy]
    congr 1
    rw [sum_map_range, sum_range_Icc]
    refine Finset.sum_congr rfl fun i hi => ?_
    have hi := Finset.mem_Icc.1 hi
    rw [if_pos (sub_pos.2 (hlt _ _ (by omega) (by omega)))]
    rw [at_sort_orderStats ho (by omega), at_sort_orderStats ho (by omega)]
    congr 1
    rw [show min (xs.length - 1) (i - 1 + w) + 1 = min xs.length (i + w) by omega,
      show i - 1 - w + 1 = max 1 (i - w) by omega]
    ring
  rw [e1, e2]

example : [(1 : ℝ) / 2, 1 / 3, 1, 0].Nodup ∧ 1 ≤ (none : Option ℕ).getD ([(1 : ℝ) / 2, 1 / 3, 1, 0].length / 4) ∧
    ∃ o, OrderStats [(1 : ℝ) / 2, 1 / 3, 1, 0] o :=
  ⟨by norm_num, by simp, exists_orderStats _⟩

theorem kde_spec {xs : List ℝ} (hn : 2 ≤ xs.length) (hv : var1 xs ≠ 0) :
    ∃ c : ℝ, 0 < c ∧ ∀ x, kernelDensity xs (scottBandwidth xs) x = c * kde xs x := by
  have hn' : (0 : ℝ) < xs.length := by exact_mod_cast (by omega : 0 < xs.length)
  have hb : scottBandwidth xs ^ 2 = var1 xs * ((xs.length : ℝ) ^ (-1 / 5 : ℝ)) ^ 2 := by
    rw [scottBandwidth, mul_pow, var1_spec (by omega)]; ring
  have hpos : 0 < scottBandwidth xs ^ 2 := by
    rw [hb]
    have h1 : 0 < var1 xs := lt_of_le_of_ne (by rw [var1_spec (by omega)]; positivity) (Ne.symm hv)
    have h2 : 0 < (xs.length : ℝ) ^ (-1 / 5 : ℝ) := Real.rpow_pos_of_pos hn' _
    positivity
  refine ⟨(√(2 * Real.pi * scottBandwidth xs ^ 2))⁻¹ / xs.length, by positivity, fun x => ?_⟩
  have e : ∀ y, gaussianPDFReal y (scottBandwidth xs ^ 2).toNNReal x =
      (√(2 * Real.pi * scottBandwidth xs ^ 2))⁻¹ *
        Real.exp (-(x - y) ^ 2 / (2 * (var1 xs * ((xs.length : ℝ) ^ (-1 / 5 : ℝ)) ^ 2))) := by
    intro y
    rw [gaussianPDFReal, Real.coe_toNNReal _ hpos.le, hb]
  simp only [kernelDensity, meanOf, e, kde]
  rw [List.sum_map_mul_left]
  ring

/-- **C119 (mode).** The mode statistic compares the mode of the beta law with the first of the 200
equidistant places from `0.01` to `0.99` where the Gaussian kernel density estimate with Scott's
bandwidth is largest. -/
theorem C119_mode (lib : BetaLib) {a b : ℝ} (ha : 1 < a) (hb : 1 < b) {xs : List ℝ}
    (hv : Varies xs) (hx : ∀ x ∈ xs, 0 ≤ x ∧ x ≤ 1) :
    let place : ℕ → ℝ := fun i => 0.01 + i * (0.98 / 199)
    let f := kernelDensity xs (scottBandwidth xs)
    ∃ i M, i < 200 ∧ (∀ j, j < 200 → f (place j) ≤ f (place i)) ∧
      (∀ j, j < i → f (place j) < f (place i)) ∧ IsMode (betaPDFReal a b) M ∧
      BetaStat.value lib ⟨a, b⟩ .mode xs = .ok (√(xs.length : ℝ) * |place i - M|) := by
  intro place f
  have hn : 2 ≤ xs.length := by
    obtain ⟨x, hx, y, hy, hxy⟩ := hv
    rcases xs with _ | ⟨c, _ | ⟨d, l⟩⟩
    · simp at hx
    · simp only [List.mem_singleton] at hx hy
      exact absurd (hx.trans hy.symm) hxy
    · simp
  have hv1 : var1 xs ≠ 0 := by
    have h1 := stdDev_pos hv
    have h2 := stdDev_sq xs
    have h3 : (xs.length : ℝ) - 1 ≠ 0 := by
      have : (2 : ℝ) ≤ xs.length := by exact_mod_cast hn
      linarith
    rw [var1]
    refine div_ne_zero (fun h0 => ?_) h3
    rw [Spec.centralMoment, meanOf, ← mean_spec, h0, zero_div] at h2
    exact h1.ne' (pow_eq_zero_iff two_ne_zero |>.1 h2)
  obtain ⟨c, hc, hk⟩ := kde_spec hn hv1
  have hgrid : modeGrid = (List.range 200).map place := by
    simp only [modeGrid, place]
    refine List.map_congr_left fun i _ => ?_
    norm_num
  have hinj : Function.Injective place := by
    intro i j h
    simp only [place] at h
    have : (i : ℝ) = j := by
      have h2 : (0.98 / 199 : ℝ) ≠ 0 := by norm_num
      exact mul_right_cancel₀ h2 (add_left_cancel h)
    exact_mod_cast this
  obtain ⟨y, hy⟩ : ∃ y, modeGrid.argmax (kde xs) = some y := by
    rw [← Option.ne_none_iff_exists']
    rw [Ne, List.argmax_eq_none, hgrid]
    simp
  have hmem := List.argmax_mem hy
  rw [hgrid, List.mem_map] at hmem
  obtain ⟨i, hi, rfl⟩ := hmem
  have hi : i < 200 := List.mem_range.1 hi
  have hin : ∀ j, j < 200 → place j ∈ modeGrid := fun j hj => by
    rw [hgrid]; exact List.mem_map_of_mem (List.mem_range.2 hj)
  have hidx : ∀ j, j < 200 → modeGrid.idxOf (place j) = j := by
    intro j hj
    have hnd : modeGrid.Nodup := by rw [hgrid]; exact List.nodup_range.map hinj
    have hl : j < modeGrid.length := by rw [hgrid]; simpa using hj
    have : modeGrid[j] = place j := by simp [hgrid]
    rw [← this]
    exact hnd.idxOf_getElem j hl
  refine ⟨i, (a - 1) / (a + b - 2), hi, fun j hj => ?_, fun j hj => ?_, beta_mode ha hb, ?_⟩
  · simp only [f]
    rw [hk, hk]
    exact mul_le_mul_of_nonneg_left (List.le_of_mem_argmax (hin j hj) hy) hc.le
  · simp only [f]
    rw [hk, hk]
    refine mul_lt_mul_of_pos_left ?_ hc
    by_contra hle
    have := List.index_of_argmax hy (hin j (by omega)) (not_lt.1 hle)
    rw [hidx i hi, hidx j (by omega)] at this
    omega
  · simp only [BetaStat.value, beta_validate_ok hx, bind, Except.bind, Beta.mode]
    rw [if_neg (by push Not; exact ⟨hn, hv1⟩), hy]
    rfl

example : Varies [(1 : ℝ) / 2, 1 / 3] := ⟨1 / 2, by simp, 1 / 3, by simp, by norm_num⟩

/-! ### Expectation under the hypothesis -/

theorem sum_observed_sq {n : ℕ} (z : Fin n → ℝ) (c M : ℝ) :
    ((List.ofFn z).map fun x => (x - c) ^ 2).sum =
      ∑ i, (z i - M) ^ 2 - 2 * (c - M) * ∑ i, (z i - M) + n * (c - M) ^ 2 := by
  rw [List.map_ofFn, List.sum_ofFn]
  simp only [Function.comp_apply]
  rw [Finset.mul_sum, ← Finset.sum_sub_distrib]
  have : (n : ℝ) * (c - M) ^ 2 = ∑ _i : Fin n, (c - M) ^ 2 := by simp
  rw [this, ← Finset.sum_add_distrib]
  exact Finset.sum_congr rfl fun i _ => by ring

/-- **C119 (expectation).** The expectation of the moment statistic of `n` independent observations of
the beta law: the mean contributes `1`, the variance `(μ₄ - (n - 3)/(n - 1) V²) / V` with the fourth
central moment `μ₄`. -/
theorem C119_expectation (lib : BetaLib) {a b : ℝ} (ha : 0 < a) (hb : 0 < b) {Ω : Type}
    [MeasurableSpace Ω] {P : Measure Ω} {n : ℕ} (hn : 2 ≤ n) {X : Fin n → Ω → ℝ}
    (h : LawSample P (betaMeasure a b) X) :
    let M := lawMean (betaMeasure a b)
    let V := lawVariance (betaMeasure a b)
    HasExpectation P (fun ω => BetaStat.value lib ⟨a, b⟩ .momentBased (observed X ω))
      (1 + ((∫ x, (x - M) ^ 4 ∂betaMeasure a b) - (n - 3) / (n - 1) * V ^ 2) / V) := by
  intro M V
  have hP := h.probability
  have hV : 0 < V := by simp only [V]; rw [beta_variance ha hb]; exact theoreticalVar_pos ha hb
  have hM : 0 < M ∧ M < 1 := by
    simp only [M]; rw [beta_mean ha hb]
    exact ⟨by positivity, by rw [div_lt_one (by positivity)]; linarith⟩
  have hn' : (2 : ℝ) ≤ n := by exact_mod_cast hn
  have hX : ∀ i, ∀ᵐ ω ∂P, 0 < X i ω ∧ X i ω < 1 := fun i => by
    have := ae_beta a b
    rw [← h.law i] at this
    exact ae_of_ae_map (h.measurable i).aemeasurable this
  have hE : ∀ (i) (k : ℕ), ∫ ω, (X i ω - M) ^ k ∂P = ∫ x, (x - M) ^ k ∂betaMeasure a b := by
    intro i k
    rw [← h.law i, integral_map (h.measurable i).aemeasurable]
    have : Measurable fun x : ℝ => (x - M) ^ k := by fun_prop
    exact this.aestronglyMeasurable
  have hmeas : ∀ i, Measurable fun ω => X i ω - M := fun i => (h.measurable i).sub_const M
  have hbd : ∀ i, ∀ᵐ ω ∂P, |X i ω - M| ≤ 1 := fun i => (hX i).mono fun ω hω => by
    rw [abs_le]; constructor <;> linarith [hω.1, hω.2, hM.1, hM.2]
  have h1 : ∀ i, ∫ ω, (X i ω - M) ∂P = 0 := by
    intro i
    have e := hE i 1
    simp only [pow_one] at e
    have := isProbabilityMeasureBeta ha hb
    have hint : Integrable (fun x : ℝ => x) (betaMeasure a b) := by
      simpa using integrable_beta_pow ha hb 1
    rw [e, integral_sub hint (integrable_const _), integral_const, probReal_univ, one_smul]
    exact sub_self _
  obtain ⟨_, m2, m3, m4, m5⟩ := sample_fourth hmeas (h.indep.comp (fun _ x => x - M) fun _ => by fun_prop)
    hbd h1 (fun i => hE i 2) (fun i => hE i 4) Finset.univ
  obtain ⟨m1, -⟩ := sample_fourth hmeas (h.indep.comp (fun _ x => x - M) fun _ => by fun_prop)
    hbd h1 (fun i => hE i 2) (fun i => hE i 4) Finset.univ
  simp only [Finset.card_univ, Fintype.card_fin] at m1 m2 m3 m4 m5
  have V2 : ∫ x, (x - M) ^ 2 ∂betaMeasure a b = V := rfl
  rw [V2] at m1 m2 m3 m4 m5
  generalize (∫ x, (x - M) ^ 4 ∂betaMeasure a b) = W at *
  set A : Ω → ℝ := fun ω => ∑ i, (X i ω - M) ^ 2 with hA
  set B : Ω → ℝ := fun ω => ∑ i, (X i ω - M) with hB
  have I : ∀ {G : (Fin n → ℝ) → ℝ}, Continuous G → Integrable (fun ω => G fun i => X i ω - M) P :=
    fun hG => integrable_of_bounded hmeas hbd hG
  have tA : Integrable A P := I (G := fun y => ∑ i, y i ^ 2) (by fun_prop)
  have tB2 : Integrable (fun ω => B ω ^ 2) P := I (G := fun y => (∑ i, y i) ^ 2) (by fun_prop)
  have tA2 : Integrable (fun ω => A ω ^ 2) P := I (G := fun y => (∑ i, y i ^ 2) ^ 2) (by fun_prop)
  have tAB : Integrable (fun ω => A ω * B ω ^ 2) P :=
    I (G := fun y => (∑ i, y i ^ 2) * (∑ i, y i) ^ 2) (by fun_prop)
  have tB4 : Integrable (fun ω => B ω ^ 4) P := I (G := fun y => (∑ i, y i) ^ 4) (by fun_prop)
  have ia : ∀ {f g : Ω → ℝ}, Integrable f P → Integrable g P → Integrable (fun ω => f ω + g ω) P :=
    fun hf hg => hf.add hg
  have hnz : (n : ℝ) ≠ 0 := by linarith
  have hnz1 : (n : ℝ) - 1 ≠ 0 := by linarith
  let c : ℝ := n / (V * (n - 1) ^ 2)
  refine ⟨fun ω => n * V + ((1 / (n * V) + 2 / (n - 1)) * B ω ^ 2 + (-(2 * n / (n - 1)) * A ω +
    (c * A ω ^ 2 + (-(2 * c / n) * (A ω * B ω ^ 2) + c / n ^ 2 * B ω ^ 4)))), ?_, ?_, ?_⟩
  · filter_upwards [ae_all_iff.2 hX] with ω hω
    have hlen : (observed X ω).length = n := by simp [observed]
    have hr : ∀ x ∈ observed X ω, 0 ≤ x ∧ x ≤ 1 := by
      intro x hx
      obtain ⟨i, rfl⟩ := (List.mem_ofFn' _ _).1 hx
      exact ⟨(hω i).1.le, (hω i).2.le⟩
    rw [(C119_moments lib ha hb (by rw [hlen]; exact hn) hr).1, ← var1_spec (by omega)]
    congr 1
    have hmean : mean (observed X ω) - M = B ω / n := by
      rw [mean, hlen, observed, List.sum_ofFn, hB]
      simp only [Finset.sum_sub_distrib, Finset.sum_const, Finset.card_univ, Fintype.card_fin,
        nsmul_eq_mul]
      field_simp
    have hvar : var1 (observed X ω) = (A ω - B ω ^ 2 / n) / (n - 1) := by
      rw [var1, hlen]
      have := sum_observed_sq (fun i => X i ω) (mean (observed X ω)) M
      rw [show List.ofFn (fun i => X i ω) = observed X ω from rfl] at this
      rw [this, hmean]
      have eA : ∑ i, (X i ω - M) ^ 2 = A ω := rfl
      have eB : ∑ i, (X i ω - M) = B ω := rfl
      rw [eA, eB]
      field_simp
      ring
    rw [← mean_spec, hlen]
    change (n : ℝ) * (mean (observed X ω) - M) ^ 2 / V + n * (var1 (observed X ω) - V) ^ 2 / V = _
    rw [hmean, hvar]
    simp only [c]
    have := hV.ne'
    field_simp
    ring
  · exact ia (integrable_const _) (ia (tB2.const_mul _) (ia (tA.const_mul _) (ia (tA2.const_mul _)
      (ia (tAB.const_mul _) (tB4.const_mul _)))))
  · rw [integral_add (integrable_const _) (ia (tB2.const_mul _) (ia (tA.const_mul _)
        (ia (tA2.const_mul _) (ia (tAB.const_mul _) (tB4.const_mul _))))),
      integral_add (tB2.const_mul _) (ia (tA.const_mul _)
        (ia (tA2.const_mul _) (ia (tAB.const_mul _) (tB4.const_mul _)))),
      integral_add (tA.const_mul _) (ia (tA2.const_mul _) (ia (tAB.const_mul _) (tB4.const_mul _))),
      integral_add (tA2.const_mul _) (ia (tAB.const_mul _) (tB4.const_mul _)),
      integral_add (tAB.const_mul _) (tB4.const_mul _)]
    simp only [integral_const_mul, integral_const, probReal_univ, one_smul]
    rw [m1, m2, m3, m4, m5]
    simp only [c]
    have := hV.ne'
    field_simp
    ring

/-- **C119 is false** of the scale of the moment statistic: its comment announces standardised
differences, whose squares would have expectation `1` each, but the difference of the variances is
divided by the standard deviation of one observation.  For the uniform law `Beta(1, 1)` the
expectation is below `5/4` whatever the size of the sample. -/
theorem C119_refuted_standardised (lib : BetaLib) {Ω : Type} [MeasurableSpace Ω] {P : Measure Ω}
    {n : ℕ} (hn : 2 ≤ n) {X : Fin n → Ω → ℝ} (h : LawSample P (betaMeasure 1 1) X) :
    ∃ e, e < 5 / 4 ∧
      HasExpectation P (fun ω => BetaStat.value lib ⟨1, 1⟩ .momentBased (observed X ω)) e := by
  refine ⟨_, ?_, C119_expectation lib one_pos one_pos hn h⟩
  rw [beta_fourth one_pos one_pos, beta_variance one_pos one_pos]
  simp only [Beta.theoreticalVar]
  have hn' : (2 : ℝ) ≤ n := by exact_mod_cast hn
  have : -1 ≤ ((n : ℝ) - 3) / (n - 1) := by
    rw [le_div_iff₀ (by linarith)]; linarith
  norm_num
  linarith

/-- Samples exist. -/
theorem exists_lawSample (μ : Measure ℝ) [IsProbabilityMeasure μ] (n : ℕ) :
    LawSample (Measure.pi fun _ : Fin n => μ) μ fun i z => z i where
  probability := inferInstance
  measurable i := measurable_pi_apply i
  indep := by
    have := iIndepFun_pi (μ := fun _ : Fin n => μ) (X := fun _ x => x) fun _ => aemeasurable_id
    exact this
  law i := (measurePreserving_eval (fun _ : Fin n => μ) i).map_eq

example : LawSample (Measure.pi fun _ : Fin 5 => betaMeasure 2 3) (betaMeasure 2 3) fun i z => z i :=
  haveI := isProbabilityMeasureBeta (α := 2) (β := 3) (by norm_num) (by norm_num)
  exists_lawSample _ 5

end Pysatl.Props
