import Verif.Props.ConsistencyLimit
import Verif.Props.BetaLaw
import Mathlib.MeasureTheory.Integral.Gamma

/-! # Sample moments settle at the moments of the law; moments of the normal laws -/

namespace Pysatl.Props

open Pysatl.Spec
open MeasureTheory ProbabilityTheory Filter Topology

section
variable {μ : Measure ℝ} [IsProbabilityMeasure μ]

/-- A finite moment of order `k` gives finite moments of lower orders around any point. -/
theorem integrable_power {j k : ℕ} (h : Integrable (fun x => |x| ^ k) μ) (hj : j ≤ k) (c : ℝ) :
    Integrable (fun x => (x - c) ^ j) μ := by
  have hid : MemLp (fun x : ℝ => x) k μ := by
    rcases Nat.eq_zero_or_pos k with rfl | hk
    · simp only [Nat.cast_zero, memLp_zero_iff_aestronglyMeasurable]
      fun_prop
    · rw [← integrable_norm_rpow_iff (by fun_prop) (by exact_mod_cast hk.ne') (by simp)]
      simpa using h
  have h1 : MemLp (fun x : ℝ => x - c) j μ := (hid.sub (memLp_const c)).mono_exponent (by exact_mod_cast hj)
  refine h1.integrable_norm_pow'.mono' (by fun_prop) (.of_forall fun x => ?_)
  rw [norm_pow]

/-- The sample average of a power of the distance to the sample mean settles at that of the law. -/
theorem settles_central {k : ℕ} (h : Integrable (fun x => |x| ^ k) μ) (hk : 1 ≤ k) :
    SettlesAt (fun ν => ∫ x, (x - lawMean ν) ^ k ∂ν) μ := by
  have hi : Integrable (fun x => x) μ := by simpa using integrable_power h hk 0
  have hall : ∀ᵐ ω ∂seqLaw μ, ∀ j ∈ Finset.range (k + 1), Tendsto (fun n => ∫ x, (x - lawMean μ) ^ j ∂empiricalLaw
      (List.ofFn (firsts n ω))) atTop (𝓝 (∫ x, (x - lawMean μ) ^ j ∂μ)) := by
    refine (ae_ball_iff (Finset.range (k + 1)).countable_toSet).2 fun j hj => ?_
    exact settles_integral (f := fun x => (x - lawMean μ) ^ j) (by fun_prop)
      (integrable_power h (by have := Finset.mem_range.1 hj; omega) _)
  filter_upwards [settles_mean hi, hall] with ω h1 h2
  have hd : Tendsto (fun n => lawMean μ - lawMean (empiricalLaw (List.ofFn (firsts n ω)))) atTop (𝓝 0) := by
    simpa using h1.const_sub (lawMean μ)
  have hsum : Tendsto (fun n => ∑ j ∈ Finset.range (k + 1), (∫ x, (x - lawMean μ) ^ j ∂empiricalLaw
      (List.ofFn (firsts n ω))) * (lawMean μ - lawMean (empiricalLaw (List.ofFn (firsts n ω)))) ^ (k - j) * (k.choose j))
      atTop (𝓝 (∑ j ∈ Finset.range (k + 1), (∫ x, (x - lawMean μ) ^ j ∂μ) * 0 ^ (k - j) * (k.choose j))) :=
    tendsto_finsetSum _ fun j hj => ((h2 j hj).mul (hd.pow _)).mul_const _
  have hlim : ∑ j ∈ Finset.range (k + 1), (∫ x, (x - lawMean μ) ^ j ∂μ) * 0 ^ (k - j) * (k.choose j) =
      ∫ x, (x - lawMean μ) ^ k ∂μ := by
    rw [Finset.sum_range_succ, Finset.sum_eq_zero fun j hj => ?_]
    · simp
    · rw [zero_pow (by have := Finset.mem_range.1 hj; omega)]
      simp
  rw [hlim] at hsum
  refine hsum.congr fun n => ?_
  set M := lawMean (empiricalLaw (List.ofFn (firsts n ω)))
  rw [integral_firsts]
  simp only [integral_firsts]
  have e : ∀ i ∈ Finset.range n, (ω i - M) ^ k =
      ∑ j ∈ Finset.range (k + 1), (ω i - lawMean μ) ^ j * (lawMean μ - M) ^ (k - j) * (k.choose j) := fun i _ => by
    rw [← add_pow]
    congr 1
    ring
  rw [Finset.sum_congr rfl e, Finset.sum_comm, Finset.sum_div]
  refine Finset.sum_congr rfl fun j _ => ?_
  rw [← Finset.sum_mul, ← Finset.sum_mul]
  ring

/-- The standardised moments settle. -/
theorem settles_standardised {k : ℕ} (h : Integrable (fun x => |x| ^ k) μ) (hk : 2 ≤ k) (hv : 0 < lawVariance μ) :
    SettlesAt (fun ν => lawStandardised ν k) μ := by
  have h2 : Integrable (fun x => |x| ^ 2) μ := by
    have := (integrable_power h hk 0).abs
    simpa [abs_pow] using this
  filter_upwards [settles_central h (by omega), settles_central h2 (by omega)] with ω a b
  simp only [lawStandardised_eq]
  exact a.div ((b.sqrt).pow k) (pow_ne_zero _ (Real.sqrt_pos.2 hv).ne')

/-- A law with finite mean that is not concentrated at one point has positive variance. -/
theorem lawVariance_pos (h : Integrable (fun x => |x| ^ 2) μ) : 0 < lawVariance μ ↔ ∀ c, μ ≠ Measure.dirac c := by
  have hi := integrable_power h le_rfl (lawMean μ)
  constructor
  · rintro hv c rfl
    simp [lawVariance, lawMean] at hv
  · intro hc
    refine lt_of_le_of_ne (integral_nonneg fun x => sq_nonneg _) fun h0 => hc (lawMean μ) ?_
    have := (integral_eq_zero_iff_of_nonneg (fun x => sq_nonneg (x - lawMean μ)) hi).1 h0.symm
    have hae : ∀ᵐ x ∂μ, x = lawMean μ := this.mono fun x hx => by
      have : (x - lawMean μ) ^ 2 = 0 := hx
      nlinarith [pow_eq_zero_iff (two_ne_zero) |>.1 this]
    have e : μ.map id = μ.map fun _ => lawMean μ := Measure.map_congr hae
    rw [Measure.map_id, Measure.map_const, measure_univ, one_smul] at e
    exact e

end

/-! ### The normal laws -/

theorem gaussian_moment_finite (m : ℝ) (v : NNReal) (k : ℕ) : Integrable (fun x => |x| ^ k) (gaussianReal m v) := by
  have := (memLp_id_gaussianReal (μ := m) (v := v) k).integrable_norm_pow'
  simpa using this

/-- Half moments of the standard normal law. -/
theorem stdNormal_abs_moment (q : ℝ) (hq : -1 < q) :
    ∫ x, |x| ^ q ∂gaussianReal 0 1 = 2 ^ (q / 2) * Real.Gamma ((q + 1) / 2) / √Real.pi := by
  rw [integral_gaussianReal_eq_integral_smul one_ne_zero]
  have e : ∀ x : ℝ, gaussianPDFReal 0 1 x • |x| ^ q =
      (√(2 * Real.pi))⁻¹ * (|x| ^ q * Real.exp (-(1 / 2) * |x| ^ (2 : ℝ))) := fun x => by
    rw [gaussianPDFReal, smul_eq_mul]
    simp only [NNReal.coe_one, mul_one, sub_zero, Real.rpow_two, sq_abs]
    rw [show -x ^ 2 / 2 = -(1 / 2) * x ^ 2 by ring]
    ring
  simp only [e]
  rw [integral_const_mul, integral_comp_abs (f := fun x => x ^ q * Real.exp (-(1 / 2) * x ^ (2 : ℝ))),
    integral_rpow_mul_exp_neg_mul_rpow two_pos hq (by norm_num)]
  have hp : 0 < √Real.pi := Real.sqrt_pos.2 Real.pi_pos
  have h2 : (√2 : ℝ) = 2 ^ (1 / 2 : ℝ) := Real.sqrt_eq_rpow 2
  rw [Real.sqrt_mul two_pos.le, h2, show (1 / 2 : ℝ) ^ (-(q + 1) / 2) = 2 ^ ((q + 1) / 2) by
    rw [one_div, Real.inv_rpow two_pos.le, ← Real.rpow_neg two_pos.le]; congr 1; ring]
  rw [show (q + 1) / 2 = q / 2 + 1 / 2 by ring, Real.rpow_add two_pos]
  have h3 : (0 : ℝ) < 2 ^ (1 / 2 : ℝ) := Real.rpow_pos_of_pos two_pos _
  generalize (2 : ℝ) ^ (1 / 2 : ℝ) = r at *
  generalize Real.Gamma (q / 2 + 1 / 2) = G at *
  generalize (2 : ℝ) ^ (q / 2) = s at *
  field_simp

theorem gaussian_integral (m : ℝ) (v : NNReal) {f : ℝ → ℝ} (hf : Measurable f) :
    ∫ x, f x ∂gaussianReal m v = ∫ x, f (m + √v * x) ∂gaussianReal 0 1 := by
  have e : gaussianReal m v = (gaussianReal 0 1).map fun x => m + √v * x := by
    have h := Measure.map_map (μ := gaussianReal 0 1) (g := fun x => m + x) (f := fun x => √(v : ℝ) * x) (by fun_prop)
      (by fun_prop)
    rw [gaussianReal_map_const_mul, gaussianReal_map_const_add] at h
    refine Eq.trans ?_ h
    congr 1
    · simp
    · ext
      simp
  rw [e, integral_map (by fun_prop) hf.aestronglyMeasurable]

theorem stdNormal_fourth : ∫ x, x ^ 4 ∂gaussianReal 0 1 = 3 := by
  have h := stdNormal_abs_moment 4 (by norm_num)
  have e : ∀ x : ℝ, |x| ^ (4 : ℝ) = x ^ 4 := fun x => by
    rw [show (4 : ℝ) = ((4 : ℕ) : ℝ) by norm_num, Real.rpow_natCast, Even.pow_abs (by decide)]
  simp only [e] at h
  rw [h, show ((4 : ℝ) + 1) / 2 = (3 / 2) + 1 by norm_num, Real.Gamma_add_one (by norm_num),
    show (3 / 2 : ℝ) = 1 / 2 + 1 by norm_num, Real.Gamma_add_one (by norm_num), Real.Gamma_one_half_eq]
  have hp : √Real.pi ≠ 0 := (Real.sqrt_pos.2 Real.pi_pos).ne'
  rw [show (4 / 2 : ℝ) = 2 by norm_num, Real.rpow_two]
  field_simp
  norm_num

theorem stdNormal_third : ∫ x, x ^ 3 ∂gaussianReal 0 1 = 0 := by
  have hm : (gaussianReal 0 1).map (fun y : ℝ => -y) = gaussianReal 0 1 := by
    have := gaussianReal_map_neg (μ := 0) (v := 1)
    simpa using this
  have h : ∫ x, x ^ 3 ∂gaussianReal 0 1 = ∫ x, (-x) ^ 3 ∂gaussianReal 0 1 := by
    conv_lhs => rw [← hm]
    rw [integral_map (by fun_prop) (by fun_prop)]
  have e : ∀ x : ℝ, (-x) ^ 3 = -x ^ 3 := fun x => by ring
  simp only [e, integral_neg] at h
  linarith

theorem stdNormal_abs : ∫ x, |x| ∂gaussianReal 0 1 = √(2 / Real.pi) := by
  have h := stdNormal_abs_moment 1 (by norm_num)
  simp only [Real.rpow_one] at h
  rw [h, show ((1 : ℝ) + 1) / 2 = 1 by norm_num, Real.Gamma_one, Real.sqrt_div two_pos.le, mul_one, Real.sqrt_eq_rpow 2]

section
variable (m : ℝ) {v : NNReal}

theorem lawMean_gaussian (v : NNReal) : lawMean (gaussianReal m v) = m := by
  unfold lawMean
  exact integral_id_gaussianReal

theorem lawVariance_gaussian (v : NNReal) : lawVariance (gaussianReal m v) = v := by
  have := variance_id_gaussianReal (μ := m) (v := v)
  rw [variance_eq_integral aemeasurable_id] at this
  simp only [id] at this
  rw [lawVariance, lawMean_gaussian, ← this]
  simp

theorem lawStandardised_gaussian (hv : v ≠ 0) (k : ℕ) :
    lawStandardised (gaussianReal m v) k = ∫ x, x ^ k ∂gaussianReal 0 1 := by
  have hs : √(v : ℝ) ≠ 0 := (Real.sqrt_pos.2 (by positivity)).ne'
  rw [lawStandardised, lawMean_gaussian, lawVariance_gaussian, gaussian_integral m v (by fun_prop)]
  congr 1
  funext x
  congr 1
  field_simp
  ring

theorem gaussian_skewness (hv : v ≠ 0) : lawStandardised (gaussianReal m v) 3 = 0 := by
  rw [lawStandardised_gaussian m hv, stdNormal_third]

theorem gaussian_kurtosis (hv : v ≠ 0) : lawStandardised (gaussianReal m v) 4 = 3 := by
  rw [lawStandardised_gaussian m hv, stdNormal_fourth]

end

end Pysatl.Props
