import Verif.Props.ConsistencyDeviation
import Verif.Props.NormalFit

/-! # C137: robust Jarque-Bera, and Bontemps-Meddahi with four polynomials -/

namespace Pysatl.Props

open Pysatl.Decision Pysatl.Resolver Pysatl.Spec Pysatl.Edf Pysatl.Graph Pysatl.Gen Pysatl.Normal Pysatl.Exponent
open MeasureTheory ProbabilityTheory Filter Topology

/-! ### Moments of the normal laws -/

theorem stdNormal_fifth : ∫ x, x ^ 5 ∂gaussianReal 0 1 = 0 := by
  have hm : (gaussianReal 0 1).map (fun y : ℝ => -y) = gaussianReal 0 1 := by
    have := gaussianReal_map_neg (μ := 0) (v := 1)
    simpa using this
  have h : ∫ x, x ^ 5 ∂gaussianReal 0 1 = ∫ x, (-x) ^ 5 ∂gaussianReal 0 1 := by
    conv_lhs => rw [← hm]
    rw [integral_map (by fun_prop) (by fun_prop)]
  have e : ∀ x : ℝ, (-x) ^ 5 = -x ^ 5 := fun x => by ring
  simp only [e, integral_neg] at h
  linarith

theorem stdNormal_sixth : ∫ x, x ^ 6 ∂gaussianReal 0 1 = 15 := by
  have h := stdNormal_abs_moment 6 (by norm_num)
  have e : ∀ x : ℝ, |x| ^ (6 : ℝ) = x ^ 6 := fun x => by
    rw [show (6 : ℝ) = ((6 : ℕ) : ℝ) by norm_num, Real.rpow_natCast, Even.pow_abs (by decide)]
  simp only [e] at h
  rw [h, show ((6 : ℝ) + 1) / 2 = (5 / 2) + 1 by norm_num, Real.Gamma_add_one (by norm_num),
    show (5 / 2 : ℝ) = 3 / 2 + 1 by norm_num, Real.Gamma_add_one (by norm_num),
    show (3 / 2 : ℝ) = 1 / 2 + 1 by norm_num, Real.Gamma_add_one (by norm_num), Real.Gamma_one_half_eq]
  have hp : √Real.pi ≠ 0 := (Real.sqrt_pos.2 Real.pi_pos).ne'
  rw [show (6 / 2 : ℝ) = ((3 : ℕ) : ℝ) by norm_num, Real.rpow_natCast]
  field_simp
  norm_num

theorem integrable_le {Q : Measure ℝ} [IsProbabilityMeasure Q] {k j : ℕ} (h : Integrable (fun x => |x| ^ k) Q)
    (hj : j ≤ k) : Integrable (fun x => |x| ^ j) Q := by
  have := (integrable_power h hj 0).abs
  simpa [abs_pow] using this

/-! ### Averages of Hermite polynomials -/

theorem meanOf_add (f g : ℝ → ℝ) (xs : List ℝ) : meanOf (fun x => f x + g x) xs = meanOf f xs + meanOf g xs := by
  rw [meanOf, meanOf, meanOf, ← add_div, List.sum_map_add]

theorem meanOf_scale (c : ℝ) (f : ℝ → ℝ) (xs : List ℝ) : meanOf (fun x => c * f x) xs = c * meanOf f xs := by
  rw [meanOf, meanOf, List.sum_map_mul_left, mul_div_assoc]

theorem meanOf_fixed (c : ℝ) {xs : List ℝ} (h : xs ≠ []) : meanOf (fun _ => c) xs = c := by
  have : (xs.length : ℝ) ≠ 0 := by exact_mod_cast (List.length_pos_iff.2 h).ne'
  rw [meanOf]
  simp
  field_simp

theorem stdDev1_eq {n : ℕ} (hn : 1 < n) {x : List ℝ} (hx : x.length = n) :
    stdDev1 x = stdDev x / √(((n : ℝ) - 1) / n) := by
  have hn' : (1 : ℝ) < n := by exact_mod_cast hn
  have e : (x.map fun y => (y - meanOf id x) ^ 2).sum = n * Spec.centralMoment 2 x := by
    have e : Spec.centralMoment 2 x = (x.map fun y => (y - meanOf id x) ^ 2).sum / n := by
      rw [Spec.centralMoment, meanOf, hx]
    rw [e, mul_div_cancel₀ _ (by linarith)]
  rw [stdDev1, stdDev, ← Real.sqrt_div' _ (div_pos (by linarith) (by linarith)).le, e, hx]
  congr 1
  have : (n : ℝ) - 1 ≠ 0 := by linarith
  field_simp

theorem power_mean {n : ℕ} (hn : 1 < n) {x : List ℝ} (hx : x.length = n) (j : ℕ) :
    meanOf (fun y => ((y - meanOf id x) / stdDev1 x) ^ j) x =
      √(((n : ℝ) - 1) / n) ^ j * lawStandardised (empiricalLaw x) j := by
  rw [lawStandardised_eq, ← centralMoment_empirical, ← stdDev_empirical, stdDev1_eq hn hx, Spec.centralMoment]
  have e : ∀ y, ((y - meanOf id x) / (stdDev x / √(((n : ℝ) - 1) / n))) ^ j =
      √(((n : ℝ) - 1) / n) ^ j / stdDev x ^ j * (y - meanOf id x) ^ j := fun y => by
    rw [div_div_eq_mul_div, div_pow, mul_pow]
    ring
  simp only [e]
  rw [meanOf_scale]
  ring

theorem lawStandardised_one_empirical {x : List ℝ} (h : x ≠ []) : lawStandardised (empiricalLaw x) 1 = 0 := by
  rw [lawStandardised_eq, ← centralMoment_empirical]
  have : Spec.centralMoment 1 x = 0 := by
    have hl : (x.length : ℝ) ≠ 0 := by exact_mod_cast (List.length_pos_iff.2 h).ne'
    rw [Spec.centralMoment]
    simp only [pow_one, sub_eq_add_neg]
    rw [meanOf_add, meanOf_fixed _ h]
    simp [meanOf]
  rw [this, zero_div]

theorem hermite_means {n : ℕ} (hn : 1 < n) {x : List ℝ} (hx : x.length = n) {ρ : ℝ} (hρ : ρ = √(((n : ℝ) - 1) / n))
    {S : ℕ → ℝ} (hS : S = fun j => lawStandardised (empiricalLaw x) j) :
    hermiteMean 3 x = ρ ^ 3 * S 3 ∧ hermiteMean 4 x = ρ ^ 4 * S 4 - 6 * (ρ ^ 2 * S 2) + 3 ∧
    hermiteMean 5 x = ρ ^ 5 * S 5 - 10 * (ρ ^ 3 * S 3) ∧
    hermiteMean 6 x = ρ ^ 6 * S 6 - 15 * (ρ ^ 4 * S 4) + 45 * (ρ ^ 2 * S 2) - 15 := by
  have hne : x ≠ [] := List.ne_nil_of_length_pos (by omega)
  obtain ⟨-, h3, h4, h5, h6, -⟩ := hermite_list
  have p : ∀ j, meanOf (fun y => ((y - meanOf id x) / stdDev1 x) ^ j) x = ρ ^ j * S j := fun j => by
    rw [power_mean hn hx, hρ, hS]
  have h1 : S 1 = 0 := by
    rw [hS]
    exact lawStandardised_one_empirical hne
  have p1 := p 1
  rw [h1, mul_zero] at p1
  simp only [pow_one] at p1
  refine ⟨?_, ?_, ?_, ?_⟩ <;> rw [hermiteMean]
  · simp only [h3, map_sub, map_mul, map_pow, Polynomial.aeval_X, map_ofNat]
    have e : ∀ z : ℝ, z ^ 3 - 3 * z = z ^ 3 + (-3) * z := fun z => by ring
    simp only [e]
    rw [meanOf_add, meanOf_scale, p, p1]
    ring
  · simp only [h4, map_sub, map_add, map_mul, map_pow, Polynomial.aeval_X, map_ofNat]
    have e : ∀ z : ℝ, z ^ 4 - 6 * z ^ 2 + 3 = z ^ 4 + ((-6) * z ^ 2 + 3) := fun z => by ring
    simp only [e]
    rw [meanOf_add, meanOf_add, meanOf_scale, meanOf_fixed _ hne, p, p]
    ring
  · simp only [h5, map_sub, map_add, map_mul, map_pow, Polynomial.aeval_X, map_ofNat]
    have e : ∀ z : ℝ, z ^ 5 - 10 * z ^ 3 + 15 * z = z ^ 5 + ((-10) * z ^ 3 + 15 * z) := fun z => by ring
    simp only [e]
    rw [meanOf_add, meanOf_add, meanOf_scale, meanOf_scale, p, p, p1]
    ring
  · simp only [h6, map_sub, map_add, map_mul, map_pow, Polynomial.aeval_X, map_ofNat]
    have e : ∀ z : ℝ, z ^ 6 - 15 * z ^ 4 + 45 * z ^ 2 - 15 = z ^ 6 + ((-15) * z ^ 4 + (45 * z ^ 2 + (-15))) :=
      fun z => by ring
    simp only [e]
    rw [meanOf_add, meanOf_add, meanOf_add, meanOf_scale, meanOf_scale, meanOf_fixed _ hne, p, p, p]
    ring

section
variable (code : String) (params : Option (List (String × ℝ)))

theorem lawStandardised_two {Q : Measure ℝ} (hQ : 0 < lawVariance Q) : lawStandardised Q 2 = 1 := by
  rw [lawStandardised_eq, Real.sq_sqrt hQ.le]
  exact div_self hQ.ne'

theorem bontemps2_settles {Q : Measure ℝ} [IsProbabilityMeasure Q] (h6 : Integrable (fun x => |x| ^ 6) Q)
    (hQ : 0 < lawVariance Q) : ValueSettles (NormStat.bontempsMeddahi2.statistic scipyNorm code params) (fun n x => n * x) Q
      (lawStandardised Q 3 ^ 2 / 6 + (lawStandardised Q 4 - 3) ^ 2 / 24 +
        (lawStandardised Q 5 - 10 * lawStandardised Q 3) ^ 2 / 120 +
        (lawStandardised Q 6 - 15 * lawStandardised Q 4 + 30) ^ 2 / 720) := by
  filter_upwards [settles_standardised (integrable_le h6 (j := 2) (by norm_num)) (by norm_num) hQ,
    settles_standardised (integrable_le h6 (j := 3) (by norm_num)) (by norm_num) hQ,
    settles_standardised (integrable_le h6 (j := 4) (by norm_num)) (by norm_num) hQ,
    settles_standardised (integrable_le h6 (j := 5) (by norm_num)) (by norm_num) hQ,
    settles_standardised h6 (by norm_num) hQ] with ω a2 a3 a4 a5 a6
  have r := ratio_tendsto.sqrt
  rw [Real.sqrt_one] at r
  have h := (((((r.pow 3).mul a3).pow 2).div_const 6).add
    ((((((r.pow 4).mul a4).sub (((r.pow 2).mul a2).const_mul 6)).add_const 3).pow 2).div_const 24)).add
    (((((r.pow 5).mul a5).sub (((r.pow 3).mul a3).const_mul 10)).pow 2).div_const 120) |>.add
    (((((((r.pow 6).mul a6).sub (((r.pow 4).mul a4).const_mul 15)).add (((r.pow 2).mul a2).const_mul 45)).sub_const 15).pow
      2).div_const 720)
  refine ⟨_, (by convert h using 2; rw [lawStandardised_two hQ]; ring), ?_⟩
  filter_upwards [eventually_gt_atTop 3] with n hn
  refine normal_value ?_
  rw [(C117_bontempsMeddahi scipyNorm (by simpa using hn)).2, List.length_ofFn]
  obtain ⟨e3, e4, e5, e6⟩ := hermite_means (x := List.ofFn (firsts n ω)) (n := n) (by omega) List.length_ofFn rfl rfl
  rw [show Finset.Icc 3 6 = {3, 4, 5, 6} from rfl, Finset.sum_insert (by decide),
    Finset.sum_insert (by decide), Finset.sum_pair (by norm_num), e3, e4, e5, e6,
    show ((Nat.factorial 3 : ℕ) : ℝ) = 6 by norm_num [Nat.factorial], show ((Nat.factorial 4 : ℕ) : ℝ) = 24 by norm_num [Nat.factorial],
    show ((Nat.factorial 5 : ℕ) : ℝ) = 120 by norm_num [Nat.factorial], show ((Nat.factorial 6 : ℕ) : ℝ) = 720 by norm_num [Nat.factorial]]
  congr 2
  ring

theorem robustJarqueBera_settles {Q : Measure ℝ} [IsProbabilityMeasure Q] (h4 : Integrable (fun x => |x| ^ 4) Q)
    (hQ : 0 < lawVariance Q) : ValueSettles (NormStat.robustJarqueBera.statistic scipyNorm code params) (fun n x => n * x) Q
      ((lawStandardised Q 3 * (lawGmg Q / √(Real.pi / 2)) ^ 3) ^ 2 / 6 +
        (lawStandardised Q 4 * (lawGmg Q / √(Real.pi / 2)) ^ 4 - 3) ^ 2 / 64) := by
  have h2 := second_of_fourth h4
  have hi : Integrable (fun x => x) Q := by simpa using integrable_power h2 (j := 1) (by norm_num) 0
  filter_upwards [settles_skewness (third_of_fourth h4) hQ, settles_kurtosis h4 hQ, settles_stdDev h2,
    settles_leastDeviation hi, eventually_varies h2 hQ] with ω a b c d hv
  choose o ho using fun n => exists_orderStats (List.ofFn (firsts n ω))
  have g := (c.div (d o ho) (leastDeviation_pos h2 hQ).ne').div_const √(Real.pi / 2)
  refine ⟨_, (((a.mul (g.pow 3)).pow 2).div_const 6).add ((((b.mul (g.pow 4)).sub_const 3).pow 2).div_const 64), ?_⟩
  filter_upwards [eventually_gt_atTop 1, hv] with n hn hv
  refine normal_value ?_
  have hs := stdDev_pos hv
  rw [C117_robustJarqueBera scipyNorm (ofFn_ne hn _) (ho n) rfl, List.length_ofFn, skewness, kurtosis]
  simp only [Pi.div_apply]
  generalize Spec.centralMoment 3 (List.ofFn (firsts n ω)) = m3
  generalize Spec.centralMoment 4 (List.ofFn (firsts n ω)) = m4
  generalize stdDev (List.ofFn (firsts n ω)) = s at *
  generalize absDeviation (medianOf n (o n)) (List.ofFn (firsts n ω)) = D
  generalize √(Real.pi / 2) = P
  have e3 : m3 / s ^ 3 * (s / D / P) ^ 3 = m3 / (P * D) ^ 3 := by
    rw [div_div, div_pow, mul_comm D P]
    field_simp
  have e4 : m4 / s ^ 4 * (s / D / P) ^ 4 = m4 / (P * D) ^ 4 := by
    rw [div_div, div_pow, mul_comm D P]
    field_simp
  rw [e3, e4]

end

section
variable (code : String) (params : Option (List (String × ℝ)))
variable (classes : List GeneratorClass) (hp : classes.Perm generatorClasses) (m : ℝ) {v : ℝ} (hv : 0 < v)

include hp hv in
/-- **C137, Bontemps-Meddahi with four polynomials**: every law with a finite sixth moment whose standardised moments of the
orders three to six are not all those of the normal laws, `0`, `3`, `0` and `15`, is rejected in the long run. -/
theorem C137_bontempsMeddahi2 : ∃ G, (Gen.Family.normal m v).simulator classes = .ok G ∧
    (∀ n, G.generate n = .ok (iid n (gaussianReal m v.toNNReal))) ∧
    ∀ Q : Measure ℝ, IsProbabilityMeasure Q → Integrable (fun x => |x| ^ 6) Q → (∀ c, Q ≠ Measure.dirac c) →
      (lawStandardised Q 3 ≠ 0 ∨ lawStandardised Q 4 ≠ 3 ∨ lawStandardised Q 5 ≠ 0 ∨ lawStandardised Q 6 ≠ 15) →
      Consistent (NormStat.bontempsMeddahi2.statistic scipyNorm code params) Q (gaussianReal m v.toNNReal) := by
  refine with_normal hp m hv fun Q _ h6 hQ h => ?_
  refine value_consistent (normal_meas _ code params) mul_strictMono
    (bontemps2_settles code params h6 ((lawVariance_pos (integrable_le h6 (by norm_num))).2 hQ))
    (bontemps2_settles code params (gaussian_moment_finite m _ 6) (gaussian_variance_pos m hv))
    (Or.inl ⟨(fun h => by cases h), ?_⟩)
  rw [gaussian_skewness m (toNNReal_ne hv), gaussian_kurtosis m (toNNReal_ne hv),
    lawStandardised_gaussian m (toNNReal_ne hv), lawStandardised_gaussian m (toNNReal_ne hv), stdNormal_fifth,
    stdNormal_sixth]
  generalize lawStandardised Q 3 = a at *
  generalize lawStandardised Q 4 = b at *
  generalize lawStandardised Q 5 = c at *
  generalize lawStandardised Q 6 = d at *
  norm_num
  have n1 := sq_nonneg a
  have n2 := sq_nonneg (b - 3)
  have n3 := sq_nonneg (c - 10 * a)
  have n4 := sq_nonneg (d - 15 * b + 30)
  by_contra hle
  have z1 : a = 0 := pow_eq_zero_iff two_ne_zero |>.1 (le_antisymm (by linarith) n1)
  have z2 : b - 3 = 0 := pow_eq_zero_iff two_ne_zero |>.1 (le_antisymm (by linarith) n2)
  have z3 : c - 10 * a = 0 := pow_eq_zero_iff two_ne_zero |>.1 (le_antisymm (by linarith) n3)
  have z4 : d - 15 * b + 30 = 0 := pow_eq_zero_iff two_ne_zero |>.1 (le_antisymm (by linarith) n4)
  rcases h with h | h | h | h
  · exact h z1
  · exact h (by linarith)
  · exact h (by linarith)
  · exact h (by linarith)

include hp hv in
/-- **C137, robust Jarque-Bera**: every law with a finite fourth moment whose third central moment is not zero, or whose
fourth central moment is not three times the fourth power of `√(π/2)` times its mean absolute deviation from the median, is
rejected in the long run. -/
theorem C137_robustJarqueBera : ∃ G, (Gen.Family.normal m v).simulator classes = .ok G ∧
    (∀ n, G.generate n = .ok (iid n (gaussianReal m v.toNNReal))) ∧
    ∀ Q : Measure ℝ, IsProbabilityMeasure Q → Integrable (fun x => |x| ^ 4) Q → (∀ c, Q ≠ Measure.dirac c) →
      (∫ x, (x - lawMean Q) ^ 3 ∂Q ≠ 0 ∨
        ∫ x, (x - lawMean Q) ^ 4 ∂Q ≠ 3 * (√(Real.pi / 2) * leastDeviation Q) ^ 4) →
      Consistent (NormStat.robustJarqueBera.statistic scipyNorm code params) Q (gaussianReal m v.toNNReal) := by
  refine with_normal hp m hv fun Q _ h4 hQ h => ?_
  have hV := (lawVariance_pos (second_of_fourth h4)).2 hQ
  have hpi : 0 < √(Real.pi / 2) := Real.sqrt_pos.2 (by positivity)
  refine value_consistent (normal_meas _ code params) mul_strictMono
    (robustJarqueBera_settles code params h4 hV)
    (robustJarqueBera_settles code params (gaussian_moment_finite m _ 4) (gaussian_variance_pos m hv))
    (Or.inl ⟨(fun h => by cases h), ?_⟩)
  rw [gaussian_skewness m (toNNReal_ne hv), gaussian_kurtosis m (toNNReal_ne hv), gaussian_gmg m hv, div_self hpi.ne',
    lawGmg, lawStandardised_eq, lawStandardised_eq]
  have hs := Real.sqrt_pos.2 hV
  have hD := leastDeviation_pos (second_of_fourth h4) hV
  generalize ∫ x, (x - lawMean Q) ^ 3 ∂Q = m3 at *
  generalize ∫ x, (x - lawMean Q) ^ 4 ∂Q = m4 at *
  generalize √(Real.pi / 2) = P at *
  rw [lawVariance] at *
  generalize √(∫ x, (x - lawMean Q) ^ 2 ∂Q) = s at *
  generalize leastDeviation Q = D at *
  have e3 : m3 / s ^ 3 * (s / D / P) ^ 3 = m3 / (P * D) ^ 3 := by
    rw [div_div, div_pow, mul_comm D P]
    field_simp
  have e4 : m4 / s ^ 4 * (s / D / P) ^ 4 = m4 / (P * D) ^ 4 := by
    rw [div_div, div_pow, mul_comm D P]
    field_simp
  rw [e3, e4]
  norm_num
  have n1 := sq_nonneg (m3 / (P * D) ^ 3)
  have n2 := sq_nonneg (m4 / (P * D) ^ 4 - 3)
  by_contra hle
  have z1 : m3 / (P * D) ^ 3 = 0 := pow_eq_zero_iff two_ne_zero |>.1 (le_antisymm (by linarith) n1)
  have z2 : m4 / (P * D) ^ 4 - 3 = 0 := pow_eq_zero_iff two_ne_zero |>.1 (le_antisymm (by linarith) n2)
  have hPD : 0 < P * D := mul_pos hpi hD
  rcases h with h | h
  · rw [div_eq_zero_iff] at z1
    rcases z1 with z1 | z1
    · exact h z1
    · exact (pow_pos hPD 3).ne' z1
  · rw [sub_eq_zero, div_eq_iff (pow_pos hPD 4).ne'] at z2
    exact h z2

end

/-! ### Concrete cases -/

theorem uniform_leastDeviation {b : ℝ} (hb : 0 < b) : leastDeviation (uniformLaw 0 b) = b / 4 := by
  have := (cdf_uniformLaw hb).1
  have hi : Integrable (fun x => x) (uniformLaw 0 b) := uniform_integrable (by fun_prop)
  rw [leastDeviation_symmetric hi, uniform_absDeviation hb]
  rw [lawMean_uniform hb]
  ext s hs
  have hm : Measurable fun x : ℝ => 2 * (b / 2) - x := by fun_prop
  have e : Set.Icc 0 b ∩ (fun x => 2 * (b / 2) - x) ⁻¹' s = (fun x => 2 * (b / 2) - x) ⁻¹' (Set.Icc 0 b ∩ s) := by
    ext x
    simp only [Set.mem_inter_iff, Set.mem_Icc, Set.mem_preimage]
    constructor <;> rintro ⟨⟨h1, h2⟩, h3⟩ <;> exact ⟨⟨by linarith, by linarith⟩, h3⟩
  rw [Measure.map_apply hm hs, uniformLaw, ProbabilityTheory.cond_apply measurableSet_Icc,
    ProbabilityTheory.cond_apply measurableSet_Icc, e,
    (Measure.measurePreserving_sub_left volume (2 * (b / 2))).measure_preimage (measurableSet_Icc.inter hs).nullMeasurableSet]

/-- Uniform observations. -/
example : Consistent (NormStat.bontempsMeddahi2.statistic scipyNorm "BM2" none) (uniformLaw 0 1)
      (gaussianReal 2 (Real.toNNReal 5)) ∧
    Consistent (NormStat.robustJarqueBera.statistic scipyNorm "RJB" none) (uniformLaw 0 1)
      (gaussianReal 2 (Real.toNNReal 5)) := by
  obtain ⟨_, _, _, h1⟩ := C137_bontempsMeddahi2 "BM2" none _ (List.Perm.refl _) 2 (v := 5) (by norm_num)
  obtain ⟨_, _, _, h2⟩ := C137_robustJarqueBera "RJB" none _ (List.Perm.refl _) 2 (v := 5) (by norm_num)
  refine ⟨h1 _ (cdf_uniformLaw one_pos).1 (uniform_moment 6) (uniform_not_const one_pos)
    (Or.inr (Or.inl (by rw [uniform_kurtosis one_pos]; norm_num))),
    h2 _ (cdf_uniformLaw one_pos).1 (uniform_moment 4) (uniform_not_const one_pos) (Or.inr fun e => ?_)⟩
  rw [uniform_central one_pos, uniform_leastDeviation one_pos, mul_pow,
    show √(Real.pi / 2) ^ 4 = (√(Real.pi / 2) ^ 2) ^ 2 by ring, Real.sq_sqrt (by positivity)] at e
  norm_num at e
  nlinarith [Real.pi_gt_three]

end Pysatl.Props
