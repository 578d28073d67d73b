import Verif.Lemmas.ChiSquareFour
import Verif.Props.LimitLawTests
import Verif.Props.ConsistencyHermite

/-! # C138: Bontemps-Meddahi with four polynomials, for large normal samples -/

namespace Pysatl.Props

open Pysatl.Decision Pysatl.Resolver Pysatl.Spec Pysatl.Edf Pysatl.Graph Pysatl.Gen Pysatl.Normal Pysatl.Exponent
open MeasureTheory ProbabilityTheory Filter Topology

theorem chiSquareLaw_probability4 : IsProbabilityMeasure (chiSquareLaw 4) :=
  isProbabilityMeasure_gammaMeasure (by norm_num) (by norm_num)

/-- The sum of the squares of values close to four uncorrelated averages settles at the chi-square law with four degrees of
freedom. -/
theorem limitLaw_four {st : Statistic ℝ} {P : Measure ℝ} [IsProbabilityMeasure P]
    (hm : ∀ n, OutcomeMeas fun x : Fin n → ℝ => st.execute (List.ofFn x)) {T : Fin 4 → ℕ → (ℕ → ℝ) → ℝ}
    (hT : ∀ᵐ ω ∂seqLaw P, ∀ᶠ n in atTop, st.execute (List.ofFn (firsts n ω)) = .ok (∑ i, T i n ω ^ 2))
    {f : Fin 4 → ℝ → ℝ} (hf : ∀ i, Measurable (f i)) (hf2 : ∀ i, MemLp (f i) 2 P) (hf0 : ∀ i, ∫ x, f i x ∂P = 0)
    (hff : ∀ i j, ∫ x, f i x * f j x ∂P = if i = j then 1 else 0) (h : ∀ i, Near P (T i) (rootAvg (f i))) :
    LimitLaw st P (chiSquareLaw 4) := by
  have := chiSquareLaw_probability4
  have ht := fun i => tight_rootAvg (hf i) (hf2 i) (hf0 i)
  have hs := fun i => (h i).mul (h i) (ht i) (ht i)
  have hn := (((hs 0).add (hs 1)).add (hs 2)).add (hs 3)
  have hc := (clt_many hf hf2 hf0 hff).continuous_comp
    (g := fun x : EuclideanSpace ℝ (Fin 4) => ∑ i, x i ^ 2) (by fun_prop)
  have hm1 := fun i => measurable_rootAvg (hf i)
  have hm2 : ∀ n, Measurable fun ω => rootAvg (f 0) n ω * rootAvg (f 0) n ω + rootAvg (f 1) n ω * rootAvg (f 1) n ω +
      rootAvg (f 2) n ω * rootAvg (f 2) n ω + rootAvg (f 3) n ω * rootAvg (f 3) n ω := fun n =>
    ((((hm1 0 n).mul (hm1 0 n)).add ((hm1 1 n).mul (hm1 1 n))).add ((hm1 2 n).mul (hm1 2 n))).add
      ((hm1 3 n).mul (hm1 3 n))
  refine limitLaw_of_near hm ?_ hn ?_ hm2
  · filter_upwards [hT] with ω hω
    filter_upwards [hω] with n hn
    rw [hn, Fin.sum_univ_four]
    simp only [sq]
  · refine ⟨fun n => (hm2 n).aemeasurable, aemeasurable_id, ?_⟩
    refine Tendsto.congr (fun n => Subtype.ext ?_) (hc.tendsto.mono_right (le_of_eq (congrArg 𝓝 (Subtype.ext ?_))))
    · show (seqLaw P).map _ = (seqLaw P).map _
      congr 1
      funext ω
      simp [manyAvg, sq, Fin.sum_univ_four]
    · show (stdGaussian (EuclideanSpace ℝ (Fin 4))).map _ = (chiSquareLaw 4).map id
      rw [Measure.map_id, ← sum_four_squares_law]
      rfl

/-! ### The polynomials of degree five and six -/

/-- The Hermite polynomials of degree five and six. -/
def he5 (x : ℝ) : ℝ := x ^ 5 - 10 * x ^ 3 + 15 * x
def he6 (x : ℝ) : ℝ := x ^ 6 - 15 * x ^ 4 + 45 * x ^ 2 - 15

theorem measurable_he5 : Measurable he5 := by unfold he5; fun_prop
theorem measurable_he6 : Measurable he6 := by unfold he6; fun_prop

theorem memLp_he5 : MemLp he5 2 (gaussianReal 0 1) := by
  refine (memLp_poly (Polynomial.X ^ 5 - 10 * Polynomial.X ^ 3 + 15 * Polynomial.X)).ae_eq (ae_of_all _ fun x => ?_)
  simp [he5]

theorem memLp_he6 : MemLp he6 2 (gaussianReal 0 1) := by
  refine (memLp_poly (Polynomial.X ^ 6 - 15 * Polynomial.X ^ 4 + 45 * Polynomial.X ^ 2 - 15)).ae_eq (ae_of_all _ fun x => ?_)
  simp [he6]

theorem stdNormal_high : (∫ x, x ^ 10 ∂gaussianReal 0 1 = 945) ∧ ∫ x, x ^ 12 ∂gaussianReal 0 1 = 10395 := by
  have h8 := stdNormal_moments.2.2.2.2
  have h10 := stdNormal_step 8 (by decide)
  rw [h8, show 8 + 2 = 10 from rfl] at h10
  have h12 := stdNormal_step 10 (by decide)
  rw [h10, show 10 + 2 = 12 from rfl] at h12
  norm_num at *
  exact ⟨h10, h12⟩

theorem stdNormal_sum (F : ℝ → ℝ) (c : List ℝ) (hF : ∀ x, F x = ∑ k ∈ Finset.range 13, c.getD k 0 * x ^ k) :
    ∫ x, F x ∂gaussianReal 0 1 = c.getD 0 0 + c.getD 2 0 + 3 * c.getD 4 0 + 15 * c.getD 6 0 + 105 * c.getD 8 0 +
      945 * c.getD 10 0 + 10395 * c.getD 12 0 := by
  simp only [hF]
  rw [integral_finsetSum _ fun k _ => (stdNormal_power k).const_mul _]
  obtain ⟨m0, m2, m4, m6, m8⟩ := stdNormal_moments
  obtain ⟨m10, m12⟩ := stdNormal_high
  simp only [integral_const_mul, Finset.sum_range_succ, Finset.sum_range_zero, stdNormal_odd 1 (by decide),
    stdNormal_odd 3 (by decide), stdNormal_odd 5 (by decide), stdNormal_odd 7 (by decide), stdNormal_odd 9 (by decide),
    stdNormal_odd 11 (by decide), m0, m2, m4, m6, m8, m10, m12]
  ring

/-- The four polynomials of the criterion, and the factorials it divides by. -/
def he : Fin 4 → ℝ → ℝ := ![he3, he4, he5, he6]
def heNorm : Fin 4 → ℝ := ![6, 24, 120, 720]

theorem he_integrals (i : Fin 4) : ∫ x, he i x ∂gaussianReal 0 1 = 0 := by
  obtain ⟨h3, h4, -⟩ := hermite_integrals
  fin_cases i
  · exact h3
  · exact h4
  · rw [stdNormal_sum _ [0, 15, 0, -10, 0, 1] fun x => by
      simp [he, he5, Finset.sum_range_succ]; ring]
    simp
  · rw [stdNormal_sum _ [-15, 0, 45, 0, -15, 0, 1] fun x => by
      simp [he, he6, Finset.sum_range_succ]; ring]
    norm_num

theorem he_products (i j : Fin 4) : ∫ x, he i x * he j x ∂gaussianReal 0 1 = if i = j then heNorm i else 0 := by
  wlog hij : i ≤ j generalizing i j
  · have := this j i (le_of_not_ge hij)
    simp only [mul_comm (he j _)] at this
    rw [this]
    by_cases h : i = j
    · rw [h]
    · rw [if_neg h, if_neg (Ne.symm h)]
  obtain ⟨-, -, h33, h44, h34⟩ := hermite_integrals
  fin_cases i <;> fin_cases j <;> simp only [he, heNorm] <;> simp at hij ⊢
  · simpa [sq] using h33
  · exact h34
  · rw [stdNormal_sum _ [0, 0, -45, 0, 45, 0, -13, 0, 1] fun x => by
      simp [he3, he5, Finset.sum_range_succ]; ring]
    norm_num
  · rw [stdNormal_sum _ [0, 45, 0, -150, 0, 90, 0, -18, 0, 1] fun x => by
      simp [he3, he6, Finset.sum_range_succ]; ring]
    norm_num
  · simpa [sq] using h44
  · rw [stdNormal_sum _ [0, 45, 0, -120, 0, 78, 0, -16, 0, 1] fun x => by
      simp [he4, he5, Finset.sum_range_succ]; ring]
    norm_num
  · rw [stdNormal_sum _ [-45, 0, 225, 0, -330, 0, 138, 0, -21, 0, 1] fun x => by
      simp [he4, he6, Finset.sum_range_succ]; ring]
    norm_num
  · rw [stdNormal_sum _ [0, 0, 225, 0, -300, 0, 130, 0, -20, 0, 1] fun x => by
      simp [he5, Finset.sum_range_succ]; ring]
    norm_num
  · rw [stdNormal_sum _ [0, -225, 0, 825, 0, -690, 0, 210, 0, -25, 0, 1] fun x => by
      simp [he5, he6, Finset.sum_range_succ]; ring]
    norm_num
  · rw [stdNormal_sum _ [225, 0, -1350, 0, 2475, 0, -1380, 0, 315, 0, -30, 0, 1] fun x => by
      simp [he6, Finset.sum_range_succ]; ring]
    norm_num

theorem measurable_he (i : Fin 4) : Measurable (he i) := by
  fin_cases i
  exacts [measurable_he3, measurable_he4, measurable_he5, measurable_he6]

theorem memLp_he (i : Fin 4) : MemLp (he i) 2 (gaussianReal 0 1) := by
  fin_cases i
  exacts [memLp_he3, memLp_he4, memLp_he5, memLp_he6]

theorem heNorm_pos (i : Fin 4) : 0 < heNorm i := by
  fin_cases i <;> norm_num [heNorm]

/-! ### Standardised moments of the sample -/

section
variable (m : ℝ) {v : ℝ} (hv : 0 < v)

include hv in
theorem standardised_zavg {n : ℕ} (hn : 0 < n) (ω : ℕ → ℝ) (j : ℕ) :
    lawStandardised (empiricalLaw (List.ofFn (firsts n ω))) j =
      avg (fun x => (zval m v x - zavg m v 1 n ω) ^ j) n ω * (√(zvar m v n ω) ^ j)⁻¹ := by
  have hs := Real.sqrt_pos.2 hv
  rw [lawStandardised_eq, ← centralMoment_empirical, ← stdDev_empirical, stdDev, central_zavg m hv hn, central_zavg m hv hn,
    zavg_second m hn, Real.sqrt_mul (by positivity), Real.sqrt_sq hs.le, mul_pow, ← zvar, mul_div_mul_left _ _ (by positivity),
    div_eq_mul_inv]

theorem zavg_fifth {n : ℕ} (hn : 0 < n) (ω : ℕ → ℝ) : avg (fun x => (zval m v x - zavg m v 1 n ω) ^ 5) n ω =
    zavg m v 5 n ω - 5 * zavg m v 1 n ω * zavg m v 4 n ω + 10 * zavg m v 1 n ω ^ 2 * zavg m v 3 n ω -
      10 * zavg m v 1 n ω ^ 3 * zavg m v 2 n ω + 4 * zavg m v 1 n ω ^ 5 := by
  have hn' : (n : ℝ) ≠ 0 := by exact_mod_cast hn.ne'
  have e : ∀ x, (zval m v x - zavg m v 1 n ω) ^ 5 = zval m v x ^ 5 - 5 * zavg m v 1 n ω * zval m v x ^ 4 +
    10 * zavg m v 1 n ω ^ 2 * zval m v x ^ 3 - 10 * zavg m v 1 n ω ^ 3 * zval m v x ^ 2 +
    5 * zavg m v 1 n ω ^ 4 * zval m v x ^ 1 - zavg m v 1 n ω ^ 5 := fun x => by ring
  simp only [e]
  simp only [zavg, avg, Finset.sum_add_distrib, Finset.sum_sub_distrib, ← Finset.mul_sum, Finset.sum_const,
    Finset.card_range, nsmul_eq_mul]
  field_simp
  ring

theorem zavg_sixth {n : ℕ} (hn : 0 < n) (ω : ℕ → ℝ) : avg (fun x => (zval m v x - zavg m v 1 n ω) ^ 6) n ω =
    zavg m v 6 n ω - 6 * zavg m v 1 n ω * zavg m v 5 n ω + 15 * zavg m v 1 n ω ^ 2 * zavg m v 4 n ω -
      20 * zavg m v 1 n ω ^ 3 * zavg m v 3 n ω + 15 * zavg m v 1 n ω ^ 4 * zavg m v 2 n ω - 5 * zavg m v 1 n ω ^ 6 := by
  have hn' : (n : ℝ) ≠ 0 := by exact_mod_cast hn.ne'
  have e : ∀ x, (zval m v x - zavg m v 1 n ω) ^ 6 = zval m v x ^ 6 - 6 * zavg m v 1 n ω * zval m v x ^ 5 +
    15 * zavg m v 1 n ω ^ 2 * zval m v x ^ 4 - 20 * zavg m v 1 n ω ^ 3 * zval m v x ^ 3 +
    15 * zavg m v 1 n ω ^ 4 * zval m v x ^ 2 - 6 * zavg m v 1 n ω ^ 5 * zval m v x ^ 1 + zavg m v 1 n ω ^ 6 := fun x => by ring
  simp only [e]
  simp only [zavg, avg, Finset.sum_add_distrib, Finset.sum_sub_distrib, ← Finset.mul_sum, Finset.sum_const,
    Finset.card_range, nsmul_eq_mul]
  field_simp
  ring

include hv in
theorem tight_first : Tight (gaussianReal m v.toNNReal) (fun n ω => √(n : ℝ) * zavg m v 1 n ω) :=
  tight_zval m hv (f := fun x => x ^ 1) (by fun_prop) (memLp_pow 1) (stdNormal_odd 1 (by decide))

include hv in
theorem tight_second : Tight (gaussianReal m v.toNNReal) (rootAvg fun x => zval m v x ^ 2 - 1) :=
  tight_zval m hv (f := fun x => x ^ 2 - 1) (by fun_prop)
      ((memLp_pow 2).sub (memLp_const 1)) (by
        rw [integral_sub (stdNormal_power 2) (integrable_const 1), stdNormal_moments.2.1]
        simp)

theorem avg_second {n : ℕ} (hn : 0 < n) (ω : ℕ → ℝ) :
    avg (fun x => zval m v x ^ 2 - 1) n ω = zavg m v 2 n ω - 1 := by
  have hn' : (n : ℝ) ≠ 0 := by exact_mod_cast hn.ne'
  simp only [avg, zavg, Finset.sum_sub_distrib, Finset.sum_const, Finset.card_range, nsmul_eq_mul]
  field_simp

include hv in
theorem zavg_all : ∀ᵐ ω ∂seqLaw (gaussianReal m v.toNNReal), Tendsto (fun n => zavg m v 1 n ω) atTop (𝓝 0) ∧
    Tendsto (fun n => zavg m v 2 n ω) atTop (𝓝 1) ∧ Tendsto (fun n => zavg m v 3 n ω) atTop (𝓝 0) ∧
    Tendsto (fun n => zavg m v 4 n ω) atTop (𝓝 3) ∧ Tendsto (fun n => zavg m v 5 n ω) atTop (𝓝 0) := by
  filter_upwards [zavg_settles m hv 1, zavg_settles m hv 2, zavg_settles m hv 3, zavg_settles m hv 4,
    zavg_settles m hv 5] with ω a b c d e
  rw [stdNormal_odd 1 (by decide)] at a
  rw [stdNormal_moments.2.1] at b
  rw [stdNormal_odd 3 (by decide)] at c
  rw [stdNormal_moments.2.2.1] at d
  rw [stdNormal_odd 5 (by decide)] at e
  exact ⟨a, b, c, d, e⟩

/-- The standardised moment of a sample. -/
noncomputable def stdMom (n : ℕ) (ω : ℕ → ℝ) (j : ℕ) : ℝ := lawStandardised (empiricalLaw (List.ofFn (firsts n ω))) j

include hv in
/-- **The fifth moment of a large normal sample**, with a multiple of the third subtracted, is close to an average. -/
theorem near_fifth : Near (gaussianReal m v.toNNReal)
    (fun n ω => √(n : ℝ) * (stdMom n ω 5 - 10 * stdMom n ω 3)) (rootAvg fun x => he5 (zval m v x)) := by
  have m1 := measurable_zavg m v 1
  have m2 := measurable_zavg m v 2
  have m3 := measurable_zavg m v 3
  have m4 := measurable_zavg m v 4
  have s1 : Small (gaussianReal m v.toNNReal) (fun n ω => -5 * zavg m v 4 n ω + 30 * zavg m v 2 n ω ^ 2 - 15 +
      20 * (zavg m v 1 n ω * zavg m v 3 n ω) - 60 * (zavg m v 1 n ω ^ 2 * zavg m v 2 n ω) + 24 * zavg m v 1 n ω ^ 4) := by
    refine Small.of_ae (fun n => ((((((m4 n).const_mul _).add (((m2 n).pow_const 2).const_mul _)).sub_const _).add
      (((m1 n).mul (m3 n)).const_mul _)).sub ((((m1 n).pow_const 2).mul (m2 n)).const_mul _)).add
      (((m1 n).pow_const 4).const_mul _)) ?_
    filter_upwards [zavg_all m hv] with ω h
    obtain ⟨a, b, c, d, e⟩ := h
    have := (((((d.const_mul (-5)).add ((b.pow 2).const_mul 30)).sub_const 15).add
      ((a.mul c).const_mul 20)).sub (((a.pow 2).mul b).const_mul 60)).add ((a.pow 4).const_mul 24)
    norm_num only at this
    exact this
  have s2 : Small (gaussianReal m v.toNNReal) (fun n ω => -10 * zavg m v 3 n ω) := by
    refine Small.of_ae (fun n => (m3 n).const_mul _) ?_
    filter_upwards [zavg_all m hv] with ω h
    have := h.2.2.1.const_mul (-10)
    norm_num only at this
    exact this
  have h1 : Near (gaussianReal m v.toNNReal) (fun n ω => √(n : ℝ) *
      (zavg m v 5 n ω - 5 * zavg m v 1 n ω * zavg m v 4 n ω + 10 * zavg m v 1 n ω ^ 2 * zavg m v 3 n ω -
      10 * zavg m v 1 n ω ^ 3 * zavg m v 2 n ω + 4 * zavg m v 1 n ω ^ 5 -
      10 * (zavg m v 3 n ω - 3 * zavg m v 1 n ω * zavg m v 2 n ω + 2 * zavg m v 1 n ω ^ 3) * zvar m v n ω))
      (rootAvg fun x => he5 (zval m v x)) := by
    refine (Near.of_small (W := rootAvg fun x => he5 (zval m v x)) (((tight_first m hv).mul_small s1).add
      ((tight_second m hv).mul_small s2))).congr (ae_of_all _ fun ω => ?_)
    filter_upwards [eventually_gt_atTop 0] with n hn
    have hn' : (n : ℝ) ≠ 0 := by exact_mod_cast hn.ne'
    have e : avg (fun x => he5 (zval m v x)) n ω = zavg m v 5 n ω - 10 * zavg m v 3 n ω + 15 * zavg m v 1 n ω := by
      simp only [avg, he5, zavg, Finset.sum_sub_distrib, Finset.sum_add_distrib, ← Finset.mul_sum, pow_one]
      ring
    simp only [rootAvg, e, avg_second m hn]
    rw [zvar]
    ring
  have h2 := h1.mul (near_zvar m hv 5) (tight_zval m hv measurable_he5 memLp_he5 (he_integrals 2)) (Tight.const 1)
  refine (h2.of_eq fun n ω => mul_one _).congr ?_
  filter_upwards [zvar_settles m hv] with ω a
  filter_upwards [eventually_gt_atTop 0, a.eventually (lt_mem_nhds one_pos)] with n hn hz
  rw [stdMom, stdMom, standardised_zavg m hv hn, standardised_zavg m hv hn, zavg_third m hn, zavg_fifth m hn]
  have hs := Real.sqrt_pos.2 hz
  have e : zvar m v n ω = √(zvar m v n ω) ^ 2 := (Real.sq_sqrt hz.le).symm
  generalize √(zvar m v n ω) = s at *
  rw [e]
  field_simp

include hv in
/-- **The sixth moment of a large normal sample**, with a multiple of the fourth subtracted, is close to an average. -/
theorem near_sixth : Near (gaussianReal m v.toNNReal)
    (fun n ω => √(n : ℝ) * (stdMom n ω 6 - 15 * stdMom n ω 4 + 30)) (rootAvg fun x => he6 (zval m v x)) := by
  have m1 := measurable_zavg m v 1
  have m2 := measurable_zavg m v 2
  have m3 := measurable_zavg m v 3
  have m4 := measurable_zavg m v 4
  have m5 := measurable_zavg m v 5
  have mz := measurable_zvar m v
  have s1 : Small (gaussianReal m v.toNNReal) (fun n ω => -6 * zavg m v 5 n ω + 30 * (zavg m v 1 n ω * zavg m v 4 n ω) -
      20 * (zavg m v 1 n ω ^ 2 * zavg m v 3 n ω) + 15 * (zavg m v 1 n ω ^ 3 * zavg m v 2 n ω) - 5 * zavg m v 1 n ω ^ 5 -
      15 * ((-4 * zavg m v 3 n ω + 6 * (zavg m v 1 n ω * zavg m v 2 n ω) - 3 * zavg m v 1 n ω ^ 3) * zvar m v n ω) -
      90 * zavg m v 1 n ω + zavg m v 1 n ω ^ 3 * (60 + 30 * zvar m v n ω)) := by
    refine Small.of_ae (fun n => ?_) ?_
    · have m1 := m1 n
      have m2 := m2 n
      have m3 := m3 n
      have m4 := m4 n
      have m5 := m5 n
      have mz := mz n
      fun_prop
    filter_upwards [zavg_all m hv, zvar_settles m hv] with ω h z
    obtain ⟨a, b, c, d, e⟩ := h
    have := (((((((e.const_mul (-6)).add ((a.mul d).const_mul 30)).sub (((a.pow 2).mul c).const_mul 20)).add
      (((a.pow 3).mul b).const_mul 15)).sub ((a.pow 5).const_mul 5)).sub
      (((((c.const_mul (-4)).add ((a.mul b).const_mul 6)).sub ((a.pow 3).const_mul 3)).mul z).const_mul 15)).sub
      (a.const_mul 90)).add ((a.pow 3).mul ((z.const_mul 30).const_add 60))
    norm_num only at this
    exact this
  have s2 : Small (gaussianReal m v.toNNReal) (fun n ω => -15 * zavg m v 4 n ω + 45 +
      (zavg m v 2 n ω - 1 - 2 * zavg m v 1 n ω ^ 2) * (60 + 30 * zvar m v n ω)) := by
    refine Small.of_ae (fun n => ?_) ?_
    · have m1 := m1 n
      have m2 := m2 n
      have m4 := m4 n
      have mz := mz n
      fun_prop
    filter_upwards [zavg_all m hv, zvar_settles m hv] with ω h z
    obtain ⟨a, b, c, d, e⟩ := h
    have := ((d.const_mul (-15)).add_const 45).add (((b.sub_const 1).sub ((a.pow 2).const_mul 2)).mul
      ((z.const_mul 30).const_add 60))
    norm_num only at this
    exact this
  have h1 : Near (gaussianReal m v.toNNReal) (fun n ω => √(n : ℝ) *
      (zavg m v 6 n ω - 6 * zavg m v 1 n ω * zavg m v 5 n ω + 15 * zavg m v 1 n ω ^ 2 * zavg m v 4 n ω -
      20 * zavg m v 1 n ω ^ 3 * zavg m v 3 n ω + 15 * zavg m v 1 n ω ^ 4 * zavg m v 2 n ω - 5 * zavg m v 1 n ω ^ 6 -
      15 * (zavg m v 4 n ω - 4 * zavg m v 1 n ω * zavg m v 3 n ω + 6 * zavg m v 1 n ω ^ 2 * zavg m v 2 n ω -
      3 * zavg m v 1 n ω ^ 4) * zvar m v n ω + 30 * zvar m v n ω ^ 3))
      (rootAvg fun x => he6 (zval m v x)) := by
    refine (Near.of_small (W := rootAvg fun x => he6 (zval m v x)) (((tight_first m hv).mul_small s1).add
      ((tight_second m hv).mul_small s2))).congr (ae_of_all _ fun ω => ?_)
    filter_upwards [eventually_gt_atTop 0] with n hn
    have hn' : (n : ℝ) ≠ 0 := by exact_mod_cast hn.ne'
    have e : avg (fun x => he6 (zval m v x)) n ω = zavg m v 6 n ω - 15 * zavg m v 4 n ω + 45 * zavg m v 2 n ω - 15 := by
      simp only [avg, he6, zavg, Finset.sum_sub_distrib, Finset.sum_add_distrib, ← Finset.mul_sum, Finset.sum_const,
        Finset.card_range, nsmul_eq_mul]
      field_simp
    simp only [rootAvg, e, avg_second m hn]
    rw [zvar]
    ring
  have h2 := h1.mul (near_zvar m hv 6) (tight_zval m hv measurable_he6 memLp_he6 (he_integrals 3)) (Tight.const 1)
  refine (h2.of_eq fun n ω => mul_one _).congr ?_
  filter_upwards [zvar_settles m hv] with ω a
  filter_upwards [eventually_gt_atTop 0, a.eventually (lt_mem_nhds one_pos)] with n hn hz
  rw [stdMom, stdMom, standardised_zavg m hv hn, standardised_zavg m hv hn, zavg_fourth m hn, zavg_sixth m hn]
  have hs := Real.sqrt_pos.2 hz
  have e : zvar m v n ω = √(zvar m v n ω) ^ 2 := (Real.sq_sqrt hz.le).symm
  generalize √(zvar m v n ω) = s at *
  rw [e]
  field_simp

/-! ### The criterion -/

/-- What the criterion squares: the averages of the polynomials over the sample standardised with the divisor `n - 1`. -/
noncomputable def heMean (i : Fin 4) (n : ℕ) (ω : ℕ → ℝ) : ℝ := hermiteMean (i + 3) (List.ofFn (firsts n ω))

theorem stdMom_skewness (n : ℕ) (ω : ℕ → ℝ) : stdMom n ω 3 = skewness (List.ofFn (firsts n ω)) := by
  rw [stdMom, lawStandardised_eq, ← centralMoment_empirical, ← stdDev_empirical, skewness]

theorem stdMom_kurtosis (n : ℕ) (ω : ℕ → ℝ) : stdMom n ω 4 = kurtosis (List.ofFn (firsts n ω)) := by
  rw [stdMom, lawStandardised_eq, ← centralMoment_empirical, ← stdDev_empirical, kurtosis]

theorem ratio_bias (k : ℕ) : Tendsto (fun n : ℕ => √(n : ℝ) * (((n : ℝ) - 1) / n - 1) ^ (k + 2)) atTop (𝓝 0) := by
  have h := ((sqrt_inv_tendsto.mul inv_tendsto).mul ((inv_tendsto).pow k)).const_mul ((-1) ^ k)
  simp only [zero_mul, mul_zero] at h
  refine h.congr' ?_
  filter_upwards [eventually_gt_atTop 0] with n hn
  have hn0 : (0 : ℝ) < n := by exact_mod_cast hn
  have hs : 0 < √(n : ℝ) := Real.sqrt_pos.2 hn0
  have e : (n : ℝ) = √(n : ℝ) ^ 2 := (Real.sq_sqrt hn0.le).symm
  generalize √(n : ℝ) = r at *
  rw [e, show (r ^ 2 - 1) / r ^ 2 - 1 = -1 * (1 / r ^ 2) by field_simp; ring, mul_pow, pow_add]
  rw [one_div, pow_add]
  field_simp

include hv in
theorem near_heMean (i : Fin 4) : Near (gaussianReal m v.toNNReal) (fun n ω => √(n : ℝ) * heMean i n ω)
    (rootAvg fun x => he i (zval m v x)) := by
  have ht : ∀ i, Tight (gaussianReal m v.toNNReal) (rootAvg fun x => he i (zval m v x)) := fun i =>
    tight_zval m hv (measurable_he i) (memLp_he i) (he_integrals i)
  have r := ratio_tendsto.sqrt
  rw [Real.sqrt_one] at r
  have hS : Near (gaussianReal m v.toNNReal) (fun n ω => √(n : ℝ) * stdMom n ω 3) (rootAvg fun x => he 0 (zval m v x)) :=
    (near_skewness m hv).congr (ae_of_all _ fun ω => .of_forall fun n => by rw [stdMom_skewness])
  have hK : Near (gaussianReal m v.toNNReal) (fun n ω => √(n : ℝ) * (stdMom n ω 4 - 3)) (rootAvg fun x => he 1 (zval m v x)) :=
    (near_kurtosis m hv).congr (ae_of_all _ fun ω => .of_forall fun n => by rw [stdMom_kurtosis])
  have h5 : Near (gaussianReal m v.toNNReal) (fun n ω => √(n : ℝ) * (stdMom n ω 5 - 10 * stdMom n ω 3))
    (rootAvg fun x => he 2 (zval m v x)) := near_fifth m hv
  have h6 : Near (gaussianReal m v.toNNReal) (fun n ω => √(n : ℝ) * (stdMom n ω 6 - 15 * stdMom n ω 4 + 30))
    (rootAvg fun x => he 3 (zval m v x)) := near_sixth m hv
  -- the values of the criterion for samples that vary
  have hval : ∀ᵐ ω ∂seqLaw (gaussianReal m v.toNNReal), ∀ᶠ n in atTop,
      heMean 0 n ω = √(((n : ℝ) - 1) / n) ^ 3 * stdMom n ω 3 ∧
      heMean 1 n ω = √(((n : ℝ) - 1) / n) ^ 4 * (stdMom n ω 4 - 3) + 3 * (((n : ℝ) - 1) / n - 1) ^ 2 ∧
      heMean 2 n ω = √(((n : ℝ) - 1) / n) ^ 5 * (stdMom n ω 5 - 10 * stdMom n ω 3) +
        10 * (√(((n : ℝ) - 1) / n) ^ 5 - √(((n : ℝ) - 1) / n) ^ 3) * stdMom n ω 3 ∧
      heMean 3 n ω = √(((n : ℝ) - 1) / n) ^ 6 * (stdMom n ω 6 - 15 * stdMom n ω 4 + 30) +
        15 * (√(((n : ℝ) - 1) / n) ^ 6 - √(((n : ℝ) - 1) / n) ^ 4) * (stdMom n ω 4 - 3) +
        15 * (((n : ℝ) - 1) / n - 1) ^ 3 := by
    filter_upwards [zvar_settles m hv] with ω a
    filter_upwards [eventually_gt_atTop 1, a.eventually (lt_mem_nhds one_pos)] with n hn hz
    obtain ⟨e3, e4, e5, e6⟩ := hermite_means (x := List.ofFn (firsts n ω)) hn List.length_ofFn rfl
      (S := fun j => stdMom n ω j) rfl
    have hn' : (1 : ℝ) < n := by exact_mod_cast hn
    have hs := Real.sqrt_pos.2 hz
    have e2 : stdMom n ω 2 = 1 := by
      rw [stdMom, standardised_zavg m hv (by omega), zavg_second m (by omega), ← zvar, Real.sq_sqrt hz.le]
      exact mul_inv_cancel₀ hz.ne'
    have er : ((n : ℝ) - 1) / n = √(((n : ℝ) - 1) / n) ^ 2 := (Real.sq_sqrt (by
      have : (0 : ℝ) ≤ n - 1 := by linarith
      positivity)).symm
    change heMean 0 n ω = _ at e3
    change heMean 1 n ω = _ at e4
    change heMean 2 n ω = _ at e5
    change heMean 3 n ω = _ at e6
    rw [e3, e4, e5, e6, e2]
    generalize √(((n : ℝ) - 1) / n) = ρ at *
    rw [er]
    refine ⟨rfl, ?_, ?_, ?_⟩ <;> ring
  fin_cases i
  · have h := hS.mul (Near.of_seq (r.pow 3)) (ht 0) (Tight.const _)
    refine (h.of_eq fun n ω => by simp).congr ?_
    filter_upwards [hval] with ω h
    filter_upwards [h] with n h
    change √(n : ℝ) * heMean 0 n ω = _
    rw [h.1]
    ring
  · have h := (hK.mul (Near.of_seq (r.pow 4)) (ht 1) (Tight.const _)).add (Near.of_seq ((ratio_bias 0).const_mul 3))
    refine (h.of_eq fun n ω => by simp).congr ?_
    filter_upwards [hval] with ω h
    filter_upwards [h] with n h
    change √(n : ℝ) * heMean 1 n ω = _
    rw [h.2.1]
    ring
  · have h := (h5.mul (Near.of_seq (r.pow 5)) (ht 2) (Tight.const _)).add
      (hS.mul (Near.of_seq (((r.pow 5).sub (r.pow 3)).const_mul 10)) (ht 0) (Tight.const _))
    refine (h.of_eq fun n ω => by simp).congr ?_
    filter_upwards [hval] with ω h
    filter_upwards [h] with n h
    change √(n : ℝ) * heMean 2 n ω = _
    rw [h.2.2.1]
    ring
  · have h := ((h6.mul (Near.of_seq (r.pow 6)) (ht 3) (Tight.const _)).add
      (hK.mul (Near.of_seq (((r.pow 6).sub (r.pow 4)).const_mul 15)) (ht 1) (Tight.const _))).add
      (Near.of_seq ((ratio_bias 1).const_mul 15))
    refine (h.of_eq fun n ω => by simp).congr ?_
    filter_upwards [hval] with ω h
    filter_upwards [h] with n h
    change √(n : ℝ) * heMean 3 n ω = _
    rw [h.2.2.2]
    ring

include hv in
theorem bontempsMeddahi2_limitLaw (code : String) (params : Option (List (String × ℝ))) :
    LimitLaw (NormStat.bontempsMeddahi2.statistic scipyNorm code params) (gaussianReal m v.toNNReal) (chiSquareLaw 4) := by
  have hz := measurable_zval m v
  have hN := fun i => Real.sqrt_pos.2 (heNorm_pos i)
  refine limitLaw_four (T := fun i n ω => √(n : ℝ) * heMean i n ω * (√(heNorm i))⁻¹)
    (f := fun i x => he i (zval m v x) / √(heNorm i)) (normal_meas _ code params) (ae_of_all _ fun ω => ?_)
    (fun i => ((measurable_he i).comp hz).div_const _) (fun i => ?_) (fun i => ?_) (fun i j => ?_) fun i => ?_
  · filter_upwards [eventually_gt_atTop 3] with n hn
    refine normal_value ?_
    rw [(C117_bontempsMeddahi scipyNorm (by simpa using hn)).2, List.length_ofFn,
      show Finset.Icc 3 6 = {3, 4, 5, 6} from rfl, Finset.sum_insert (by decide),
      Finset.sum_insert (by decide), Finset.sum_pair (by norm_num), Fin.sum_univ_four,
      show ((Nat.factorial 3 : ℕ) : ℝ) = 6 by norm_num [Nat.factorial], show ((Nat.factorial 4 : ℕ) : ℝ) = 24 by norm_num [Nat.factorial],
      show ((Nat.factorial 5 : ℕ) : ℝ) = 120 by norm_num [Nat.factorial], show ((Nat.factorial 6 : ℕ) : ℝ) = 720 by norm_num [Nat.factorial]]
    have hn2 : √(n : ℝ) ^ 2 = n := Real.sq_sqrt (Nat.cast_nonneg n)
    have e : ∀ i, (√(n : ℝ) * heMean i n ω * (√(heNorm i))⁻¹) ^ 2 = n * (heMean i n ω ^ 2 / heNorm i) := fun i => by
      rw [mul_pow, mul_pow, inv_pow, hn2, Real.sq_sqrt (heNorm_pos i).le]
      ring
    rw [e, e, e, e]
    simp only [heNorm, heMean]
    simp
    ring
  · have := (memLp_zval m hv (memLp_he i)).const_mul (√(heNorm i))⁻¹
    simpa only [div_eq_inv_mul] using this
  · have hh := measurable_he i
    rw [integral_zval m hv (f := fun x => he i x / √(heNorm i)) (by fun_prop), integral_div, he_integrals, zero_div]
  · have h1 := measurable_he i
    have h2 := measurable_he j
    rw [integral_zval m hv (f := fun x => he i x / √(heNorm i) * (he j x / √(heNorm j))) (by fun_prop)]
    simp only [div_mul_div_comm]
    rw [integral_div, he_products]
    split_ifs with h
    · rw [← h, Real.mul_self_sqrt (heNorm_pos i).le, div_self (heNorm_pos i).ne']
    · rw [zero_div]
  · exact ((near_heMean m hv i).mul (Near.refl fun _ _ => (√(heNorm i))⁻¹)
      (tight_zval m hv (measurable_he i) (memLp_he i) (he_integrals i)) (Tight.const _)).of_eq fun n ω =>
        (rootAvg_scale _ _ n ω).symm

end

section
variable (code : String) (params : Option (List (String × ℝ))) (classes : List GeneratorClass)
  (hp : classes.Perm generatorClasses) (m : ℝ) {v : ℝ} (hv : 0 < v)

include hp hv in
/-- **C138, Bontemps-Meddahi with four polynomials**: the values of large normal samples follow the chi-square law with
four degrees of freedom. -/
theorem C138_bontempsMeddahi2 : ∃ G, (Gen.Family.normal m v).simulator classes = .ok G ∧
    (∀ n, G.generate n = .ok (iid n (gaussianReal m v.toNNReal))) ∧
    LimitLaw (NormStat.bontempsMeddahi2.statistic scipyNorm code params) (gaussianReal m v.toNNReal) (chiSquareLaw 4) := by
  exact with_normal hp m hv (bontempsMeddahi2_limitLaw m hv code params)

end

/-- The limit law gives no mass to single points, so the claim is about every `t`. -/
theorem chiSquareLaw_point (t : ℝ) : chiSquareLaw 4 {t} = 0 := by
  rw [chiSquareLaw, gammaMeasure]
  exact withDensity_absolutelyContinuous _ _ (measure_singleton t)

/-- The probability of a value of at most `t`, for samples of a normal law. -/
example (t : ℝ) : Tendsto (fun n => iid n (gaussianReal 2 (Real.toNNReal 5)) {x | ∃ d ≤ t,
    (NormStat.bontempsMeddahi2.statistic scipyNorm "BM2" none).execute (List.ofFn x) = .ok d}) atTop
    (𝓝 (chiSquareLaw 4 (Set.Iic t))) := by
  obtain ⟨_, _, _, h⟩ := C138_bontempsMeddahi2 "BM2" none _ (List.Perm.refl _) 2 (v := 5) (by norm_num)
  exact h t (chiSquareLaw_point t)

end Pysatl.Props
