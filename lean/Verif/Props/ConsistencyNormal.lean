import Verif.Lemmas.MomentLimits
import Verif.Props.ConsistencyExponential
import Verif.Props.NormalMoments
import Verif.Props.Hermite

/-! # C137: which laws the criteria of normality detect (moments) -/

namespace Pysatl.Props

open Pysatl.Decision Pysatl.Resolver Pysatl.Spec Pysatl.Edf Pysatl.Graph Pysatl.Gen Pysatl.Normal Pysatl.Exponent
open MeasureTheory ProbabilityTheory Filter Topology

/-- The reference values are computed from samples of the normal law of the hypothesis, whatever its parameters. -/
theorem with_normal {classes : List GeneratorClass} (hp : classes.Perm generatorClasses) (m : ℝ) {v : ℝ} (hv : 0 < v)
    {R : Prop} (h : R) : ∃ G, (Gen.Family.normal m v).simulator classes = .ok G ∧
      (∀ n, G.generate n = .ok (iid n (gaussianReal m v.toNNReal))) ∧ R := by
  obtain ⟨G, hG, hgen⟩ := simulates_all (f := .normal m v) fun n => C111_normal classes hp m v hv.le n
  exact ⟨G, hG, hgen, h⟩

theorem normal_meas (s : NormStat) (code : String) (params : Option (List (String × ℝ))) (n : ℕ) :
    OutcomeMeas fun x : Fin n → ℝ => (s.statistic scipyNorm code params).execute (List.ofFn x) :=
  outcomeMeas_normal scipyNorm_measurable s code params (listMeas_ofFn n)

theorem normal_value {s : NormStat} {code : String} {params : Option (List (String × ℝ))} {xs : List ℝ} {d : ℝ}
    (h : s.value scipyNorm xs = .ok (some d)) : (s.statistic scipyNorm code params).execute xs = .ok d :=
  execute_some s code params (v := .ok d) h

/-! ### Sample moments as functionals of the empirical law -/

theorem meanOf_empirical (f : ℝ → ℝ) (xs : List ℝ) : meanOf f xs = ∫ x, f x ∂empiricalLaw xs := by
  rw [integral_empirical, meanOf]

theorem centralMoment_empirical (k : ℕ) (xs : List ℝ) :
    Spec.centralMoment k xs = ∫ x, (x - lawMean (empiricalLaw xs)) ^ k ∂empiricalLaw xs := by
  rw [Spec.centralMoment, meanOf_empirical, meanOf_empirical]
  rfl

theorem stdDev_empirical (xs : List ℝ) : stdDev xs = √(lawVariance (empiricalLaw xs)) := by
  rw [stdDev, centralMoment_empirical, lawVariance]

theorem skewness_empirical (xs : List ℝ) : skewness xs = lawStandardised (empiricalLaw xs) 3 := by
  rw [lawStandardised_eq, skewness, centralMoment_empirical, stdDev_empirical]

theorem kurtosis_empirical (xs : List ℝ) : kurtosis xs = lawStandardised (empiricalLaw xs) 4 := by
  rw [lawStandardised_eq, kurtosis, centralMoment_empirical, stdDev_empirical]

theorem varies_of_stdDev {xs : List ℝ} (h : 0 < stdDev xs) : Varies xs := by
  by_contra hv
  have hc : ∀ x ∈ xs, ∀ y ∈ xs, x = y := fun x hx y hy => by
    by_contra hxy
    exact hv ⟨x, hx, y, hy, hxy⟩
  cases xs with
  | nil => simp [stdDev, Spec.centralMoment, meanOf] at h
  | cons a l =>
    have e : a :: l = List.replicate (l.length + 1) a := List.eq_replicate_iff.2 ⟨rfl, fun b hb => hc b hb a (by simp)⟩
    rw [e] at h
    have h1 : ∀ f : ℝ → ℝ, meanOf f (List.replicate (l.length + 1) a) = f a := fun f => by
      have : ((l.length : ℝ) + 1) ≠ 0 := by positivity
      simp [meanOf]
      field_simp
    simp [stdDev, Spec.centralMoment, h1] at h

section
variable {μ : Measure ℝ} [IsProbabilityMeasure μ]

theorem second_of_fourth (h : Integrable (fun x => |x| ^ 4) μ) : Integrable (fun x => |x| ^ 2) μ := by
  simpa using integrable_power h (j := 2) (by norm_num) 0

theorem third_of_fourth (h : Integrable (fun x => |x| ^ 4) μ) : Integrable (fun x => |x| ^ 3) μ := by
  have := (integrable_power h (j := 3) (by norm_num) 0).abs
  simpa [abs_pow] using this

theorem settles_stdDev (h : Integrable (fun x => |x| ^ 2) μ) :
    ∀ᵐ ω ∂seqLaw μ, Tendsto (fun n => stdDev (List.ofFn (firsts n ω))) atTop (𝓝 √(lawVariance μ)) := by
  filter_upwards [settles_central h (by norm_num)] with ω a
  simp only [stdDev_empirical]
  exact a.sqrt

theorem eventually_varies (h : Integrable (fun x => |x| ^ 2) μ) (hv : 0 < lawVariance μ) :
    ∀ᵐ ω ∂seqLaw μ, ∀ᶠ n in atTop, Varies (List.ofFn (firsts n ω)) := by
  filter_upwards [settles_stdDev h] with ω a
  filter_upwards [a.eventually (lt_mem_nhds (Real.sqrt_pos.2 hv))] with n hn
  exact varies_of_stdDev hn

theorem settles_skewness (h : Integrable (fun x => |x| ^ 3) μ) (hv : 0 < lawVariance μ) :
    ∀ᵐ ω ∂seqLaw μ, Tendsto (fun n => skewness (List.ofFn (firsts n ω))) atTop (𝓝 (lawStandardised μ 3)) := by
  filter_upwards [settles_standardised h (by norm_num) hv] with ω a
  simpa only [skewness_empirical] using a

theorem settles_kurtosis (h : Integrable (fun x => |x| ^ 4) μ) (hv : 0 < lawVariance μ) :
    ∀ᵐ ω ∂seqLaw μ, Tendsto (fun n => kurtosis (List.ofFn (firsts n ω))) atTop (𝓝 (lawStandardised μ 4)) := by
  filter_upwards [settles_standardised h (by norm_num) hv] with ω a
  simpa only [kurtosis_empirical] using a

/-- The mean absolute deviation from the mean settles. -/
theorem settles_absDeviation (hi : Integrable (fun x => x) μ) : ∀ᵐ ω ∂seqLaw μ,
    Tendsto (fun n => absDeviation (meanOf id (List.ofFn (firsts n ω))) (List.ofFn (firsts n ω))) atTop
      (𝓝 (∫ x, |x - lawMean μ| ∂μ)) := by
  have hia : Integrable (fun x => |x - lawMean μ|) μ := (hi.sub (integrable_const _)).abs
  filter_upwards [settles_mean hi, settles_integral (by fun_prop) hia] with ω h1 h2
  have h3 : Tendsto (fun n => |lawMean μ - lawMean (empiricalLaw (List.ofFn (firsts n ω)))|) atTop (𝓝 0) := by
    have := (h1.const_sub (lawMean μ)).abs
    simpa using this
  have hclose : Tendsto (fun n => absDeviation (meanOf id (List.ofFn (firsts n ω))) (List.ofFn (firsts n ω)) -
      ∫ x, |x - lawMean μ| ∂empiricalLaw (List.ofFn (firsts n ω))) atTop (𝓝 0) := by
    refine squeeze_zero_norm' ?_ h3
    filter_upwards [eventually_gt_atTop 0] with n hn0
    have hn' : (0 : ℝ) < n := by exact_mod_cast hn0
    have e : meanOf id (List.ofFn (firsts n ω)) = lawMean (empiricalLaw (List.ofFn (firsts n ω))) := meanOf_empirical _ _
    rw [absDeviation, meanOf_empirical, e, integral_firsts, integral_firsts, ← sub_div, ← Finset.sum_sub_distrib,
      Real.norm_eq_abs, abs_div, abs_of_pos hn', div_le_iff₀ hn']
    refine (Finset.abs_sum_le_sum_abs _ _).trans ((Finset.sum_le_card_nsmul _ _
      |lawMean μ - lawMean (empiricalLaw (List.ofFn (firsts n ω)))| fun i _ => ?_).trans ?_)
    · refine (abs_abs_sub_abs_le_abs_sub _ _).trans (le_of_eq ?_)
      congr 1
      ring
    · rw [Finset.card_range, nsmul_eq_mul, mul_comm]
  have h4 := hclose.add h2
  simp only [sub_add_cancel, zero_add] at h4
  exact h4

end

theorem mul_strictMono : ∀ᶠ n : ℕ in atTop, StrictMono fun x : ℝ => (n : ℝ) * x := by
  filter_upwards [eventually_gt_atTop 0] with n hn x y hxy
  exact mul_lt_mul_of_pos_left hxy (by exact_mod_cast hn)

section
variable (code : String) (params : Option (List (String × ℝ))) (classes : List GeneratorClass)
  (hp : classes.Perm generatorClasses) (m : ℝ) {v : ℝ} (hv : 0 < v)

theorem toNNReal_ne (hv : 0 < v) : v.toNNReal ≠ 0 := (Real.toNNReal_pos.2 hv).ne'

theorem gaussian_variance_pos (hv : 0 < v) : 0 < lawVariance (gaussianReal m v.toNNReal) := by
  rw [lawVariance_gaussian]
  simpa using hv

/-! ### Jarque-Bera -/

theorem moments_far {S T : ℝ} (h : S ≠ 0 ∨ T ≠ 3) : (0 : ℝ) ^ 2 / 6 + (3 - 3) ^ 2 / 24 < S ^ 2 / 6 + (T - 3) ^ 2 / 24 := by
  have h1 := sq_nonneg S
  have h2 := sq_nonneg (T - 3)
  norm_num
  rcases h with h | h
  · have := sq_pos_of_ne_zero h
    positivity
  · have := sq_pos_of_ne_zero (sub_ne_zero.2 h)
    positivity

theorem jarqueBera_settles {Q : Measure ℝ} [IsProbabilityMeasure Q] (h4 : Integrable (fun x => |x| ^ 4) Q)
    (hQ : 0 < lawVariance Q) : ValueSettles (NormStat.jarqueBera.statistic scipyNorm code params) (fun n x => n * x) Q
      (lawStandardised Q 3 ^ 2 / 6 + (lawStandardised Q 4 - 3) ^ 2 / 24) := by
  filter_upwards [settles_skewness (third_of_fourth h4) hQ, settles_kurtosis h4 hQ] with ω a b
  refine ⟨_, ((a.pow 2).div_const 6).add (((b.sub_const 3).pow 2).div_const 24), ?_⟩
  filter_upwards [eventually_gt_atTop 1] with n hn
  rw [normal_value (C117_jarqueBera scipyNorm (ofFn_ne hn _)), List.length_ofFn]

include hp hv in
/-- **C137, Jarque-Bera**: the reference is any normal law.  Every law with a finite fourth moment whose skewness is not
zero or whose kurtosis is not three is rejected in the long run. -/
theorem C137_jarqueBera : ∃ G, (Gen.Family.normal m v).simulator classes = .ok G ∧
    (∀ n, G.generate n = .ok (iid n (gaussianReal m v.toNNReal))) ∧
    ∀ Q : Measure ℝ, IsProbabilityMeasure Q → Integrable (fun x => |x| ^ 4) Q → (∀ c, Q ≠ Measure.dirac c) →
      (lawStandardised Q 3 ≠ 0 ∨ lawStandardised Q 4 ≠ 3) →
      Consistent (NormStat.jarqueBera.statistic scipyNorm code params) Q (gaussianReal m v.toNNReal) := by
  refine with_normal hp m hv fun Q _ h4 hQ h => ?_
  refine value_consistent (normal_meas _ code params) mul_strictMono
    (jarqueBera_settles code params h4 ((lawVariance_pos (second_of_fourth h4)).2 hQ))
    (jarqueBera_settles code params (gaussian_moment_finite m _ 4) (gaussian_variance_pos m hv))
    (Or.inl ⟨(fun h => by cases h), ?_⟩)
  rw [gaussian_skewness m (toNNReal_ne hv), gaussian_kurtosis m (toNNReal_ne hv)]
  exact moments_far h

/-! ### Skewness -/

/-- The code replaces a skewness of exactly zero by this number. -/
noncomputable def skewReplaced (n : ℝ) : ℝ := 1 / √((n + 1) * (n + 3) / (6 * (n - 2)))

theorem skewReplaced_tendsto : Tendsto (fun n : ℕ => skewReplaced n) atTop (𝓝 0) := by
  have h : Tendsto (fun n : ℕ => ((n : ℝ) / 6)) atTop atTop :=
    tendsto_natCast_atTop_atTop.atTop_div_const (by norm_num)
  have h2 : Tendsto (fun n : ℕ => ((n : ℝ) + 1) * (n + 3) / (6 * (n - 2))) atTop atTop := by
    refine tendsto_atTop_mono' _ ?_ h
    filter_upwards [eventually_gt_atTop 2] with n hn
    have hn' : (2 : ℝ) < n := by exact_mod_cast hn
    rw [div_le_div_iff₀ (by norm_num) (by linarith)]
    nlinarith
  have h3 := (Real.tendsto_sqrt_atTop.comp h2).inv_tendsto_atTop
  refine h3.congr fun n => ?_
  simp [skewReplaced, Function.comp_def]

theorem skew_execute {xs : List ℝ} (hn : 8 ≤ xs.length) : (NormStat.skew.statistic scipyNorm code params).execute xs =
    .ok (dagostinoSkew xs.length (if skewness xs = 0 then skewReplaced xs.length else skewness xs)) := by
  have hn' : (8 : ℝ) ≤ xs.length := by exact_mod_cast hn
  refine normal_value ?_
  split_ifs with h
  · simp only [NormStat.value, skewTest, if_neg (show ¬xs.length < 8 by omega), Except.map,
      skew_perm (sort_perm xs), skew_spec, h]
    have hr : 0 < √(((xs.length : ℝ) + 1) * (xs.length + 3) / (6 * (xs.length - 2))) :=
      Real.sqrt_pos.2 (div_pos (by positivity) (by linarith))
    have hz : skewReplaced xs.length ≠ 0 := (one_div_pos.2 hr).ne'
    rw [← skewZ_spec hn' hz]
    have h1 : skewReplaced xs.length * √(((xs.length : ℝ) + 1) * (xs.length + 3) / (6 * (xs.length - 2))) = 1 :=
      one_div_mul_cancel hr.ne'
    simp only [skewZ, zero_mul, if_true]
    rw [h1, if_neg one_ne_zero]
  · exact C118_skew scipyNorm hn h

theorem skew_settles {Q : Measure ℝ} [IsProbabilityMeasure Q] (h3 : Integrable (fun x => |x| ^ 3) Q)
    (hQ : 0 < lawVariance Q) : ValueSettles (NormStat.skew.statistic scipyNorm code params) (fun n x => dagostinoSkew n x) Q
      (lawStandardised Q 3) := by
  filter_upwards [settles_skewness h3 hQ] with ω a
  refine ⟨fun n => if skewness (List.ofFn (firsts n ω)) = 0 then skewReplaced n else skewness (List.ofFn (firsts n ω)), ?_, ?_⟩
  · rcases eq_or_ne (lawStandardised Q 3) 0 with h | h
    · rw [h] at a ⊢
      rw [tendsto_iff_norm_sub_tendsto_zero] at a ⊢
      refine squeeze_zero (fun _ => norm_nonneg _) (fun n => ?_)
        (by simpa using (skewReplaced_tendsto.abs.add a))
      split_ifs with h0
      · rw [h0]
        simp
      · have := abs_nonneg (skewReplaced (n : ℝ))
        simp only [sub_zero, Real.norm_eq_abs]
        linarith
    · refine a.congr' ?_
      filter_upwards [a.eventually_ne h] with n hn
      rw [if_neg hn]
  · filter_upwards [eventually_ge_atTop 8] with n hn
    rw [skew_execute code params (by simpa using hn), List.length_ofFn]

theorem dagostinoSkew_grows : ∀ᶠ n : ℕ in atTop, StrictMono fun x : ℝ => dagostinoSkew n x := by
  filter_upwards [eventually_ge_atTop 8] with n hn
  exact dagostinoSkew_strictMono (by exact_mod_cast hn)

theorem square_of_third {Q : Measure ℝ} [IsProbabilityMeasure Q] (h : Integrable (fun x => |x| ^ 3) Q) :
    Integrable (fun x => |x| ^ 2) Q := by
  simpa using integrable_power h (j := 2) (by norm_num) 0

include hp hv in
/-- **C137, skewness, what holds**: laws with positive skewness are rejected in the long run; those with negative skewness
never are. -/
theorem C137_skew_partial : ∃ G, (Gen.Family.normal m v).simulator classes = .ok G ∧
    (∀ n, G.generate n = .ok (iid n (gaussianReal m v.toNNReal))) ∧
    ∀ Q : Measure ℝ, IsProbabilityMeasure Q → Integrable (fun x => |x| ^ 3) Q → (∀ c, Q ≠ Measure.dirac c) →
      (0 < lawStandardised Q 3 →
        Consistent (NormStat.skew.statistic scipyNorm code params) Q (gaussianReal m v.toNNReal)) ∧
      (lawStandardised Q 3 < 0 →
        Undetected (NormStat.skew.statistic scipyNorm code params) Q (gaussianReal m v.toNNReal)) := by
  refine with_normal hp m hv fun Q _ h3 hQ => ?_
  have hs := skew_settles code params h3 ((lawVariance_pos (square_of_third h3)).2 hQ)
  have hg := skew_settles code params (gaussian_moment_finite m v.toNNReal 3) (gaussian_variance_pos m hv)
  rw [gaussian_skewness m (toNNReal_ne hv)] at hg
  exact ⟨fun h => value_consistent (normal_meas _ code params) dagostinoSkew_grows hs hg (Or.inl ⟨(fun h => by cases h), h⟩),
    fun h => value_undetected (normal_meas _ code params) dagostinoSkew_grows hs hg (Or.inr ⟨rfl, h⟩)⟩

/-! ### Bonett-Seier -/

theorem absDeviation_law_pos {Q : Measure ℝ} [IsProbabilityMeasure Q] (h2 : Integrable (fun x => |x| ^ 2) Q)
    (hQ : 0 < lawVariance Q) (c : ℝ) : 0 < ∫ x, |x - c| ∂Q := by
  have hi : Integrable (fun x => |x - c|) Q := by
    have := (integrable_power h2 (j := 1) (by norm_num) c).abs
    simpa using this
  refine lt_of_le_of_ne (integral_nonneg fun x => abs_nonneg _) fun h0 => (lawVariance_pos h2).1 hQ c ?_
  have := (integral_eq_zero_iff_of_nonneg (fun x => abs_nonneg (x - c)) hi).1 h0.symm
  have hae : ∀ᵐ x ∂Q, x = c := this.mono fun x hx => by
    have : |x - c| = 0 := hx
    linarith [abs_eq_zero.1 this]
  have e : Q.map id = Q.map fun _ => c := Measure.map_congr hae
  rw [Measure.map_id, Measure.map_const, measure_univ, one_smul] at e
  exact e

theorem gaussian_geary (hv : 0 < v) : lawGeary (gaussianReal m v.toNNReal) = √(Real.pi / 2) := by
  have hs : 0 < √v := Real.sqrt_pos.2 hv
  have e : ∀ x, |m + √((v.toNNReal : NNReal) : ℝ) * x - m| = √v * |x| := fun x => by
    rw [Real.coe_toNNReal v hv.le, add_sub_cancel_left, abs_mul, abs_of_pos hs]
  rw [lawGeary, lawVariance_gaussian, lawMean_gaussian, gaussian_integral m _ (by fun_prop)]
  simp only [e]
  rw [integral_const_mul, stdNormal_abs, Real.coe_toNNReal v hv.le, div_mul_eq_div_div, div_self hs.ne', one_div,
    ← Real.sqrt_inv, inv_div]

theorem bonettSeier_settles {Q : Measure ℝ} [IsProbabilityMeasure Q] (h2 : Integrable (fun x => |x| ^ 2) Q)
    (hQ : 0 < lawVariance Q) : ValueSettles (NormStat.bonettSeier.statistic scipyNorm code params)
      (fun n x => √((n : ℝ) + 2) * (13.29 * x - 3) / 3.54) Q (Real.log (lawGeary Q)) := by
  have hi : Integrable (fun x => x) Q := by simpa using integrable_power h2 (j := 1) (by norm_num) 0
  filter_upwards [settles_stdDev h2, settles_absDeviation hi, eventually_varies h2 hQ] with ω a b c
  have hd := absDeviation_law_pos h2 hQ (lawMean Q)
  refine ⟨_, (a.div b hd.ne').log (div_pos (Real.sqrt_pos.2 hQ) hd).ne', ?_⟩
  filter_upwards [eventually_gt_atTop 3, c] with n hn hv
  rw [normal_value (C117_bonettSeier scipyNorm hv (by simpa using hn) rfl).1, List.length_ofFn]
  rfl

theorem bonettSeier_grows : ∀ᶠ n : ℕ in atTop, StrictMono fun x : ℝ => √((n : ℝ) + 2) * (13.29 * x - 3) / 3.54 := by
  refine .of_forall fun n x y hxy => ?_
  have : 0 < √((n : ℝ) + 2) := Real.sqrt_pos.2 (by positivity)
  refine div_lt_div_of_pos_right (mul_lt_mul_of_pos_left ?_ this) (by norm_num)
  linarith

include hp hv in
/-- **C137, Bonett-Seier**: every law with a finite variance whose ratio of standard deviation to mean absolute deviation is
not that of the normal laws, `√(π/2)`, is rejected in the long run. -/
theorem C137_bonettSeier : ∃ G, (Gen.Family.normal m v).simulator classes = .ok G ∧
    (∀ n, G.generate n = .ok (iid n (gaussianReal m v.toNNReal))) ∧
    ∀ Q : Measure ℝ, IsProbabilityMeasure Q → Integrable (fun x => |x| ^ 2) Q → (∀ c, Q ≠ Measure.dirac c) →
      lawGeary Q ≠ √(Real.pi / 2) →
      Consistent (NormStat.bonettSeier.statistic scipyNorm code params) Q (gaussianReal m v.toNNReal) := by
  refine with_normal hp m hv fun Q _ h2 hQ h => ?_
  have hV := (lawVariance_pos h2).2 hQ
  have hg := bonettSeier_settles code params (gaussian_moment_finite m v.toNNReal 2) (gaussian_variance_pos m hv)
  rw [gaussian_geary m hv] at hg
  refine value_consistent (normal_meas _ code params) bonettSeier_grows (bonettSeier_settles code params h2 hV) hg ?_
  have hG : 0 < lawGeary Q := div_pos (Real.sqrt_pos.2 hV) (absDeviation_law_pos h2 hV _)
  have hN : 0 < √(Real.pi / 2) := Real.sqrt_pos.2 (by positivity)
  rcases lt_or_gt_of_ne h with h | h
  · exact Or.inr ⟨(fun h => by cases h), Real.log_lt_log hG h⟩
  · exact Or.inl ⟨(fun h => by cases h), Real.log_lt_log hN h⟩

/-! ### Bontemps-Meddahi -/

theorem he3_sum (M s : ℝ) (l : List ℝ) : (l.map fun x => he3 ((x - M) / s) / √6).sum =
    ((l.map fun x => (x - M) ^ 3).sum / s ^ 3 - 3 * ((l.map fun x => (x - M) ^ 1).sum / s)) / √6 := by
  induction l with
  | nil => simp
  | cons a l ih =>
    simp only [List.map_cons, List.sum_cons, ih]
    generalize (l.map fun x => (x - M) ^ 3).sum = p
    generalize (l.map fun x => (x - M) ^ 1).sum = q
    simp only [he3]
    ring

theorem he4_sum (M s : ℝ) (l : List ℝ) : (l.map fun x => he4 ((x - M) / s) / (2 * √6)).sum =
    ((l.map fun x => (x - M) ^ 4).sum / s ^ 4 - 6 * ((l.map fun x => (x - M) ^ 2).sum / s ^ 2) + 3 * l.length) /
      (2 * √6) := by
  induction l with
  | nil => simp
  | cons a l ih =>
    simp only [List.map_cons, List.sum_cons, ih, List.length_cons]
    generalize (l.map fun x => (x - M) ^ 4).sum = p
    generalize (l.map fun x => (x - M) ^ 2).sum = q
    simp only [he4]
    push_cast
    ring

theorem bontemps_value {n : ℕ} (hn : 3 < n) {x : List ℝ} (hx : x.length = n) (hs : 0 < stdDev x) :
    Normal.bontempsMeddahi1 x = n * ((skewness x * √(((n : ℝ) - 1) / n) ^ 3) ^ 2 / 6 +
      (kurtosis x * (((n : ℝ) - 1) / n) ^ 2 - 6 * (((n : ℝ) - 1) / n) + 3) ^ 2 / 24) := by
  have hn' : (3 : ℝ) < n := by exact_mod_cast hn
  have hn0 : (n : ℝ) ≠ 0 := by linarith
  have hρ : 0 < √(((n : ℝ) - 1) / n) := Real.sqrt_pos.2 (div_pos (by linarith) (by linarith))
  have hρ2 : √(((n : ℝ) - 1) / n) ^ 2 = ((n : ℝ) - 1) / n := Real.sq_sqrt (div_pos (by linarith) (by linarith)).le
  have hS : ∀ k, (x.map fun y => (y - meanOf id x) ^ k).sum = n * Spec.centralMoment k x := fun k => by
    have e : Spec.centralMoment k x = (x.map fun y => (y - meanOf id x) ^ k).sum / n := by
      rw [Spec.centralMoment, meanOf, hx]
    rw [e, mul_div_cancel₀ _ hn0]
  have h1 : (x.map fun y => (y - meanOf id x) ^ 1).sum = 0 := by
    have : ∀ (c : ℝ) (l : List ℝ), (l.map fun y => (y - c) ^ 1).sum = l.sum - l.length * c := by
      intro c l
      induction l with
      | nil => simp
      | cons a l ih =>
        simp only [List.map_cons, List.sum_cons, ih, List.length_cons]
        push_cast
        ring
    rw [this, meanOf, List.map_id, hx]
    field_simp
    ring
  have hs1 : √(var1' x) = stdDev x / √(((n : ℝ) - 1) / n) := by
    rw [var1'_eq, var1, mean_spec, hS, hx, stdDev, ← Real.sqrt_div' _ (div_pos (by linarith) (by linarith)).le]
    congr 1
    have : (n : ℝ) - 1 ≠ 0 := by linarith
    field_simp
  have h2 : Spec.centralMoment 2 x = stdDev x ^ 2 := (stdDev_sq x).symm
  have h3 : Spec.centralMoment 3 x = skewness x * stdDev x ^ 3 := by rw [skewness]; field_simp
  have h4 : Spec.centralMoment 4 x = kurtosis x * stdDev x ^ 4 := by rw [kurtosis]; field_simp
  unfold Normal.bontempsMeddahi1
  simp only [List.map_map, Function.comp_def]
  rw [he3_sum, he4_sum, mean_spec, h1, hS, hS, hS, hs1, hx, h2, h3, h4]
  have h6 : √6 ^ 2 = (6 : ℝ) := Real.sq_sqrt (by norm_num)
  have h60 : (0 : ℝ) < √6 := Real.sqrt_pos.2 (by norm_num)
  generalize √(((n : ℝ) - 1) / n) = ρ at *
  rw [← hρ2]
  generalize √(6 : ℝ) = r at *
  generalize stdDev x = σ at *
  generalize skewness x = S
  generalize kurtosis x = T
  have e1 : (n * (S * σ ^ 3) / (σ / ρ) ^ 3 - 3 * (0 / (σ / ρ))) = n * (S * ρ ^ 3) := by
    field_simp
    ring
  have e2 : (n * (T * σ ^ 4) / (σ / ρ) ^ 4 - 6 * (n * σ ^ 2 / (σ / ρ) ^ 2) + 3 * n) =
      n * (T * (ρ ^ 2) ^ 2 - 6 * ρ ^ 2 + 3) := by
    field_simp
  rw [e1, e2, div_pow, div_pow _ (2 * r), mul_pow 2 r, h6]
  field_simp
  ring

theorem ratio_tendsto : Tendsto (fun n : ℕ => ((n : ℝ) - 1) / n) atTop (𝓝 1) := by
  have := (tendsto_one_div_atTop_nhds_zero_nat (𝕜 := ℝ)).const_sub 1
  rw [sub_zero] at this
  refine this.congr' ?_
  filter_upwards [eventually_gt_atTop 0] with n hn
  have : (n : ℝ) ≠ 0 := by exact_mod_cast hn.ne'
  field_simp

theorem bontemps_settles {Q : Measure ℝ} [IsProbabilityMeasure Q] (h4 : Integrable (fun x => |x| ^ 4) Q)
    (hQ : 0 < lawVariance Q) : ValueSettles (NormStat.bontempsMeddahi1.statistic scipyNorm code params) (fun n x => n * x) Q
      (lawStandardised Q 3 ^ 2 / 6 + (lawStandardised Q 4 - 3) ^ 2 / 24) := by
  filter_upwards [settles_skewness (third_of_fourth h4) hQ, settles_kurtosis h4 hQ, settles_stdDev (second_of_fourth h4)]
    with ω a b c
  have h := (((a.mul ((ratio_tendsto.sqrt).pow 3)).pow 2).div_const 6).add (((((b.mul (ratio_tendsto.pow 2)).sub
    (ratio_tendsto.const_mul 6)).add_const 3).pow 2).div_const 24)
  refine ⟨_, (by convert h using 2; simp; ring), ?_⟩
  filter_upwards [eventually_gt_atTop 3, c.eventually (lt_mem_nhds (Real.sqrt_pos.2 hQ))] with n hn hs
  refine normal_value ?_
  simp only [NormStat.value, guarded, List.length_ofFn, if_pos hn, Except.map]
  rw [bontemps_value hn (List.length_ofFn) hs]

include hp hv in
/-- **C137, Bontemps-Meddahi with two polynomials**: the same laws as Jarque-Bera. -/
theorem C137_bontempsMeddahi1 : ∃ G, (Gen.Family.normal m v).simulator classes = .ok G ∧
    (∀ n, G.generate n = .ok (iid n (gaussianReal m v.toNNReal))) ∧
    ∀ Q : Measure ℝ, IsProbabilityMeasure Q → Integrable (fun x => |x| ^ 4) Q → (∀ c, Q ≠ Measure.dirac c) →
      (lawStandardised Q 3 ≠ 0 ∨ lawStandardised Q 4 ≠ 3) →
      Consistent (NormStat.bontempsMeddahi1.statistic scipyNorm code params) Q (gaussianReal m v.toNNReal) := by
  refine with_normal hp m hv fun Q _ h4 hQ h => ?_
  refine value_consistent (normal_meas _ code params) mul_strictMono
    (bontemps_settles code params h4 ((lawVariance_pos (second_of_fourth h4)).2 hQ))
    (bontemps_settles code params (gaussian_moment_finite m _ 4) (gaussian_variance_pos m hv))
    (Or.inl ⟨(fun h => by cases h), ?_⟩)
  rw [gaussian_skewness m (toNNReal_ne hv), gaussian_kurtosis m (toNNReal_ne hv)]
  exact moments_far h

end

end Pysatl.Props
