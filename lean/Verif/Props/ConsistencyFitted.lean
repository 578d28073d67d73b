import Verif.Props.ConsistencyCounts
import Verif.Lemmas.EmpiricalCdf
import Verif.Lemmas.NullLaw
import Verif.Props.ExponentMeaning
import Verif.Lemmas.Edf
import Mathlib.Analysis.SpecialFunctions.Trigonometric.Inverse

/-! # C147: criteria that compare the sample with the fitted exponential law -/

namespace Pysatl.Props

open Pysatl.Decision Pysatl.Resolver Pysatl.Spec Pysatl.Edf Pysatl.Graph Pysatl.Gen Pysatl.Exponent
open MeasureTheory ProbabilityTheory Filter Topology

/-- The middle of the `i`-th step of the empirical distribution function is near the distribution function. -/
theorem position_near {F : ℝ → ℝ} (hc : Continuous F) (hm : Monotone F) (h01 : ∀ x, 0 ≤ F x ∧ F x ≤ 1) {xs : List ℝ}
    {D : ℝ} (hD : ∀ x, |fracLe xs x - F x| ≤ D) {i : ℕ} (hi : i < (sort xs).length) :
    |((i : ℝ) + 1 - 1 / 2) / xs.length - F (sort xs)[i]| ≤ D := by
  have hl : ((sort xs).map F).length = xs.length := by rw [List.length_map, (sort_perm xs).length_eq]
  have hl' : (sort xs).length = xs.length := (sort_perm xs).length_eq
  have hne : (sort xs).map F ≠ [] := by rw [← List.length_pos_iff, hl]; omega
  obtain ⟨p, hp⟩ := dPlus_exists hne
  obtain ⟨m, hmm⟩ := dMinus_exists hne
  have hpD : p ≤ D := (isLUB_plus hm h01 hp).2 (by
    rintro _ ⟨x, rfl⟩; exact (le_abs_self _).trans (hD x))
  have hmD : m ≤ D := (isLUB_minus hc hm h01 hmm).2 (by
    rintro _ ⟨x, rfl⟩
    show F x - fracLe xs x ≤ D
    have := (abs_le.1 (hD x)).1
    linarith)
  have a1 := (dPlus_eq_ok.1 hp).2 i (by rw [hl]; omega)
  have a2 := (dMinus_eq_ok.1 hmm).2 i (by rw [hl]; omega)
  have hlr : (((sort xs).map F).length : ℝ) = xs.length := by rw [hl]
  rw [List.getElem_map, hlr] at a1 a2
  have hn : (0 : ℝ) < xs.length := by exact_mod_cast (show 0 < xs.length by omega)
  have b1 : ((i : ℝ) + 1 - 1 / 2) / xs.length ≤ ((i : ℝ) + 1) / xs.length :=
    div_le_div_of_nonneg_right (by linarith) hn.le
  have b2 : (i : ℝ) / xs.length ≤ ((i : ℝ) + 1 - 1 / 2) / xs.length :=
    div_le_div_of_nonneg_right (by linarith) hn.le
  rw [abs_le]
  constructor <;> linarith

/-- How much the fitted exponential distribution function moves with the fitted mean. -/
theorem exp_fit_near {a b x : ℝ} (ha : 0 < a) (hb : 0 < b) (hx : 0 ≤ x) :
    |Real.exp (-x / a) - Real.exp (-x / b)| ≤ |a / b - 1| + |b / a - 1| := by
  have key : ∀ a b : ℝ, 0 < a → 0 < b → b ≤ a → |Real.exp (-x / a) - Real.exp (-x / b)| ≤ |a / b - 1| := by
    intro a b ha hb hab
    have h1 : x / a ≤ x / b := div_le_div_of_nonneg_left hx hb hab
    have e1 : Real.exp (-x / b) = Real.exp (-(x / a)) * Real.exp (-(x / b - x / a)) := by
      rw [← Real.exp_add]; congr 1; ring
    have e2 : -x / a = -(x / a) := by ring
    have h3 := Real.add_one_le_exp (-(x / b - x / a))
    have h4 := Real.add_one_le_exp (x / a)
    have h5 := Real.exp_pos (-(x / a))
    have h6 : Real.exp (x / a) * Real.exp (-(x / a)) = 1 := by rw [← Real.exp_add]; simp
    have h7 : x / a * Real.exp (-(x / a)) ≤ 1 := by nlinarith
    have h8 : x / b - x / a = x / a * (a / b - 1) := by field_simp
    have h9 : 0 ≤ a / b - 1 := by rw [sub_nonneg, le_div_iff₀ hb]; linarith
    have h10 : Real.exp (-(x / b - x / a)) ≤ 1 := Real.exp_le_one_iff.2 (by linarith)
    rw [e2, e1, abs_of_nonneg h9, abs_of_nonneg (by nlinarith)]
    calc Real.exp (-(x / a)) - Real.exp (-(x / a)) * Real.exp (-(x / b - x / a))
        ≤ Real.exp (-(x / a)) * (x / b - x / a) := by nlinarith
      _ = x / a * Real.exp (-(x / a)) * (a / b - 1) := by rw [h8]; ring
      _ ≤ 1 * (a / b - 1) := mul_le_mul_of_nonneg_right h7 h9
      _ = _ := one_mul _
  rcases le_total b a with h | h
  · exact (key a b ha hb h).trans (le_add_of_nonneg_right (abs_nonneg _))
  · rw [abs_sub_comm]
    exact (key b a hb ha h).trans (le_add_of_nonneg_left (abs_nonneg _))

/-- The average in the Frozini statistic. -/
theorem frozini_average {xs : List ℝ} (hne : xs ≠ []) : Exponent.frozini xs = √(xs.length : ℝ) *
    ((∑ i : Fin (sort xs).length, |1 - Real.exp (-(sort xs)[i] / mean xs) - (((i : ℕ) : ℝ) + 1 - 1 / 2) / xs.length|) /
      xs.length) := by
  have hn : (0 : ℝ) < xs.length := by exact_mod_cast List.length_pos_iff.2 hne
  simp only [Exponent.frozini]
  rw [sum_mapIdx, mean_perm (sort_perm xs)]
  have h : 1 / √(xs.length : ℝ) = √(xs.length : ℝ) / xs.length := by
    rw [div_eq_div_iff (Real.sqrt_pos.2 hn).ne' hn.ne', one_mul, Real.mul_self_sqrt hn.le]
  rw [h]
  ring

/-- The distance between the law and the exponential law with the same mean, averaged over the observations. -/
noncomputable def fitGap (Q : Measure ℝ) (x : ℝ) : ℝ := |1 - Real.exp (-x / lawMean Q) - cdf Q x|

section
variable {Q : Measure ℝ} [IsProbabilityMeasure Q] (hc : Continuous (cdf Q)) (hpos : ∀ᵐ x ∂Q, 0 < x)
  (hi : Integrable (fun x => x) Q)

include hc in
/-- Glivenko and Cantelli. -/
theorem glivenko : ∀ᵐ ω ∂seqLaw Q, ∀ ε : ℝ, 0 < ε → ∀ᶠ n in atTop, ∀ x,
    |fracLe (List.ofFn (firsts n ω)) x - cdf Q x| ≤ ε := by
  filter_upwards [empirical_cdf (μ := Q)] with ω h ε hε
  exact polya hc (monotone_cdf Q) (tendsto_cdf_atBot Q) (tendsto_cdf_atTop Q)
    (G := fun n x => fracLe (List.ofFn (firsts n ω)) x) (fun n x y hxy => fracLe_mono _ hxy)
    (fun n x => fracLe_unit _ x) (fun x => empirical_cdf_at h tendsto_const_nhds hc.continuousAt) hε

include hi in
theorem settles_fitted_mean : ∀ᵐ ω ∂seqLaw Q, Tendsto (fun n => mean (List.ofFn (firsts n ω))) atTop (𝓝 (lawMean Q)) := by
  filter_upwards [settles_mean hi] with ω a
  refine a.congr fun n => ?_
  rw [lawMean, integral_empirical, mean, List.map_id']

include hc hpos hi in
/-- Along almost every sequence the plotting positions, the distribution function and the fitted distribution functions come
together, uniformly over the sample. -/
theorem fitted_near : ∀ᵐ ω ∂seqLaw Q, ∀ ε : ℝ, 0 < ε → ∀ᶠ n in atTop,
    ∀ i (h : i < (sort (List.ofFn (firsts n ω))).length), 0 < (sort (List.ofFn (firsts n ω)))[i] ∧
      0 < mean (List.ofFn (firsts n ω)) ∧
      |(1 - Real.exp (-(sort (List.ofFn (firsts n ω)))[i] / mean (List.ofFn (firsts n ω))) -
          ((i : ℝ) + 1 - 1 / 2) / (List.ofFn (firsts n ω)).length) -
        (1 - Real.exp (-(sort (List.ofFn (firsts n ω)))[i] / lawMean Q) - cdf Q (sort (List.ofFn (firsts n ω)))[i])| ≤ ε := by
  filter_upwards [glivenko hc, settles_fitted_mean hi, seq_ae hpos] with ω h1 h2 h3 ε hε
  have hm := lawMean_pos hi hpos
  have t1 : Tendsto (fun n => |mean (List.ofFn (firsts n ω)) / lawMean Q - 1| +
      |lawMean Q / mean (List.ofFn (firsts n ω)) - 1|) atTop (𝓝 0) := by
    have a := ((h2.div_const (lawMean Q)).sub_const 1).abs
    have b := (((tendsto_const_nhds (x := lawMean Q)).div h2 hm.ne').sub_const 1).abs
    have := a.add b
    simpa [div_self hm.ne'] using this
  filter_upwards [h1 (ε / 2) (_root_.half_pos hε), t1.eventually (gt_mem_nhds (_root_.half_pos hε)),
    h2.eventually (lt_mem_nhds hm)] with n k1 k2 k3 i h
  have hmem : (sort (List.ofFn (firsts n ω)))[i] ∈ List.ofFn (firsts n ω) :=
    (sort_perm _).mem_iff.1 (List.getElem_mem h)
  have hx : 0 < (sort (List.ofFn (firsts n ω)))[i] := by
    obtain ⟨j, hj⟩ := List.mem_ofFn.1 hmem
    rw [← hj]; exact h3 j
  refine ⟨hx, k3, ?_⟩
  have p1 := position_near hc (monotone_cdf Q) (fun x => ⟨cdf_nonneg Q x, cdf_le_one Q x⟩) k1 h
  have p2 := (exp_fit_near k3 hm hx.le).trans k2.le
  generalize (sort (List.ofFn (firsts n ω)))[i] = x at *
  rw [abs_le] at p1 p2 ⊢
  constructor <;> linarith [p1.1, p1.2, p2.1, p2.2]

include hpos hi in
theorem fitGap_integrable : Integrable (fitGap Q) Q := by
  have hm := lawMean_pos hi hpos
  refine Integrable.of_bound (C := 2) ?_ ?_
  · unfold fitGap
    exact ((measurable_const.sub (by fun_prop)).sub (monotone_cdf Q).measurable).abs.aestronglyMeasurable
  · filter_upwards [hpos] with x hx
    rw [fitGap, Real.norm_eq_abs, abs_abs, abs_le]
    have h1 := Real.exp_pos (-x / lawMean Q)
    have h2 : Real.exp (-x / lawMean Q) ≤ 1 := Real.exp_le_one_iff.2 (by
      rw [neg_div]; exact neg_nonpos.2 (div_pos hx hm).le)
    have h3 := cdf_nonneg Q x
    have h4 := cdf_le_one Q x
    constructor <;> linarith

include hc hpos hi in
/-- The Frozini statistic, divided by the root of the sample size, settles. -/
theorem frozini_settles (code : String) (params : Option (List (String × ℝ))) :
    ValueSettles (ExpStat.frozini.statistic code params) (fun n x => √(n : ℝ) * x) Q (∫ x, fitGap Q x ∂Q) := by
  have hmeas : Measurable (fitGap Q) := by
    unfold fitGap
    exact ((measurable_const.sub (by fun_prop)).sub (monotone_cdf Q).measurable).abs
  filter_upwards [fitted_near hc hpos hi, settles_integral hmeas (fitGap_integrable hpos hi)] with ω h1 h2
  refine ⟨fun n => (∑ i : Fin (sort (List.ofFn (firsts n ω))).length,
    |1 - Real.exp (-(sort (List.ofFn (firsts n ω)))[i] / mean (List.ofFn (firsts n ω))) -
      (((i : ℕ) : ℝ) + 1 - 1 / 2) / (List.ofFn (firsts n ω)).length|) / (List.ofFn (firsts n ω)).length, ?_, ?_⟩
  · have e : ∀ n, ∫ x, fitGap Q x ∂empiricalLaw (List.ofFn (firsts n ω)) =
        (∑ i : Fin (sort (List.ofFn (firsts n ω))).length, fitGap Q (sort (List.ofFn (firsts n ω)))[i]) /
          (List.ofFn (firsts n ω)).length := by
      intro n
      rw [integral_empirical, ← ((sort_perm (List.ofFn (firsts n ω))).map (fitGap Q)).sum_eq]
      congr 1
      have := sum_mapIdx (sort (List.ofFn (firsts n ω))) (fun _ x => fitGap Q x)
      rw [← this]
      congr 1
      refine List.ext_getElem (by simp) fun i _ _ => by simp
    simp only [e] at h2
    rw [Metric.tendsto_nhds] at h2 ⊢
    intro ε hε
    filter_upwards [h2 (ε / 2) (_root_.half_pos hε), h1 (ε / 2) (_root_.half_pos hε), eventually_gt_atTop 0] with n k1 k2 hn
    rw [Real.dist_eq] at k1 ⊢
    have hN : (0 : ℝ) < (List.ofFn (firsts n ω)).length := by simpa using hn
    have hlen : ((sort (List.ofFn (firsts n ω))).length : ℝ) = (List.ofFn (firsts n ω)).length := by
      rw [(sort_perm _).length_eq]
    have key : |(∑ i : Fin (sort (List.ofFn (firsts n ω))).length,
        |1 - Real.exp (-(sort (List.ofFn (firsts n ω)))[i] / mean (List.ofFn (firsts n ω))) -
          (((i : ℕ) : ℝ) + 1 - 1 / 2) / (List.ofFn (firsts n ω)).length|) / (List.ofFn (firsts n ω)).length -
        (∑ i : Fin (sort (List.ofFn (firsts n ω))).length, fitGap Q (sort (List.ofFn (firsts n ω)))[i]) /
          (List.ofFn (firsts n ω)).length| ≤ ε / 2 := by
      rw [← sub_div, ← Finset.sum_sub_distrib, abs_div, abs_of_pos hN, div_le_iff₀ hN]
      refine (Finset.abs_sum_le_sum_abs _ _).trans ((Finset.sum_le_sum fun i _ => ?_).trans_eq
        (b := ∑ _i : Fin (sort (List.ofFn (firsts n ω))).length, ε / 2) ?_)
      · exact (abs_abs_sub_abs_le_abs_sub _ _).trans (k2 i i.2).2.2
      · rw [Finset.sum_const, Finset.card_univ, Fintype.card_fin, nsmul_eq_mul, hlen, mul_comm]
    exact lt_of_le_of_lt (abs_sub_le _ _ _) (by linarith)
  · filter_upwards [eventually_gt_atTop 0] with n hn
    have hne : List.ofFn (firsts n ω) ≠ [] := by simpa using hn.ne'
    have := frozini_average hne
    simp only [ExpStat.statistic, ExpStat.value]
    rw [this, List.length_ofFn]

include hc hpos in
/-- Only an exponential law has an exponential distribution function at almost all of its observations. -/
theorem exponential_of_cdf {a : ℝ} (hm : 0 < a) (hz : ∀ᵐ x ∂Q, cdf Q x = 1 - Real.exp (-x / a)) :
    Q = expMeasure (1 / a) := by
  have := isProbabilityMeasure_expMeasure (r := 1 / a) (by positivity)
  have hu : Q.map (fun x => 1 - Real.exp (-x / a)) = unitLaw := by
    rw [← map_transform (P := Q) measurable_id hc fun x => ?_]
    · exact Measure.map_congr (hz.mono fun x hx => hx.symm)
    · rw [cdf_eq_real]; rfl
  refine Measure.eq_of_cdf Q _ ?_
  ext x
  rw [cdf_expMeasure_eq (by positivity)]
  split_ifs with hx
  · have e : Set.Iic x = (fun y => 1 - Real.exp (-y / a)) ⁻¹' Set.Iic (1 - Real.exp (-x / a)) := by
      ext y
      simp only [Set.mem_Iic, Set.mem_preimage]
      rw [sub_le_sub_iff_left, Real.exp_le_exp, div_le_div_iff_of_pos_right hm]
      exact neg_le_neg_iff.symm
    rw [cdf_eq_real, e, ← map_measureReal_apply (by fun_prop) measurableSet_Iic, hu, ← cdf_eq_real, cdf_unitLaw]
    have h1 := Real.exp_pos (-x / a)
    have h2 : Real.exp (-x / a) ≤ 1 := Real.exp_le_one_iff.2 (by
      rw [neg_div]; exact neg_nonpos.2 (div_nonneg hx hm.le))
    rw [min_eq_left (by linarith), max_eq_right (by linarith)]
    congr 2
    ring
  · rw [cdf_eq_real, measureReal_def, (measure_eq_zero_iff_ae_notMem).2, ENNReal.toReal_zero]
    filter_upwards [hpos] with y hy hyx
    exact hx (hy.le.trans hyx)

include hc hpos hi in
/-- Only an exponential law has no gap to the exponential law with its mean. -/
theorem fitGap_exponential (h : ∫ x, fitGap Q x ∂Q = 0) : Q = expMeasure (1 / lawMean Q) := by
  refine exponential_of_cdf hc hpos (lawMean_pos hi hpos) ?_
  have := (integral_eq_zero_iff_of_nonneg (fun x => abs_nonneg _) (fitGap_integrable hpos hi)).1 h
  filter_upwards [this] with x hx
  have := abs_eq_zero.1 hx
  linarith

end

theorem fitGap_of_exponential {r : ℝ} (hr : 0 < r) : ∫ x, fitGap (expMeasure r) x ∂expMeasure r = 0 := by
  have := isProbabilityMeasure_expMeasure hr
  refine integral_eq_zero_of_ae ?_
  filter_upwards [Expon.ae_pos hr] with x hx
  rw [fitGap, lawMean_exp hr, cdf_expMeasure_eq hr, if_pos hx.le]
  have : -x / (1 / r) = -(r * x) := by field_simp
  rw [this]
  simp

theorem exp_continuous {r : ℝ} (hr : 0 < r) : Continuous (cdf (expMeasure r)) := by
  have e : (cdf (expMeasure r) : ℝ → ℝ) = fun x => 1 - Real.exp (-(r * max x 0)) := by
    funext x
    rw [cdf_expMeasure_eq hr]
    split_ifs with h
    · rw [max_eq_left h]
    · rw [max_eq_right (not_le.1 h).le]; simp
  rw [e]
  fun_prop

/-! ### Kimber-Michael -/

theorem arcsine_wide {u w : ℝ} (hu : 0 ≤ u ∧ u ≤ 1) (hw : 0 ≤ w ∧ w ≤ 1) :
    |u - w| ≤ |Real.arcsin √u - Real.arcsin √w| := by
  have su : √u ≤ 1 := Real.sqrt_le_one.2 hu.2
  have sw : √w ≤ 1 := Real.sqrt_le_one.2 hw.2
  have a := Real.sin_arcsin (by linarith [Real.sqrt_nonneg u]) su
  have b := Real.sin_arcsin (by linarith [Real.sqrt_nonneg w]) sw
  have ua := Real.sq_sqrt hu.1
  have wa := Real.sq_sqrt hw.1
  rw [← a] at ua
  rw [← b] at wa
  generalize Real.arcsin √u = s at *
  generalize Real.arcsin √w = t at *
  have e : u - w = Real.sin (s - t) * Real.sin (s + t) := by
    rw [← ua, ← wa, Real.sin_sub, Real.sin_add]
    have h1 := Real.sin_sq_add_cos_sq s
    have h2 := Real.sin_sq_add_cos_sq t
    nlinarith
  rw [e, abs_mul]
  calc |Real.sin (s - t)| * |Real.sin (s + t)| ≤ |s - t| * 1 :=
        mul_le_mul (Real.abs_sin_le_abs) (Real.abs_sin_le_one _) (abs_nonneg _) (abs_nonneg _)
    _ = _ := mul_one _

theorem arcsine_uniform {η : ℝ} (hη : 0 < η) : ∃ δ > 0, ∀ u w : ℝ, 0 ≤ u ∧ u ≤ 1 → 0 ≤ w ∧ w ≤ 1 → |u - w| ≤ δ →
    |2 / Real.pi * Real.arcsin √u - 2 / Real.pi * Real.arcsin √w| < η := by
  have hcont : ContinuousOn (fun u => 2 / Real.pi * Real.arcsin √u) (Set.Icc (0 : ℝ) 1) :=
    (continuous_const.mul (Real.continuous_arcsin.comp Real.continuous_sqrt)).continuousOn
  have hu := isCompact_Icc.uniformContinuousOn_of_continuous hcont
  obtain ⟨δ, hδ, h⟩ := Metric.uniformContinuousOn_iff.1 hu η hη
  refine ⟨δ / 2, _root_.half_pos hδ, fun u w hu hw huw => ?_⟩
  have := h u ⟨hu.1, hu.2⟩ w ⟨hw.1, hw.2⟩ (by rw [Real.dist_eq]; linarith)
  rwa [Real.dist_eq] at this

theorem kimber_value (code : String) (params : Option (List (String × ℝ))) {xs : List ℝ} (hne : xs ≠ []) :
    ∃ d, (ExpStat.kimberMichael.statistic code params).execute xs = .ok d ∧
      (∀ i (h : i < (sort xs).length), |2 / Real.pi * Real.arcsin √(((i : ℝ) + 1 - 1 / 2) / xs.length) -
        2 / Real.pi * Real.arcsin √(1 - Real.exp (-(sort xs)[i] / mean xs))| ≤ d) ∧
      ∃ i, ∃ h : i < (sort xs).length, d = |2 / Real.pi * Real.arcsin √(((i : ℝ) + 1 - 1 / 2) / xs.length) -
        2 / Real.pi * Real.arcsin √(1 - Real.exp (-(sort xs)[i] / mean xs))| := by
  obtain ⟨d, hd, -⟩ := C81_kimberMichael hne
  refine ⟨d, hd, ?_⟩
  have hd' : npMax ((sort xs).mapIdx fun i v => |2 / Real.pi * Real.arcsin √(((i : ℝ) + 1 - 1 / 2) / xs.length) -
      2 / Real.pi * Real.arcsin √(1 - Real.exp (-(v / mean (sort xs))))|) = .ok d := hd
  rw [npMax_eq_ok, mean_perm (sort_perm xs)] at hd'
  simp only [neg_div]
  refine ⟨fun i h => hd'.2 _ (List.mem_mapIdx.2 ⟨i, h, rfl⟩), ?_⟩
  obtain ⟨i, h, e⟩ := List.mem_mapIdx.1 hd'.1
  exact ⟨i, h, e.symm⟩

theorem position_unit {n i : ℕ} (h : i < n) : 0 ≤ ((i : ℝ) + 1 - 1 / 2) / n ∧ ((i : ℝ) + 1 - 1 / 2) / n ≤ 1 := by
  have h1 : (0 : ℝ) < n := by exact_mod_cast (show 0 < n by omega)
  have h2 : ((i : ℝ) + 1) ≤ n := by exact_mod_cast h
  refine ⟨div_nonneg (by linarith [(Nat.cast_nonneg i : (0 : ℝ) ≤ i)]) h1.le, (div_le_one h1).2 (by linarith)⟩

theorem fitted_unit {x a : ℝ} (hx : 0 < x) (ha : 0 < a) : 0 ≤ 1 - Real.exp (-x / a) ∧ 1 - Real.exp (-x / a) ≤ 1 := by
  have h1 := Real.exp_pos (-x / a)
  have h2 : Real.exp (-x / a) ≤ 1 := Real.exp_le_one_iff.2 (by
    rw [neg_div]; exact neg_nonpos.2 (div_pos hx ha).le)
  constructor <;> linarith

section
variable (code : String) (params : Option (List (String × ℝ)))

theorem kimber_small {r : ℝ} (hr : 0 < r) [IsProbabilityMeasure (expMeasure r)] {η : ℝ} (hη : 0 < η) :
    ∀ᵐ ω ∂seqLaw (expMeasure r), ∀ᶠ n in atTop,
      ∃ d, (ExpStat.kimberMichael.statistic code params).execute (List.ofFn (firsts n ω)) = .ok d ∧ d < η := by
  obtain ⟨δ, hδ, hu⟩ := arcsine_uniform hη
  filter_upwards [fitted_near (exp_continuous hr) (Expon.ae_pos hr) (exp_integrable_id hr)] with ω h
  filter_upwards [h δ hδ, eventually_gt_atTop 0] with n k hn
  have hne : List.ofFn (firsts n ω) ≠ [] := by simpa using hn.ne'
  obtain ⟨d, hd, -, i, hi, e⟩ := kimber_value code params hne
  refine ⟨d, hd, ?_⟩
  obtain ⟨hx, hm, k⟩ := k i hi
  rw [e]
  refine hu _ _ (position_unit (by rwa [(sort_perm _).length_eq] at hi)) (fitted_unit hx hm) ?_
  rw [lawMean_exp hr, cdf_expMeasure_eq hr, if_pos hx.le] at k
  generalize (sort (List.ofFn (firsts n ω)))[i] = x at *
  have e1 : -x / (1 / r) = -(r * x) := by field_simp
  rw [e1, sub_self, sub_zero] at k
  rwa [abs_sub_comm]

theorem kimber_large {Q : Measure ℝ} [IsProbabilityMeasure Q] (hc : Continuous (cdf Q)) (hpos : ∀ᵐ x ∂Q, 0 < x)
    (hi : Integrable (fun x => x) Q) {c : ℝ} (h : c < 2 / Real.pi * ∫ x, fitGap Q x ∂Q) :
    ∀ᵐ ω ∂seqLaw Q, ∀ᶠ n in atTop,
      ∃ d, (ExpStat.kimberMichael.statistic code params).execute (List.ofFn (firsts n ω)) = .ok d ∧ c < d := by
  filter_upwards [frozini_settles hc hpos hi code params, fitted_near hc hpos hi] with ω ⟨v, hv, hf⟩ hnear
  filter_upwards [hf, (hv.const_mul (2 / Real.pi)).eventually (lt_mem_nhds h), hnear 1 one_pos, eventually_gt_atTop 0]
    with n f1 f2 f3 hn
  have hne : List.ofFn (firsts n ω) ≠ [] := by simpa using hn.ne'
  obtain ⟨d, hd, hall, -⟩ := kimber_value code params hne
  refine ⟨d, hd, lt_of_lt_of_le f2 ?_⟩
  have e : Exponent.frozini (List.ofFn (firsts n ω)) = √(n : ℝ) * v n := Except.ok.inj f1
  rw [frozini_average hne, List.length_ofFn] at e
  have hN : (0 : ℝ) < n := by exact_mod_cast hn
  have e' := mul_left_cancel₀ (Real.sqrt_pos.2 hN).ne' e
  rw [← e', mul_div_assoc', div_le_iff₀ hN, Finset.mul_sum]
  refine (Finset.sum_le_sum fun i _ => ?_).trans_eq (b := ∑ _i : Fin (sort (List.ofFn (firsts n ω))).length, d) ?_
  · refine le_trans ?_ (hall i i.2)
    obtain ⟨hx, hm, -⟩ := f3 i i.2
    have hpi : 0 < 2 / Real.pi := div_pos two_pos Real.pi_pos
    rw [← mul_sub, abs_mul, abs_of_pos hpi, abs_sub_comm, List.length_ofFn]
    refine mul_le_mul_of_nonneg_left (arcsine_wide (position_unit ?_) (fitted_unit hx hm)) hpi.le
    exact i.2.trans_eq ((sort_perm _).length_eq.trans List.length_ofFn)
  · rw [Finset.sum_const, Finset.card_univ, Fintype.card_fin, nsmul_eq_mul, (sort_perm _).length_eq, List.length_ofFn, mul_comm]

variable (classes : List GeneratorClass) (hp : classes.Perm generatorClasses)

include hp in
/-- **C147, Frozini**: every continuous law of positive observations with a mean that is not exponential is rejected in the
long run. -/
theorem C147_frozini {r : ℝ} (hr : 0 < r) : ∃ G, (Gen.Family.exponential r).simulator classes = .ok G ∧
    (∀ n, G.generate n = .ok (iid n (expMeasure r))) ∧
    ∀ Q : Measure ℝ, IsProbabilityMeasure Q → Continuous (cdf Q) → (∀ᵐ x ∂Q, 0 < x) → Integrable (fun x => x) Q →
      (∀ r' : ℝ, 0 < r' → Q ≠ expMeasure r') →
      Consistent (ExpStat.frozini.statistic code params) Q (expMeasure r) := by
  have hpr := isProbabilityMeasure_expMeasure hr
  obtain ⟨G, hG, hgen⟩ := simulates_all (f := .exponential r) fun n => C111_exponential classes hp r hr n
  refine ⟨G, hG, hgen, fun Q _ hc hpos hi hne => ?_⟩
  have hg := frozini_settles (exp_continuous hr) (Expon.ae_pos hr) (exp_integrable_id hr) code params
  rw [fitGap_of_exponential hr] at hg
  have h0 : 0 ≤ ∫ x, fitGap Q x ∂Q := integral_nonneg fun x => abs_nonneg _
  have hlt : 0 < ∫ x, fitGap Q x ∂Q := lt_of_le_of_ne h0 fun e =>
    hne _ (one_div_pos.2 (lawMean_pos hi hpos)) (fitGap_exponential hc hpos hi e.symm)
  refine value_consistent (exponential_meas _ code params) ?_ (frozini_settles hc hpos hi code params) hg
    (Or.inl ⟨(fun h => by cases h), hlt⟩)
  filter_upwards [eventually_gt_atTop 0] with n hn x y hxy
  exact mul_lt_mul_of_pos_left hxy (Real.sqrt_pos.2 (by exact_mod_cast hn))

include hp in
/-- **C147 is false of Kimber-Michael**: the class is judged in the left tail, so that every law which it could tell from the
exponential ones is accepted in the long run. -/
theorem C147_refuted_kimberMichael {r : ℝ} (hr : 0 < r) : ∃ G, (Gen.Family.exponential r).simulator classes = .ok G ∧
    (∀ n, G.generate n = .ok (iid n (expMeasure r))) ∧
    ∀ Q : Measure ℝ, IsProbabilityMeasure Q → Continuous (cdf Q) → (∀ᵐ x ∂Q, 0 < x) → Integrable (fun x => x) Q →
      (∀ r' : ℝ, 0 < r' → Q ≠ expMeasure r') →
      Undetected (ExpStat.kimberMichael.statistic code params) Q (expMeasure r) := by
  have hpr := isProbabilityMeasure_expMeasure hr
  obtain ⟨G, hG, hgen⟩ := simulates_all (f := .exponential r) fun n => C111_exponential classes hp r hr n
  refine ⟨G, hG, hgen, fun Q _ hc hpos hi hne => ?_⟩
  have h0 : 0 ≤ ∫ x, fitGap Q x ∂Q := integral_nonneg fun x => abs_nonneg _
  have hlt : 0 < ∫ x, fitGap Q x ∂Q := lt_of_le_of_ne h0 fun e =>
    hne _ (one_div_pos.2 (lawMean_pos hi hpos)) (fitGap_exponential hc hpos hi e.symm)
  have hpi : 0 < 2 / Real.pi := div_pos two_pos Real.pi_pos
  obtain ⟨c, h1, h2⟩ := exists_between (mul_pos hpi hlt)
  exact limit_undetected (exponential_meas _ code params) (t := fun _ => c)
    (Or.inl ⟨rfl, kimber_large code params hc hpos hi h2, kimber_small code params hr h1⟩)

end

/-- Uniform observations meet the hypotheses: Frozini rejects them, Kimber-Michael accepts them. -/
theorem uniform_fitted {r : ℝ} (hr : 0 < r) : Consistent (ExpStat.frozini.statistic "" none) (uniformLaw 0 1) (expMeasure r) ∧
    Undetected (ExpStat.kimberMichael.statistic "" none) (uniformLaw 0 1) (expMeasure r) := by
  have hpr := (cdf_uniformLaw (zero_lt_one (α := ℝ))).1
  have hc : Continuous (cdf (uniformLaw 0 1)) := by
    have e : (cdf (uniformLaw 0 1) : ℝ → ℝ) = fun x => max 0 (min 1 x) := by
      funext x
      rw [(cdf_uniformLaw one_pos).2, Uniform.uniformCdf]
      split_ifs with h1 h2
      · rw [max_eq_left ((min_le_right _ _).trans h1)]
      · rw [min_eq_left h2, max_eq_right zero_le_one]
      · rw [min_eq_right (not_le.1 h2).le, max_eq_right (not_le.1 h1).le]; simp
    rw [e]
    fun_prop
  have hne : ∀ r' : ℝ, 0 < r' → uniformLaw 0 1 ≠ expMeasure r' := fun r' hr' e => by
    have h1 := cvSquared_uniform (b := 1) one_pos
    rw [e, cvSquared_exp hr'] at h1
    norm_num at h1
  obtain ⟨_, _, _, h1⟩ := C147_frozini "" none _ (List.Perm.refl _) hr
  obtain ⟨_, _, _, h2⟩ := C147_refuted_kimberMichael "" none _ (List.Perm.refl _) hr
  have hi : Integrable (fun x : ℝ => x) (uniformLaw 0 1) := uniform_integrable continuous_id
  exact ⟨h1 _ hpr hc (uniform_pos one_pos) hi hne, h2 _ hpr hc (uniform_pos one_pos) hi hne⟩

example : Consistent (ExpStat.frozini.statistic "" none) (uniformLaw 0 1) (expMeasure 2) ∧
    Undetected (ExpStat.kimberMichael.statistic "" none) (uniformLaw 0 1) (expMeasure 2) := uniform_fitted two_pos

end Pysatl.Props
