import Verif.Props.ConsistencyFitted
import Verif.Spec.Scores
import Mathlib.Analysis.SpecialFunctions.Log.NegMulLog

/-! # C136: Kochar, Wong and Wong -/

namespace Pysatl.Props

open Pysatl.Decision Pysatl.Resolver Pysatl.Spec Pysatl.Edf Pysatl.Graph Pysatl.Gen Pysatl.Exponent
open MeasureTheory ProbabilityTheory Filter Topology

/-! ### Kochar -/

theorem rank_shift {n i : ℕ} (h : i < n) : |((i : ℝ) + 1) / (n + 1) - ((i : ℝ) + 1 - 1 / 2) / n| ≤ 1 / n := by
  have h1 : (0 : ℝ) < n := by exact_mod_cast (show 0 < n by omega)
  have h2 : (i : ℝ) + 1 ≤ n := by exact_mod_cast h
  have h3 : (0 : ℝ) ≤ i := Nat.cast_nonneg i
  have e : ((i : ℝ) + 1) / (n + 1) - ((i : ℝ) + 1 - 1 / 2) / n = ((n : ℝ) / 2 - i - 1 / 2) / (n * (n + 1)) := by
    field_simp
    ring
  rw [e, abs_div, abs_of_pos (show (0 : ℝ) < n * (n + 1) by positivity), div_le_div_iff₀ (by positivity) h1]
  have h4 : |(n : ℝ) / 2 - i - 1 / 2| ≤ n := abs_le.2 ⟨by linarith, by linarith⟩
  nlinarith

theorem kocharWeight_continuous : Continuous kocharWeight := by
  have e : kocharWeight = fun u => 2 * (1 - u) + 2 * Real.negMulLog (1 - u) - 1 := by
    funext u
    rw [kocharWeight, Real.negMulLog]
    ring
  rw [e]
  fun_prop

theorem kocharScore_weight (n i : ℕ) : kocharScore n i = kocharWeight (((i : ℝ) + 1) / (n + 1)) := rfl

section
variable {Q : Measure ℝ} [IsProbabilityMeasure Q] (hc : Continuous (cdf Q)) (hpos : ∀ᵐ x ∂Q, 0 < x)
  (hi : Integrable (fun x => x) Q)

include hc in
/-- Ranks come near the distribution function, uniformly over the sample. -/
theorem ranks_near : ∀ᵐ ω ∂seqLaw Q, ∀ ε : ℝ, 0 < ε → ∀ᶠ n in atTop,
    ∀ i (h : i < (sort (List.ofFn (firsts n ω))).length),
      |((i : ℝ) + 1) / (n + 1) - cdf Q (sort (List.ofFn (firsts n ω)))[i]| ≤ ε := by
  filter_upwards [glivenko hc] with ω h1 ε hε
  filter_upwards [h1 (ε / 2) (_root_.half_pos hε),
    (tendsto_one_div_atTop_nhds_zero_nat (𝕜 := ℝ)).eventually (gt_mem_nhds (_root_.half_pos hε))] with n k1 k2 i h
  have p1 := position_near hc (monotone_cdf Q) (fun x => ⟨cdf_nonneg Q x, cdf_le_one Q x⟩) k1 h
  have hin : i < n := h.trans_eq ((sort_perm _).length_eq.trans List.length_ofFn)
  have p2 := rank_shift hin
  rw [List.length_ofFn] at p1
  exact (abs_sub_le _ _ _).trans (by linarith)

include hc in
/-- Continuous functions of the ranks come near those of the distribution function. -/
theorem scores_near {J : ℝ → ℝ} (hJ : Continuous J) : ∀ᵐ ω ∂seqLaw Q, ∀ ε : ℝ, 0 < ε → ∀ᶠ n in atTop,
    ∀ i (h : i < (sort (List.ofFn (firsts n ω))).length),
      |J (((i : ℝ) + 1) / (n + 1)) - J (cdf Q (sort (List.ofFn (firsts n ω)))[i])| ≤ ε := by
  have hu := isCompact_Icc.uniformContinuousOn_of_continuous (s := Set.Icc (0 : ℝ) 1) hJ.continuousOn
  filter_upwards [ranks_near hc] with ω h1 ε hε
  obtain ⟨δ, hδ, h⟩ := Metric.uniformContinuousOn_iff.1 hu ε hε
  filter_upwards [h1 (δ / 2) (_root_.half_pos hδ)] with n k i hin
  have hin' : i < n := hin.trans_eq ((sort_perm _).length_eq.trans List.length_ofFn)
  have hN : (0 : ℝ) < (n : ℝ) + 1 := by positivity
  have hle : (i : ℝ) + 1 ≤ n := by exact_mod_cast hin'
  have := h (((i : ℝ) + 1) / (n + 1)) ⟨by positivity, (div_le_one hN).2 (by linarith)⟩
    (cdf Q (sort (List.ofFn (firsts n ω)))[i]) ⟨cdf_nonneg Q _, cdf_le_one Q _⟩
    (by rw [Real.dist_eq]; linarith [k i hin])
  rw [Real.dist_eq] at this
  exact this.le

include hc in
theorem score_integrable {J : ℝ → ℝ} (hJ : Continuous J) (hi : Integrable (fun x => x) Q) :
    Integrable (fun x => J (cdf Q x) * x) Q := by
  obtain ⟨C, hC⟩ := isCompact_Icc.exists_bound_of_continuousOn (s := Set.Icc (0 : ℝ) 1) hJ.continuousOn
  exact hi.bdd_mul (c := C) (hJ.comp hc).aestronglyMeasurable
    (.of_forall fun x => hC _ ⟨cdf_nonneg Q x, cdf_le_one Q x⟩)

include hc hpos hi in
/-- Averages of the order statistics with weights that are a function of the rank settle. -/
theorem scores_settle {J : ℝ → ℝ} (hJ : Continuous J) : ∀ᵐ ω ∂seqLaw Q, Tendsto
    (fun n => (∑ i : Fin (sort (List.ofFn (firsts n ω))).length,
      J ((((i : ℕ) : ℝ) + 1) / (n + 1)) * (sort (List.ofFn (firsts n ω)))[i]) / n) atTop
    (𝓝 (∫ x, J (cdf Q x) * x ∂Q)) := by
  have hmeas : Measurable fun x => J (cdf Q x) * x := by
    have := hJ.comp hc
    exact this.measurable.mul measurable_id
  filter_upwards [scores_near hc hJ, settles_integral hmeas (score_integrable hc hJ hi), settles_fitted_mean hi, seq_ae hpos]
    with ω h1 h2 h3 h4
  have e : ∀ n, ∫ x, J (cdf Q x) * x ∂empiricalLaw (List.ofFn (firsts n ω)) =
      (∑ i : Fin (sort (List.ofFn (firsts n ω))).length,
        J (cdf Q (sort (List.ofFn (firsts n ω)))[i]) * (sort (List.ofFn (firsts n ω)))[i]) / n := by
    intro n
    rw [integral_empirical, ← ((sort_perm (List.ofFn (firsts n ω))).map (fun x => J (cdf Q x) * x)).sum_eq, List.length_ofFn]
    congr 1
    have := sum_mapIdx (sort (List.ofFn (firsts n ω))) (fun _ x => J (cdf Q x) * x)
    rw [← this]
    congr 1
    refine List.ext_getElem (by simp) fun i _ _ => by simp
  simp only [e] at h2
  have em : ∀ n, mean (List.ofFn (firsts n ω)) =
      (∑ i : Fin (sort (List.ofFn (firsts n ω))).length, (sort (List.ofFn (firsts n ω)))[i]) / n := by
    intro n
    rw [mean, ← (sort_perm (List.ofFn (firsts n ω))).sum_eq, List.length_ofFn]
    congr 1
    have := sum_mapIdx (sort (List.ofFn (firsts n ω))) (fun _ x => x)
    rw [← this]
    congr 1
    refine List.ext_getElem (by simp) fun i _ _ => by simp
  have hm := lawMean_pos hi hpos
  rw [Metric.tendsto_nhds] at h2 ⊢
  intro ε hε
  have hη : 0 < ε / (2 * (lawMean Q + 1)) := by positivity
  filter_upwards [h2 (ε / 2) (_root_.half_pos hε), h1 _ hη, eventually_gt_atTop 0,
    h3.eventually (gt_mem_nhds (show lawMean Q < lawMean Q + 1 by linarith))] with n k1 k2 hn k3
  rw [Real.dist_eq] at k1 ⊢
  have hN : (0 : ℝ) < n := by exact_mod_cast hn
  rw [em, div_lt_iff₀ hN] at k3
  have key : |(∑ i : Fin (sort (List.ofFn (firsts n ω))).length,
      J ((((i : ℕ) : ℝ) + 1) / (n + 1)) * (sort (List.ofFn (firsts n ω)))[i]) / n -
      (∑ i : Fin (sort (List.ofFn (firsts n ω))).length,
        J (cdf Q (sort (List.ofFn (firsts n ω)))[i]) * (sort (List.ofFn (firsts n ω)))[i]) / n| ≤ ε / 2 := by
    rw [← sub_div, ← Finset.sum_sub_distrib, abs_div, abs_of_pos hN, div_le_iff₀ hN]
    refine (Finset.abs_sum_le_sum_abs _ _).trans ((Finset.sum_le_sum fun i _ => ?_).trans
      (b := ∑ i : Fin (sort (List.ofFn (firsts n ω))).length,
        ε / (2 * (lawMean Q + 1)) * (sort (List.ofFn (firsts n ω)))[i]) ?_)
    · have hx : 0 < (sort (List.ofFn (firsts n ω)))[i] := by
        obtain ⟨j, hj⟩ := List.mem_ofFn.1 ((sort_perm _).mem_iff.1 (List.getElem_mem i.2))
        have := h4 j
        rw [Fin.getElem_fin, ← hj]
        exact this
      rw [← sub_mul, abs_mul, abs_of_pos hx]
      exact mul_le_mul_of_nonneg_right (k2 i i.2) hx.le
    · rw [← Finset.mul_sum]
      refine (mul_le_mul_of_nonneg_left k3.le hη.le).trans_eq ?_
      field_simp
  exact lt_of_le_of_lt (abs_sub_le _ _ _) (by linarith)

include hc hpos hi in
theorem kochar_settles (code : String) (params : Option (List (String × ℝ))) :
    ValueSettles (ExpStat.kochar.statistic code params) (fun n x => √(108 * n / 17) * x) Q (kocharIndex Q) := by
  filter_upwards [scores_settle hc hpos hi kocharWeight_continuous, settles_fitted_mean hi] with ω h1 h2
  refine ⟨_, h1.div h2 (lawMean_pos hi hpos).ne', ?_⟩
  filter_upwards [eventually_gt_atTop 0] with n hn
  have hN : (n : ℝ) ≠ 0 := by exact_mod_cast hn.ne'
  simp only [ExpStat.statistic, ExpStat.value, Exponent.kochar, Pi.div_apply]
  rw [sum_mapIdx, List.length_ofFn, mean, List.length_ofFn, (sort_perm (List.ofFn (firsts n ω))).sum_eq, mul_div_assoc,
    div_div_div_cancel_right₀ hN]
  rfl

end

/-- An exponential weight in the mean of an exponential law. -/
theorem exp_tilt {r : ℝ} (hr : 0 < r) (f : ℝ → ℝ) :
    ∫ x, f x * Real.exp (-(r * x)) ∂expMeasure r = 1 / 2 * ∫ x, f x ∂expMeasure (2 * r) := by
  rw [Expon.integral_exp hr, Expon.integral_exp (by positivity), ← integral_const_mul]
  congr 1
  funext x
  have : Real.exp (-(2 * r * x)) = Real.exp (-(r * x)) * Real.exp (-(r * x)) := by
    rw [← Real.exp_add]; congr 1; ring
  rw [this]
  ring

theorem exp_tilt_integrable {r : ℝ} (hr : 0 < r) {f : ℝ → ℝ} (hf : Integrable f (expMeasure r)) :
    Integrable (fun x => f x * Real.exp (-(r * x))) (expMeasure r) := by
  refine hf.mul_bdd (c := 1) (by fun_prop) ?_
  filter_upwards [Expon.ae_pos hr] with x hx
  rw [Real.norm_eq_abs, abs_of_pos (Real.exp_pos _)]
  exact Real.exp_le_one_iff.2 (neg_nonpos.2 (by positivity))

theorem exp_moment {r : ℝ} (hr : 0 < r) (k : ℕ) : ∫ x, x ^ k ∂expMeasure r = k.factorial / r ^ k := by
  have := Expon.integral_rpow hr (s := k) (by linarith [(Nat.cast_nonneg k : (0 : ℝ) ≤ k)])
  simp only [Real.rpow_natCast] at this
  rw [this, add_comm, Real.Gamma_nat_eq_factorial]

theorem exp_moment_integrable {r : ℝ} (hr : 0 < r) (k : ℕ) : Integrable (fun x => x ^ k) (expMeasure r) := by
  have := exp_integrable_rpow hr (p := k) (by linarith [(Nat.cast_nonneg k : (0 : ℝ) ≤ k)])
  simpa only [Real.rpow_natCast] using this

/-- Kochar's weights at exponential quantiles, integrated against a power. -/
theorem kochar_exp_moment {r : ℝ} (hr : 0 < r) (k : ℕ) :
    ∫ x, kocharWeight (1 - Real.exp (-(r * x))) * x ^ k ∂expMeasure r =
      k.factorial / (2 * r) ^ k + r * ((k + 1).factorial / (2 * r) ^ (k + 1)) - k.factorial / r ^ k := by
  have e : ∀ x : ℝ, kocharWeight (1 - Real.exp (-(r * x))) * x ^ k =
      2 * (x ^ k * Real.exp (-(r * x))) + 2 * r * (x ^ (k + 1) * Real.exp (-(r * x))) - x ^ k := fun x => by
    rw [kocharWeight, sub_sub_cancel, Real.log_exp]
    ring
  simp only [e]
  have i1 := (exp_tilt_integrable hr (exp_moment_integrable hr k)).const_mul 2
  have i2 := (exp_tilt_integrable hr (exp_moment_integrable hr (k + 1))).const_mul (2 * r)
  have i3 : Integrable (fun x => 2 * (x ^ k * Real.exp (-(r * x))) + 2 * r * (x ^ (k + 1) * Real.exp (-(r * x))))
    (expMeasure r) := i1.add i2
  rw [integral_sub i3 (exp_moment_integrable hr k), integral_add i1 i2, integral_const_mul, integral_const_mul,
    exp_tilt hr, exp_tilt hr, exp_moment (by positivity), exp_moment (by positivity), exp_moment hr]
  ring

theorem kocharIndex_exp {r : ℝ} (hr : 0 < r) : kocharIndex (expMeasure r) = 0 := by
  have e : ∫ x, kocharWeight (cdf (expMeasure r) x) * x ∂expMeasure r =
      ∫ x, kocharWeight (1 - Real.exp (-(r * x))) * x ^ 1 ∂expMeasure r := by
    refine integral_congr_ae ?_
    filter_upwards [Expon.ae_pos hr] with x hx
    rw [cdf_expMeasure_eq hr, if_pos hx.le, pow_one]
  rw [kocharIndex, e, kochar_exp_moment hr]
  have : ((1 : ℕ).factorial : ℝ) / (2 * r) ^ 1 + r * (((1 + 1 : ℕ).factorial : ℝ) / (2 * r) ^ (1 + 1)) -
      ((1 : ℕ).factorial : ℝ) / r ^ 1 = 0 := by
    norm_num [Nat.factorial]
    field_simp
    ring
  rw [this, zero_div]

theorem cdf_squaredExp (x : ℝ) : cdf squaredExp x = 1 - Real.exp (-√x) := by
  have hp := isProbabilityMeasure_expMeasure one_pos
  have := squaredExp_facts.1
  have e : cdf squaredExp x = cdf (expMeasure 1) √x ∨ x < 0 := by
    by_cases hx : 0 ≤ x
    · left
      rw [cdf_eq_real, cdf_eq_real, squaredExp, map_measureReal_apply (by fun_prop) measurableSet_Iic]
      refine measureReal_congr ?_
      filter_upwards [Expon.ae_pos one_pos] with y hy
      exact propext (Real.le_sqrt hy.le hx).symm
    · exact Or.inr (not_le.1 hx)
  rcases e with e | h
  · rw [e, cdf_expMeasure_eq one_pos, if_pos (Real.sqrt_nonneg x), one_mul]
  · rw [Real.sqrt_eq_zero_of_nonpos h.le, cdf_eq_real, measureReal_def, (measure_eq_zero_iff_ae_notMem).2, ENNReal.toReal_zero]
    · simp
    · filter_upwards [squaredExp_facts.2.1] with y hy hyx
      exact absurd (hy.trans_le hyx) (not_lt.2 h.le)

theorem squaredExp_continuous : Continuous (cdf squaredExp) := by
  have e : (cdf squaredExp : ℝ → ℝ) = fun x => 1 - Real.exp (-√x) := funext cdf_squaredExp
  rw [e]
  fun_prop

theorem kocharIndex_squaredExp : kocharIndex squaredExp < 0 := by
  obtain ⟨h1, h2, h3, -⟩ := squaredExp_facts
  refine div_neg_of_neg_of_pos ?_ (lawMean_pos h3 h2)
  have hm : Continuous fun x => kocharWeight (cdf squaredExp x) * x :=
    (kocharWeight_continuous.comp squaredExp_continuous).mul continuous_id
  have e0 : ∫ x, kocharWeight (cdf squaredExp x) * x ∂squaredExp =
      ∫ x, kocharWeight (cdf squaredExp (x ^ 2)) * x ^ 2 ∂expMeasure 1 :=
    integral_map (φ := fun x : ℝ => x ^ 2) (by fun_prop) hm.aestronglyMeasurable
  have e : ∫ x, kocharWeight (cdf squaredExp (x ^ 2)) * x ^ 2 ∂expMeasure 1 =
      ∫ x, kocharWeight (1 - Real.exp (-(1 * x))) * x ^ 2 ∂expMeasure 1 := by
    refine integral_congr_ae ?_
    filter_upwards [Expon.ae_pos one_pos] with x hx
    rw [cdf_squaredExp, Real.sqrt_sq hx.le, one_mul]
  refine lt_of_eq_of_lt (e0.trans (e.trans (kochar_exp_moment one_pos 2))) ?_
  norm_num [Nat.factorial]

section
variable (code : String) (params : Option (List (String × ℝ))) (classes : List GeneratorClass)
  (hp : classes.Perm generatorClasses)

theorem kochar_growing : ∀ᶠ n : ℕ in atTop, StrictMono fun x : ℝ => √(108 * n / 17) * x := by
  filter_upwards [eventually_gt_atTop 0] with n hn x y hxy
  have : (0 : ℝ) < n := by exact_mod_cast hn
  exact mul_lt_mul_of_pos_left hxy (Real.sqrt_pos.2 (by positivity))

include hp in
/-- **C136, Kochar**, for the laws on one side: laws with a positive index are detected.  Missing: laws with a negative index,
which are not (`C136_refuted_kochar`), and laws with atoms. -/
theorem C136_kochar_partial {r : ℝ} (hr : 0 < r) : ∃ G, (Gen.Family.exponential r).simulator classes = .ok G ∧
    (∀ n, G.generate n = .ok (iid n (expMeasure r))) ∧
    ∀ Q : Measure ℝ, IsProbabilityMeasure Q → Continuous (cdf Q) → (∀ᵐ x ∂Q, 0 < x) → Integrable (fun x => x) Q →
      kocharIndex (expMeasure r) < kocharIndex Q →
      Consistent (ExpStat.kochar.statistic code params) Q (expMeasure r) := by
  have hpr := isProbabilityMeasure_expMeasure hr
  obtain ⟨G, hG, hgen⟩ := simulates_all (f := .exponential r) fun n => C111_exponential classes hp r hr n
  exact ⟨G, hG, hgen, fun Q _ hc hpos hi hlt => value_consistent (exponential_meas _ code params) kochar_growing
    (kochar_settles hc hpos hi code params)
    (kochar_settles (exp_continuous hr) (Expon.ae_pos hr) (exp_integrable_id hr) code params)
    (Or.inl ⟨(fun h => by cases h), hlt⟩)⟩

/-- **C136, refuted, Kochar**: the criterion is judged in the right tail.  The probability that it rejects tends to zero for
every continuous law of positive observations with an index below that of the exponential laws, for instance for squares of
exponential variables. -/
theorem C136_refuted_kochar {r : ℝ} (hr : 0 < r) :
    (∀ Q : Measure ℝ, IsProbabilityMeasure Q → Continuous (cdf Q) → (∀ᵐ x ∂Q, 0 < x) → Integrable (fun x => x) Q →
      kocharIndex Q < kocharIndex (expMeasure r) →
      Undetected (ExpStat.kochar.statistic code params) Q (expMeasure r)) ∧
    kocharIndex squaredExp ≠ kocharIndex (expMeasure r) ∧
      Undetected (ExpStat.kochar.statistic code params) squaredExp (expMeasure r) := by
  have hpr := isProbabilityMeasure_expMeasure hr
  have key : ∀ Q : Measure ℝ, IsProbabilityMeasure Q → Continuous (cdf Q) → (∀ᵐ x ∂Q, 0 < x) → Integrable (fun x => x) Q →
      kocharIndex Q < kocharIndex (expMeasure r) →
      Undetected (ExpStat.kochar.statistic code params) Q (expMeasure r) := fun Q _ hc hpos hi hlt =>
    value_undetected (exponential_meas _ code params) kochar_growing (kochar_settles hc hpos hi code params)
      (kochar_settles (exp_continuous hr) (Expon.ae_pos hr) (exp_integrable_id hr) code params) (Or.inr ⟨rfl, hlt⟩)
  obtain ⟨h1, h2, h3, -⟩ := squaredExp_facts
  have hlt : kocharIndex squaredExp < kocharIndex (expMeasure r) := by
    rw [kocharIndex_exp hr]; exact kocharIndex_squaredExp
  exact ⟨key, hlt.ne, key _ h1 squaredExp_continuous h2 h3 hlt⟩

end

/-- Exponential lifetimes after a guarantee of one unit of time. -/
noncomputable def shiftedExp : Measure ℝ := (expMeasure 1).map fun x => x + 1

theorem shiftedExp_facts : IsProbabilityMeasure shiftedExp ∧ (∀ᵐ x ∂shiftedExp, 1 < x) ∧
    Integrable (fun x => x) shiftedExp ∧ Continuous (cdf shiftedExp) ∧ 0 < kocharIndex shiftedExp := by
  have h0 := isProbabilityMeasure_expMeasure one_pos
  have hm : Measurable fun x : ℝ => x + 1 := by fun_prop
  have h1 : IsProbabilityMeasure shiftedExp := Measure.isProbabilityMeasure_map hm.aemeasurable
  have h2 : ∀ᵐ x ∂shiftedExp, 1 < x := by
    refine (ae_map_iff hm.aemeasurable measurableSet_Ioi).2 ?_
    filter_upwards [Expon.ae_pos one_pos] with x hx
    show 1 < x + 1
    linarith
  have h3 : Integrable (fun x => x) shiftedExp :=
    (integrable_map_measure measurable_id.aestronglyMeasurable hm.aemeasurable).2
      ((exp_integrable_id one_pos).add (integrable_const 1))
  have hcdf : ∀ x, cdf shiftedExp x = cdf (expMeasure 1) (x - 1) := fun x => by
    rw [cdf_eq_real, cdf_eq_real, shiftedExp, map_measureReal_apply hm measurableSet_Iic]
    congr 1
    ext y
    simp only [Set.mem_preimage, Set.mem_Iic, le_sub_iff_add_le]
  have h4 : Continuous (cdf shiftedExp) := by
    have e : (cdf shiftedExp : ℝ → ℝ) = fun x => cdf (expMeasure 1) (x - 1) := funext hcdf
    rw [e]
    exact (exp_continuous one_pos).comp (by fun_prop)
  refine ⟨h1, h2, h3, h4, div_pos ?_ (lawMean_pos h3 (h2.mono fun x hx => one_pos.trans hx))⟩
  have e0 : ∫ x, kocharWeight (cdf shiftedExp x) * x ∂shiftedExp =
      ∫ x, kocharWeight (cdf shiftedExp (x + 1)) * (x + 1) ∂expMeasure 1 :=
    integral_map (φ := fun x : ℝ => x + 1) hm.aemeasurable
      ((kocharWeight_continuous.comp h4).mul continuous_id).aestronglyMeasurable
  have e : ∫ x, kocharWeight (cdf shiftedExp (x + 1)) * (x + 1) ∂expMeasure 1 =
      ∫ x, (kocharWeight (1 - Real.exp (-(1 * x))) * x ^ 1 + kocharWeight (1 - Real.exp (-(1 * x))) * x ^ 0) ∂expMeasure 1 := by
    refine integral_congr_ae ?_
    filter_upwards [Expon.ae_pos one_pos] with x hx
    rw [hcdf, add_sub_cancel_right, cdf_expMeasure_eq one_pos, if_pos hx.le]
    ring
  have hint : ∀ k : ℕ, Integrable (fun x => kocharWeight (1 - Real.exp (-(1 * x))) * x ^ k) (expMeasure 1) := fun k => by
    have e : ∀ x : ℝ, kocharWeight (1 - Real.exp (-(1 * x))) * x ^ k =
        2 * (x ^ k * Real.exp (-(1 * x))) + 2 * (x ^ (k + 1) * Real.exp (-(1 * x))) - x ^ k := fun x => by
      rw [kocharWeight, sub_sub_cancel, Real.log_exp]
      ring
    simp only [e]
    exact (((exp_tilt_integrable one_pos (exp_moment_integrable one_pos k)).const_mul 2).add
      ((exp_tilt_integrable one_pos (exp_moment_integrable one_pos (k + 1))).const_mul 2)).sub
      (exp_moment_integrable one_pos k)
  rw [e0, e, integral_add (hint 1) (hint 0), kochar_exp_moment one_pos, kochar_exp_moment one_pos]
  norm_num [Nat.factorial]

/-- Kochar detects a guaranteed lifetime, and never squares of exponential variables. -/
example : Consistent (ExpStat.kochar.statistic "" none) shiftedExp (expMeasure 2) ∧
    Undetected (ExpStat.kochar.statistic "" none) squaredExp (expMeasure 2) := by
  obtain ⟨h1, h2, h3, h4, h5⟩ := shiftedExp_facts
  obtain ⟨_, _, _, h⟩ := C136_kochar_partial "" none _ (List.Perm.refl _) two_pos
  exact ⟨h _ h1 h4 (h2.mono fun x hx => one_pos.trans hx) h3 (by rwa [kocharIndex_exp two_pos]),
    (C136_refuted_kochar "" none two_pos).2.2⟩

end Pysatl.Props
