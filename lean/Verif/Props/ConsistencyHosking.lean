import Verif.Spec.LMomentLaw
import Verif.Props.ConsistencyDeviation
import Verif.Props.ConsistencyScores
import Verif.Props.LMoments

/-! # C137: Hosking's criterion -/

namespace Pysatl.Props

open Pysatl.Decision Pysatl.Resolver Pysatl.Spec Pysatl.Edf Pysatl.Graph Pysatl.Gen Pysatl.Normal Pysatl.Exponent
open MeasureTheory ProbabilityTheory Filter Topology

/-! ### Weights close to functions of the rank -/

section
variable {Q : Measure ℝ} [IsProbabilityMeasure Q] (hc : Continuous (cdf Q)) (hi : Integrable (fun x => x) Q)

include hc hi in
/-- Averages of the order statistics with weights close to a function of the rank settle, whatever the signs. -/
theorem weights_settle {J : ℝ → ℝ} (hJ : Continuous J) (w : ℕ → ℕ → ℝ)
    (hw : ∀ ε : ℝ, 0 < ε → ∀ᶠ n in atTop, ∀ i < n, |w n i - J (((i : ℝ) + 1) / (n + 1))| ≤ ε) :
    ∀ᵐ ω ∂seqLaw Q, Tendsto (fun n => dot (w n) (sort (List.ofFn (firsts n ω))) / n) atTop
      (𝓝 (∫ x, J (cdf Q x) * x ∂Q)) := by
  have hmeas : Measurable fun x => J (cdf Q x) * x := by
    have := hJ.comp hc
    exact this.measurable.mul measurable_id
  filter_upwards [scores_near hc hJ, settles_integral hmeas (score_integrable hc hJ hi),
    settles_integral (f := fun x => |x|) (by fun_prop) hi.abs] with ω h1 h2 h3
  have e : ∀ (f : ℝ → ℝ) n, ∫ x, f x ∂empiricalLaw (List.ofFn (firsts n ω)) =
      (∑ i : Fin (sort (List.ofFn (firsts n ω))).length, f (sort (List.ofFn (firsts n ω)))[i]) / n := by
    intro f n
    rw [integral_empirical, ← ((sort_perm (List.ofFn (firsts n ω))).map f).sum_eq, List.length_ofFn]
    congr 1
    have := sum_mapIdx (sort (List.ofFn (firsts n ω))) (fun _ x => f x)
    rw [← this]
    congr 1
    refine List.ext_getElem (by simp) fun i _ _ => by simp
  simp only [e] at h2 h3
  set A := ∫ x, |x| ∂Q with hA
  have hA0 : 0 ≤ A := integral_nonneg fun x => abs_nonneg x
  rw [Metric.tendsto_nhds] at h2 ⊢
  intro ε hε
  have hη : 0 < ε / (4 * (A + 1)) := by positivity
  filter_upwards [h2 (ε / 2) (_root_.half_pos hε), h1 _ hη, hw _ hη, eventually_gt_atTop 0,
    h3.eventually (gt_mem_nhds (show A < A + 1 by linarith))] with n k1 k2 k2' hn k3
  rw [Real.dist_eq] at k1 ⊢
  have hN : (0 : ℝ) < n := by exact_mod_cast hn
  rw [div_lt_iff₀ hN] at k3
  have key : |dot (w n) (sort (List.ofFn (firsts n ω))) / n -
      (∑ i : Fin (sort (List.ofFn (firsts n ω))).length,
        J (cdf Q (sort (List.ofFn (firsts n ω)))[i]) * (sort (List.ofFn (firsts n ω)))[i]) / n| ≤ ε / 2 := by
    rw [dot, sum_mapIdx, ← sub_div, ← Finset.sum_sub_distrib, abs_div, abs_of_pos hN, div_le_iff₀ hN]
    refine (Finset.abs_sum_le_sum_abs _ _).trans ((Finset.sum_le_sum fun i _ => ?_).trans
      (b := ∑ i : Fin (sort (List.ofFn (firsts n ω))).length,
        ε / (2 * (A + 1)) * |(sort (List.ofFn (firsts n ω)))[i]|) ?_)
    · rw [← sub_mul, abs_mul]
      refine mul_le_mul_of_nonneg_right ?_ (abs_nonneg _)
      have hin : (i : ℕ) < n := i.2.trans_eq ((sort_perm _).length_eq.trans List.length_ofFn)
      have a1 := k2' i hin
      have a2 := k2 i i.2
      have a3 : ε / (2 * (A + 1)) = ε / (4 * (A + 1)) + ε / (4 * (A + 1)) := by
        field_simp
        ring
      rw [a3]
      exact (abs_sub_le _ _ _).trans (add_le_add a1 a2)
    · rw [← Finset.mul_sum]
      refine (mul_le_mul_of_nonneg_left k3.le (by positivity)).trans_eq ?_
      field_simp
  exact lt_of_le_of_lt (abs_sub_le _ _ _) (by linarith)

end

/-- `(i - a) / (n - 1 - a)` is close to the rank `(i + 1) / (n + 1)`. -/
theorem falling_near (a : ℕ) : ∀ ε : ℝ, 0 < ε → ∀ᶠ n : ℕ in atTop, ∀ i < n,
    |((i : ℝ) - a) / (n - 1 - a) - ((i : ℝ) + 1) / (n + 1)| ≤ ε ∧ |((i : ℝ) - a) / (n - 1 - a)| ≤ 1 := by
  intro ε hε
  have ht : Tendsto (fun n : ℕ => (a + 2 : ℝ) / ((n : ℝ) - 1 - a)) atTop (𝓝 0) := by
    refine Tendsto.div_atTop tendsto_const_nhds ?_
    have := tendsto_atTop_add_const_right atTop (-1 - (a : ℝ)) (tendsto_natCast_atTop_atTop (R := ℝ))
    exact this.congr fun n => by ring
  filter_upwards [ht.eventually (gt_mem_nhds hε), eventually_gt_atTop (2 * a + 2)] with n h1 h2 i hin
  have hn : (2 * a + 2 : ℝ) < n := by exact_mod_cast h2
  have ha : (0 : ℝ) ≤ a := Nat.cast_nonneg a
  have hd : (0 : ℝ) < n - 1 - a := by linarith
  have h3 : (0 : ℝ) ≤ i := Nat.cast_nonneg i
  have h4 : (i : ℝ) + 1 ≤ n := by exact_mod_cast hin
  constructor
  · refine le_trans ?_ h1.le
    have e : ((i : ℝ) - a) / (n - 1 - a) - ((i : ℝ) + 1) / (n + 1) =
        (((a : ℝ) + 2) * i - (a + 1) * n + 1) / ((n - 1 - a) * (n + 1)) := by
      have : (n : ℝ) + 1 ≠ 0 := by positivity
      field_simp
      ring
    rw [e, abs_div, abs_of_pos (show (0 : ℝ) < (n - 1 - a) * (n + 1) by positivity),
      div_le_div_iff₀ (by positivity) hd]
    have : |((a : ℝ) + 2) * i - (a + 1) * n + 1| ≤ (a + 2) * (n + 1) := by
      rw [abs_le]
      constructor <;> nlinarith
    nlinarith
  · rw [abs_div, abs_of_pos hd, div_le_one hd, abs_le]
    constructor <;> linarith

theorem unit_mul_near {x y u z δ ε : ℝ} (h1 : |x - u| ≤ δ) (h2 : |y - z| ≤ ε) (hy : |y| ≤ 1) (hu : |u| ≤ 1) :
    |x * y - u * z| ≤ δ + ε := by
  have e : x * y - u * z = (x - u) * y + u * (y - z) := by ring
  rw [e]
  refine (abs_add_le _ _).trans (add_le_add ?_ ?_)
  · rw [abs_mul]
    nlinarith [abs_nonneg (x - u), abs_nonneg y]
  · rw [abs_mul]
    nlinarith [abs_nonneg (y - z), abs_nonneg u]

theorem rank_unit {n i : ℕ} (h : i < n) : |((i : ℝ) + 1) / (n + 1)| ≤ 1 := by
  have h4 : (i : ℝ) + 1 ≤ n := by exact_mod_cast h
  rw [abs_of_nonneg (by positivity), div_le_one (by positivity)]
  linarith

theorem near_one : ∀ ε : ℝ, 0 < ε → ∀ᶠ n : ℕ in atTop, ∀ i < n,
    |(i : ℝ) / (n - 1) - (fun u : ℝ => u ^ 1) (((i : ℝ) + 1) / (n + 1))| ≤ ε := by
  intro ε hε
  filter_upwards [falling_near 0 ε hε] with n h i hin
  simpa using (h i hin).1

theorem near_two : ∀ ε : ℝ, 0 < ε → ∀ᶠ n : ℕ in atTop, ∀ i < n,
    |(i : ℝ) * (i - 1) / ((n - 1) * (n - 2)) - (fun u : ℝ => u ^ 2) (((i : ℝ) + 1) / (n + 1))| ≤ ε := by
  intro ε hε
  filter_upwards [falling_near 0 _ (_root_.half_pos hε), falling_near 1 _ (_root_.half_pos hε)] with n h k i hin
  have a := h i hin
  have b := k i hin
  simp only [Nat.cast_zero, sub_zero, Nat.cast_one] at a b
  have := unit_mul_near a.1 b.1 b.2 (rank_unit hin)
  rw [mul_div_mul_comm, show (n : ℝ) - 2 = n - 1 - 1 by ring]
  refine le_trans (le_of_eq ?_) (this.trans_eq (add_halves ε))
  rw [sq]

theorem near_three : ∀ ε : ℝ, 0 < ε → ∀ᶠ n : ℕ in atTop, ∀ i < n,
    |(i : ℝ) * (i - 1) * (i - 2) / ((n - 1) * (n - 2) * (n - 3)) - (fun u : ℝ => u ^ 3) (((i : ℝ) + 1) / (n + 1))| ≤ ε := by
  intro ε hε
  filter_upwards [near_two _ (_root_.half_pos hε), falling_near 2 _ (_root_.half_pos hε)] with n h k i hin
  have a := h i hin
  have b := k i hin
  simp only [Nat.cast_ofNat] at b
  have hu : |(((i : ℝ) + 1) / (n + 1)) ^ 2| ≤ 1 := by
    rw [abs_pow]
    exact pow_le_one₀ (abs_nonneg _) (rank_unit hin)
  have := unit_mul_near a b.1 b.2 hu
  rw [mul_div_mul_comm, show (n : ℝ) - 3 = n - 1 - 2 by ring]
  refine le_trans (le_of_eq ?_) (this.trans_eq (add_halves ε))
  rw [pow_succ]

theorem dot_div (c : ℕ → ℝ) (d : ℝ) (l : List ℝ) : dot (fun i => c i / d) l = dot c l / d := by
  simp only [dot, sum_mapIdx, Finset.sum_div]
  exact Finset.sum_congr rfl fun i _ => by ring

/-! ### L-moments settle -/

theorem legendre_one (u : ℝ) : shiftedLegendre 1 u = 2 * u - 1 := by
  simp [shiftedLegendre, Finset.sum_range_succ]
  ring

theorem legendre_two (u : ℝ) : shiftedLegendre 2 u = 6 * u ^ 2 - 6 * u + 1 := by
  simp [shiftedLegendre, Finset.sum_range_succ, Nat.choose]
  ring

theorem legendre_three (u : ℝ) : shiftedLegendre 3 u = 20 * u ^ 3 - 30 * u ^ 2 + 12 * u - 1 := by
  simp [shiftedLegendre, Finset.sum_range_succ, Nat.choose]
  ring

section
variable {Q : Measure ℝ} [IsProbabilityMeasure Q] (hc : Continuous (cdf Q)) (hi : Integrable (fun x => x) Q)

/-- A probability-weighted moment. -/
noncomputable def weightedMean (k : ℕ) (μ : Measure ℝ) : ℝ := ∫ x, cdf μ x ^ k * x ∂μ

include hc hi in
theorem lawLMoments : lawLMoment 2 Q = 2 * weightedMean 1 Q - lawMean Q ∧
    lawLMoment 3 Q = 6 * weightedMean 2 Q - 6 * weightedMean 1 Q + lawMean Q ∧
    lawLMoment 4 Q = 20 * weightedMean 3 Q - 30 * weightedMean 2 Q + 12 * weightedMean 1 Q - lawMean Q := by
  have j : ∀ k : ℕ, Integrable (fun x => cdf Q x ^ k * x) Q := fun k =>
    score_integrable hc (J := fun u => u ^ k) (by fun_prop) hi
  have j1 : Integrable (fun x => cdf Q x * x) Q := by simpa using j 1
  simp only [lawLMoment, weightedMean, lawMean, pow_one]
  refine ⟨?_, ?_, ?_⟩
  · rw [← integral_const_mul, ← integral_sub (j1.const_mul 2) hi]
    exact integral_congr_ae (.of_forall fun x => by dsimp only; rw [legendre_one]; ring)
  · have a : Integrable (fun x => 6 * (cdf Q x ^ 2 * x) - 6 * (cdf Q x * x)) Q := ((j 2).const_mul 6).sub (j1.const_mul 6)
    rw [← integral_const_mul, ← integral_const_mul, ← integral_sub ((j 2).const_mul 6) (j1.const_mul 6),
      ← integral_add a hi]
    exact integral_congr_ae (.of_forall fun x => by dsimp only; rw [legendre_two]; ring)
  · have a : Integrable (fun x => 20 * (cdf Q x ^ 3 * x) - 30 * (cdf Q x ^ 2 * x)) Q :=
      ((j 3).const_mul 20).sub ((j 2).const_mul 30)
    have b : Integrable (fun x => 20 * (cdf Q x ^ 3 * x) - 30 * (cdf Q x ^ 2 * x) + 12 * (cdf Q x * x)) Q :=
      a.add (j1.const_mul 12)
    rw [← integral_const_mul, ← integral_const_mul, ← integral_const_mul,
      ← integral_sub ((j 3).const_mul 20) ((j 2).const_mul 30), ← integral_add a (j1.const_mul 12), ← integral_sub b hi]
    exact integral_congr_ae (.of_forall fun x => by dsimp only; rw [legendre_three]; ring)

include hc hi in
/-- The sample L-moments settle at those of the law. -/
theorem lMoments_settle : ∀ᵐ ω ∂seqLaw Q,
    Tendsto (fun n => sampleLMoment 0 2 (List.ofFn (firsts n ω))) atTop (𝓝 (lawLMoment 2 Q)) ∧
    Tendsto (fun n => sampleLMoment 0 3 (List.ofFn (firsts n ω))) atTop (𝓝 (lawLMoment 3 Q)) ∧
    Tendsto (fun n => sampleLMoment 0 4 (List.ofFn (firsts n ω))) atTop (𝓝 (lawLMoment 4 Q)) := by
  obtain ⟨e2, e3, e4⟩ := lawLMoments hc hi
  filter_upwards [settles_fitted_mean hi, weights_settle hc hi (J := fun u => u ^ 1) (by fun_prop) _ near_one,
    weights_settle hc hi (J := fun u => u ^ 2) (by fun_prop) _ near_two,
    weights_settle hc hi (J := fun u => u ^ 3) (by fun_prop) _ near_three] with ω h0 h1 h2 h3
  rw [e2, e3, e4]
  have key : ∀ᶠ n in atTop, _ := (eventually_ge_atTop 4).mono fun n (hn : 4 ≤ n) =>
    hosking1_moments (xs := List.ofFn (firsts n ω)) (by simpa using hn)
  simp only [dot_div, div_div] at h1 h2 h3
  refine ⟨((h1.const_mul 2).sub h0).congr' ?_, (((h2.const_mul 6).sub (h1.const_mul 6)).add h0).congr' ?_,
    ((((h3.const_mul 20).sub (h2.const_mul 30)).add (h1.const_mul 12)).sub h0).congr' ?_⟩
  · filter_upwards [key] with n k
    rw [← k.1]
    simp only [List.length_ofFn, mean, (sort_perm (List.ofFn (firsts n ω))).sum_eq]
    ring_nf
  · filter_upwards [key] with n k
    rw [← k.2.1]
    simp only [List.length_ofFn, mean, (sort_perm (List.ofFn (firsts n ω))).sum_eq]
    ring_nf
  · filter_upwards [key] with n k
    rw [← k.2.2]
    simp only [List.length_ofFn, mean, (sort_perm (List.ofFn (firsts n ω))).sum_eq]
    ring_nf

include hc in
theorem continuous_null (c : ℝ) : Q {c} = 0 := by
  have h := (cdf Q).measure_singleton c
  rw [measure_cdf] at h
  rw [h, (hc.continuousAt (x := c)).continuousWithinAt.leftLim_eq, sub_self, ENNReal.ofReal_zero]

include hc hi in
/-- The mean distance of two observations of a continuous law is positive. -/
theorem difference_pos : 0 < lawDifference Q := by
  obtain ⟨c, h⟩ := leastDeviation_attained hi
  have hlt : 0 < leastDeviation Q := by
    rw [h]
    refine lt_of_le_of_ne (integral_nonneg fun x => abs_nonneg _) fun h0 => ?_
    have hd : Integrable (fun x => |x - c|) Q := (hi.sub (integrable_const c)).abs
    have hae := (integral_eq_zero_iff_of_nonneg (fun x => abs_nonneg (x - c)) hd).1 h0.symm
    have h1 : ∀ᵐ x ∂Q, x ∈ ({c} : Set ℝ) := hae.mono fun x hx => by
      have : |x - c| = 0 := hx
      simpa [sub_eq_zero] using this
    have h2 := prob_compl_eq_zero_iff (measurableSet_singleton c) |>.1 (show Q ({c} : Set ℝ)ᶜ = 0 from h1)
    rw [continuous_null hc] at h2
    exact zero_ne_one h2
  refine hlt.trans_le ?_
  have := integral_mono (integrable_const (leastDeviation Q)) (integrable_dev_dev hi) fun y => leastDeviation_le y
  simpa [lawDifference] using this

include hc hi in
/-- The second L-moment is half the mean distance of two observations. -/
theorem lawLMoment_two : lawLMoment 2 Q = lawDifference Q / 2 := by
  obtain ⟨ω, h1, h2⟩ := ((lMoments_settle hc hi).and (settles_difference hi)).exists
  have ht : Tendsto (fun n : ℕ => 1 - 1 / (n : ℝ)) atTop (𝓝 (1 - 0)) :=
    tendsto_const_nhds.sub tendsto_one_div_atTop_nhds_zero_nat
  have h3 := ht.mul h1.1
  rw [sub_zero, one_mul] at h3
  refine tendsto_nhds_unique h3 ((h2.div_const 2).congr' ?_)
  filter_upwards [eventually_ge_atTop 4] with n hn
  have k := (hosking1_moments (xs := List.ofFn (firsts n ω)) (by simpa using hn)).1
  rw [← k]
  have g := dagostino_gini (List.ofFn (firsts n ω))
  rw [difference_empirical] at g
  have hd : dot (fun i => (i : ℝ) + 1 - 0.5 * ((List.ofFn (firsts n ω)).length + 1)) (sort (List.ofFn (firsts n ω))) =
      dot (fun i => (i : ℝ)) (sort (List.ofFn (firsts n ω))) -
        ((List.ofFn (firsts n ω)).length - 1) / 2 * (sort (List.ofFn (firsts n ω))).sum := by
    have es := sum_mapIdx (sort (List.ofFn (firsts n ω))) (fun _ x => x)
    have e2 : (sort (List.ofFn (firsts n ω))).mapIdx (fun _ x => x) = sort (List.ofFn (firsts n ω)) :=
      List.ext_getElem (by simp) fun i _ _ => by simp
    rw [e2] at es
    rw [es]
    simp only [dot, sum_mapIdx, Finset.mul_sum, ← Finset.sum_sub_distrib]
    exact Finset.sum_congr rfl fun i _ => by ring
  rw [hd, List.length_ofFn] at g
  simp only [List.length_ofFn]
  have h1 : (4 : ℝ) ≤ n := by exact_mod_cast hn
  have h3 : (n : ℝ) - 1 ≠ 0 := by linarith
  have h4 : (n : ℝ) ≠ 0 := by linarith
  generalize dot (fun i => (i : ℝ)) (sort (List.ofFn (firsts n ω))) = A at *
  generalize (sort (List.ofFn (firsts n ω))).sum = B at *
  generalize lawDifference (empiricalLaw (List.ofFn (firsts n ω))) = D at *
  have hD : D = 4 / n ^ 2 * (A - (n - 1) / 2 * B) := by
    rw [g]
    field_simp
  rw [hD]
  field_simp
  ring

include hc hi in
theorem hosking_settles (code : String) (params : Option (List (String × ℝ))) :
    ValueSettles (NormStat.hosking1.statistic scipyNorm code params) (fun _ x => x) Q (lMomentIndex Q) := by
  have h0 : lawLMoment 2 Q ≠ 0 := by
    rw [lawLMoment_two hc hi]
    exact (_root_.half_pos (difference_pos hc hi)).ne'
  filter_upwards [lMoments_settle hc hi] with ω h
  refine ⟨_, (((h.2.1.div h.1 h0).pow 2).div_const 0.0019434).add
    ((((h.2.2.div h.1 h0).sub_const 0.12291).pow 2).div_const 0.00095785), ?_⟩
  filter_upwards [eventually_gt_atTop 50] with n hn
  rw [normal_value (C109_hosking1 scipyNorm (by simp; omega))]
  congr 1
  have e : lMomentNull 0 (List.ofFn (firsts n ω)).length = (0.12291, 0.0019434, 0.00095785) := by
    simp only [lMomentNull, List.length_ofFn]
    rw [if_neg (by omega), if_neg (by omega)]
  simp only [lMomentStatistic, e, Pi.div_apply]

end

theorem gaussian_continuous (m : ℝ) {v : ℝ} (hv : 0 < v) : Continuous (cdf (gaussianReal m v.toNNReal)) := by
  have e : ⇑(cdf (gaussianReal m v.toNNReal)) = fun x => Phi ((x - m) / √v) := by
    funext x
    have := cdf_gaussian m (Real.sqrt_pos.2 hv) x
    rwa [Real.sq_sqrt hv.le] at this
  rw [e]
  exact Phi_continuous.comp (by fun_prop)

section
variable (code : String) (params : Option (List (String × ℝ)))
variable (classes : List GeneratorClass) (hp : classes.Perm generatorClasses) (m : ℝ) {v : ℝ} (hv : 0 < v)

include hp hv in
/-- **C137, Hosking**: every continuous law with a mean whose L-skewness and L-kurtosis do not give Hosking's combination the
value that it has for the normal law is rejected in the long run. -/
theorem C137_hosking1 : ∃ G, (Gen.Family.normal m v).simulator classes = .ok G ∧
    (∀ n, G.generate n = .ok (iid n (gaussianReal m v.toNNReal))) ∧
    ∀ Q : Measure ℝ, IsProbabilityMeasure Q → Continuous (cdf Q) → Integrable (fun x => x) Q →
      lMomentIndex Q ≠ lMomentIndex (gaussianReal m v.toNNReal) →
      Consistent (NormStat.hosking1.statistic scipyNorm code params) Q (gaussianReal m v.toNNReal) := by
  refine with_normal hp m hv fun Q _ hc hi hne => ?_
  have hg := hosking_settles (gaussian_continuous m hv) (gaussian_integrable m v.toNNReal) code params
  refine value_consistent (normal_meas _ code params) (.of_forall fun _ => strictMono_id) (hosking_settles hc hi code params)
    hg ?_
  rcases lt_or_gt_of_ne hne with h | h
  · exact Or.inr ⟨(fun h => by cases h), h⟩
  · exact Or.inl ⟨(fun h => by cases h), h⟩

end

/-! ### Uniform and exponential laws -/

theorem uniform_lMoments : lMomentIndex (uniformLaw 0 1) = 0.12291 ^ 2 / 0.00095785 := by
  have e : ∀ k : ℕ, ∫ x, shiftedLegendre k (cdf (uniformLaw 0 1) x) * x ∂uniformLaw 0 1 =
      ∫ x in (0 : ℝ)..1, shiftedLegendre k x * x := fun k => by
    rw [uniform_integral one_pos, div_one]
    refine intervalIntegral.integral_congr fun x hx => ?_
    rw [Set.uIcc_of_le zero_le_one] at hx
    congr 2
    rw [(cdf_uniformLaw one_pos).2, Uniform.uniformCdf]
    split_ifs with h1 h2
    · exact (le_antisymm h1 hx.1).symm
    · exact (le_antisymm hx.2 h2).symm
    · simp
  have e3 : lawLMoment 3 (uniformLaw 0 1) = 0 := by
    rw [lawLMoment, e]
    simp only [Nat.add_one_sub_one, legendre_two, sub_mul, add_mul, mul_assoc, ← pow_succ, one_mul]
    rw [intervalIntegral.integral_add (Continuous.intervalIntegrable (by fun_prop) _ _) (Continuous.intervalIntegrable (by fun_prop) _ _), intervalIntegral.integral_sub (Continuous.intervalIntegrable (by fun_prop) _ _) (Continuous.intervalIntegrable (by fun_prop) _ _)]
    simp only [intervalIntegral.integral_const_mul, ← sq, integral_pow, integral_id]
    norm_num
  have e4 : lawLMoment 4 (uniformLaw 0 1) = 0 := by
    rw [lawLMoment, e]
    simp only [Nat.add_one_sub_one, legendre_three, sub_mul, add_mul, mul_assoc, ← pow_succ, one_mul]
    rw [intervalIntegral.integral_sub (Continuous.intervalIntegrable (by fun_prop) _ _) (Continuous.intervalIntegrable (by fun_prop) _ _), intervalIntegral.integral_add (Continuous.intervalIntegrable (by fun_prop) _ _) (Continuous.intervalIntegrable (by fun_prop) _ _),
      intervalIntegral.integral_sub (Continuous.intervalIntegrable (by fun_prop) _ _) (Continuous.intervalIntegrable (by fun_prop) _ _)]
    simp only [intervalIntegral.integral_const_mul, ← sq, integral_pow, integral_id]
    norm_num
  rw [lMomentIndex, e3, e4]
  norm_num

theorem exp_tilt_one (j : ℕ) : ∫ x, x * Real.exp (-x) ^ j ∂expMeasure 1 = 1 / ((j : ℝ) + 1) ^ 2 := by
  have h := exp_moment (r := (j : ℝ) + 1) (by positivity) 1
  rw [Expon.integral_exp (by positivity)] at h
  rw [Expon.integral_exp one_pos]
  simp only [Nat.factorial_one, Nat.cast_one, pow_one] at h
  have hj : (0 : ℝ) < (j : ℝ) + 1 := by positivity
  rw [sq, ← div_div, ← h, eq_div_iff hj.ne', ← integral_mul_const]
  congr 1
  funext x
  have : Real.exp (-(((j : ℝ) + 1) * x)) = Real.exp (-x) ^ j * Real.exp (-(1 * x)) := by
    rw [← Real.exp_nat_mul, ← Real.exp_add]
    congr 1
    ring
  rw [this]
  ring

theorem exp_tilt_one_integrable (j : ℕ) : Integrable (fun x => x * Real.exp (-x) ^ j) (expMeasure 1) := by
  have hf : Integrable (fun x => x) (expMeasure 1) := exp_integrable_id one_pos
  refine hf.mul_bdd (c := 1) (by fun_prop) ?_
  filter_upwards [Expon.ae_pos one_pos] with x hx
  rw [Real.norm_eq_abs, abs_of_pos (pow_pos (Real.exp_pos _) _)]
  exact pow_le_one₀ (Real.exp_pos _).le (Real.exp_le_one_iff.2 (neg_nonpos.2 hx.le))

theorem exp_lMoments : lMomentIndex (expMeasure 1) = (1 / 3) ^ 2 / 0.0019434 + (1 / 6 - 0.12291) ^ 2 / 0.00095785 := by
  have hpr := isProbabilityMeasure_expMeasure one_pos
  have e : ∀ (f : ℝ → ℝ), ∫ x, f (cdf (expMeasure 1) x) * x ∂expMeasure 1 =
      ∫ x, f (1 - Real.exp (-x)) * x ∂expMeasure 1 := fun f => by
    refine integral_congr_ae ?_
    filter_upwards [Expon.ae_pos one_pos] with x hx
    rw [cdf_expMeasure_eq one_pos, if_pos hx.le, one_mul]
  have i := exp_tilt_one_integrable
  have k := exp_tilt_one
  obtain ⟨e2, e3, e4⟩ := lawLMoments (exp_continuous one_pos) (exp_integrable_id one_pos)
  have m0 : lawMean (expMeasure 1) = 1 := by simpa [lawMean] using k 0
  have m1 : weightedMean 1 (expMeasure 1) = 3 / 4 := by
    rw [weightedMean, e fun u => u ^ 1]
    have : ∀ x : ℝ, (1 - Real.exp (-x)) ^ 1 * x = x * Real.exp (-x) ^ 0 - x * Real.exp (-x) ^ 1 := fun x => by ring
    simp only [this]
    rw [integral_sub (i 0) (i 1), k, k]
    norm_num
  have m2 : weightedMean 2 (expMeasure 1) = 11 / 18 := by
    rw [weightedMean, e fun u => u ^ 2]
    have : ∀ x : ℝ, (1 - Real.exp (-x)) ^ 2 * x =
        x * Real.exp (-x) ^ 0 - 2 * (x * Real.exp (-x) ^ 1) + x * Real.exp (-x) ^ 2 := fun x => by ring
    simp only [this]
    have a : Integrable (fun x => x * Real.exp (-x) ^ 0 - 2 * (x * Real.exp (-x) ^ 1)) (expMeasure 1) :=
      (i 0).sub ((i 1).const_mul 2)
    rw [integral_add a (i 2), integral_sub (i 0) ((i 1).const_mul 2), integral_const_mul, k, k, k]
    norm_num
  have m3 : weightedMean 3 (expMeasure 1) = 25 / 48 := by
    rw [weightedMean, e fun u => u ^ 3]
    have : ∀ x : ℝ, (1 - Real.exp (-x)) ^ 3 * x = x * Real.exp (-x) ^ 0 - 3 * (x * Real.exp (-x) ^ 1) +
        3 * (x * Real.exp (-x) ^ 2) - x * Real.exp (-x) ^ 3 := fun x => by ring
    simp only [this]
    have a : Integrable (fun x => x * Real.exp (-x) ^ 0 - 3 * (x * Real.exp (-x) ^ 1)) (expMeasure 1) :=
      (i 0).sub ((i 1).const_mul 3)
    have b : Integrable (fun x => x * Real.exp (-x) ^ 0 - 3 * (x * Real.exp (-x) ^ 1) + 3 * (x * Real.exp (-x) ^ 2))
      (expMeasure 1) := a.add ((i 2).const_mul 3)
    rw [integral_sub b (i 3), integral_add a ((i 2).const_mul 3), integral_sub (i 0) ((i 1).const_mul 3),
      integral_const_mul, integral_const_mul, k, k, k, k]
    norm_num
  rw [lMomentIndex, e2, e3, e4, m0, m1, m2, m3]
  norm_num

/-- The hypotheses are met: uniform and exponential laws give different values, so that at least one of them is detected. -/
theorem hosking_detects (m : ℝ) {v : ℝ} (hv : 0 < v) :
    Consistent (NormStat.hosking1.statistic scipyNorm "" none) (uniformLaw 0 1) (gaussianReal m v.toNNReal) ∨
    Consistent (NormStat.hosking1.statistic scipyNorm "" none) (expMeasure 1) (gaussianReal m v.toNNReal) := by
  obtain ⟨G, -, -, h⟩ := C137_hosking1 "" none generatorClasses (List.Perm.refl _) m hv
  have hpr := (cdf_uniformLaw (zero_lt_one (α := ℝ))).1
  have hpe := isProbabilityMeasure_expMeasure one_pos
  have hc : Continuous (cdf (uniformLaw 0 1)) := by
    have e : (cdf (uniformLaw 0 1) : ℝ → ℝ) = fun x => max 0 (min 1 x) := by
      funext x
      rw [(cdf_uniformLaw one_pos).2, Uniform.uniformCdf]
      split_ifs with h1 h2
      · rw [max_eq_left ((min_le_right _ _).trans h1)]
      · rw [min_eq_left h2, max_eq_right zero_le_one]
      · rw [min_eq_right (not_le.1 h2).le, max_eq_right (not_le.1 h1).le]; simp
    rw [e]
    fun_prop
  by_cases hu : lMomentIndex (uniformLaw 0 1) = lMomentIndex (gaussianReal m v.toNNReal)
  · refine Or.inr (h _ hpe (exp_continuous one_pos) (exp_integrable_id one_pos) fun he => ?_)
    rw [← hu, uniform_lMoments, exp_lMoments] at he
    norm_num at he
  · refine Or.inl (h _ hpr hc ?_ hu)
    have : ∀ᵐ x ∂uniformLaw 0 1, x ∈ Set.Icc (0 : ℝ) 1 := ae_cond_mem measurableSet_Icc
    refine Integrable.of_bound (C := 1) (by fun_prop) (this.mono fun x hx => ?_)
    rw [Real.norm_eq_abs, abs_of_nonneg hx.1]
    exact hx.2

end Pysatl.Props
