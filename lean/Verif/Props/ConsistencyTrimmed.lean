import Verif.Spec.TrimmedLaw
import Verif.Props.ConsistencyHosking

/-! # C137: Hosking's criteria with trimmed L-moments -/

namespace Pysatl.Props

open Pysatl.Decision Pysatl.Resolver Pysatl.Spec Pysatl.Edf Pysatl.Graph Pysatl.Gen Pysatl.Normal Pysatl.Exponent
open MeasureTheory ProbabilityTheory Filter Topology

/-! ### Weights that are uniformly close to a function of the rank -/

/-- The weights `w n i`, `i < n`, come uniformly near `J` at the rank. -/
def RankNear (w : ℕ → ℕ → ℝ) (J : ℝ → ℝ) : Prop :=
  ∀ ε : ℝ, 0 < ε → ∀ᶠ n : ℕ in atTop, ∀ i < n, |w n i - J (((i : ℝ) + 1) / (n + 1))| ≤ ε

theorem rank_mem {n i : ℕ} (h : i < n) : ((i : ℝ) + 1) / (n + 1) ∈ Set.Icc (0 : ℝ) 1 := by
  have h4 : (i : ℝ) + 1 ≤ n := by exact_mod_cast h
  refine ⟨by positivity, ?_⟩
  rw [div_le_one (by positivity)]
  linarith

theorem RankNear.mul {w w' : ℕ → ℕ → ℝ} {J J' : ℝ → ℝ} (h : RankNear w J) (h' : RankNear w' J') (hJ : Continuous J)
    (hJ' : Continuous J') : RankNear (fun n i => w n i * w' n i) (fun u => J u * J' u) := by
  obtain ⟨C, hC⟩ := isCompact_Icc.exists_bound_of_continuousOn (s := Set.Icc (0 : ℝ) 1) hJ.continuousOn
  obtain ⟨C', hC'⟩ := isCompact_Icc.exists_bound_of_continuousOn (s := Set.Icc (0 : ℝ) 1) hJ'.continuousOn
  have c0 : 0 ≤ C := (norm_nonneg _).trans (hC 0 ⟨le_rfl, zero_le_one⟩)
  have c0' : 0 ≤ C' := (norm_nonneg _).trans (hC' 0 ⟨le_rfl, zero_le_one⟩)
  intro ε hε
  have hδ : 0 < min 1 (ε / (C + C' + 1)) := lt_min one_pos (by positivity)
  filter_upwards [h _ hδ, h' _ hδ] with n k k' i hin
  have a := k i hin
  have a' := k' i hin
  have b := hC _ (rank_mem hin)
  have b' := hC' _ (rank_mem hin)
  rw [Real.norm_eq_abs] at b b'
  generalize J (((i : ℝ) + 1) / (n + 1)) = u at *
  generalize J' (((i : ℝ) + 1) / (n + 1)) = u' at *
  have d1 : min 1 (ε / (C + C' + 1)) ≤ 1 := min_le_left _ _
  have d2 : min 1 (ε / (C + C' + 1)) * (C + C' + 1) ≤ ε := by
    rw [← le_div_iff₀ (by positivity)]
    exact min_le_right _ _
  generalize min 1 (ε / (C + C' + 1)) = δ at *
  have e : w n i * w' n i - u * u' = (w n i - u) * (w' n i - u') + (w n i - u) * u' + u * (w' n i - u') := by ring
  rw [e]
  have t1 : |(w n i - u) * (w' n i - u')| ≤ δ * 1 := by
    rw [abs_mul]
    exact mul_le_mul a (a'.trans d1) (abs_nonneg _) hδ.le
  have t2 : |(w n i - u) * u'| ≤ δ * C' := by
    rw [abs_mul]
    exact mul_le_mul a b' (abs_nonneg _) hδ.le
  have t3 : |u * (w' n i - u')| ≤ C * δ := by
    rw [abs_mul]
    exact mul_le_mul b a' (abs_nonneg _) c0
  have := (abs_add_le ((w n i - u) * (w' n i - u') + (w n i - u) * u') (u * (w' n i - u')))
  have := (abs_add_le ((w n i - u) * (w' n i - u')) ((w n i - u) * u'))
  nlinarith

theorem RankNear.add {w w' : ℕ → ℕ → ℝ} {J J' : ℝ → ℝ} (h : RankNear w J) (h' : RankNear w' J') :
    RankNear (fun n i => w n i + w' n i) (fun u => J u + J' u) := by
  intro ε hε
  filter_upwards [h _ (_root_.half_pos hε), h' _ (_root_.half_pos hε)] with n k k' i hin
  have := abs_add_le (w n i - J (((i : ℝ) + 1) / (n + 1))) (w' n i - J' (((i : ℝ) + 1) / (n + 1)))
  have a := k i hin
  have a' := k' i hin
  rw [show w n i + w' n i - (J (((i : ℝ) + 1) / (n + 1)) + J' (((i : ℝ) + 1) / (n + 1))) =
    w n i - J (((i : ℝ) + 1) / (n + 1)) + (w' n i - J' (((i : ℝ) + 1) / (n + 1))) by ring]
  linarith

theorem rankNear_seq {c : ℕ → ℝ} {a : ℝ} (h : Tendsto c atTop (𝓝 a)) : RankNear (fun n _ => c n) (fun _ => a) := by
  intro ε hε
  filter_upwards [Metric.tendsto_nhds.1 h ε hε] with n k i _
  rw [Real.dist_eq] at k
  exact k.le

theorem rankNear_sum {r : ℕ} {w : ℕ → ℕ → ℕ → ℝ} {J : ℕ → ℝ → ℝ} (h : ∀ k < r, RankNear (w k) (J k)) :
    RankNear (fun n i => ∑ k ∈ Finset.range r, w k n i) (fun u => ∑ k ∈ Finset.range r, J k u) := by
  induction r with
  | zero => simpa using rankNear_seq (tendsto_const_nhds (x := (0 : ℝ)))
  | succ r ih =>
    simp only [Finset.sum_range_succ]
    exact (ih fun k hk => h k (by omega)).add (h r (by omega))

/-- Counting the ranks from above. -/
theorem RankNear.reflect {w : ℕ → ℕ → ℝ} {J : ℝ → ℝ} (h : RankNear w J) :
    RankNear (fun n i => w n (n - 1 - i)) (fun u => J (1 - u)) := by
  intro ε hε
  filter_upwards [h ε hε] with n k i hin
  have := k (n - 1 - i) (by omega)
  have e : (((n - 1 - i : ℕ) : ℝ) + 1) / (n + 1) = 1 - ((i : ℝ) + 1) / (n + 1) := by
    rw [Nat.cast_sub (by omega), Nat.cast_sub (by omega), Nat.cast_one]
    have : (n : ℝ) + 1 ≠ 0 := by positivity
    field_simp
    ring
  rwa [e] at this

theorem rankNear_id (a : ℕ) : RankNear (fun n i => ((i - a : ℕ) : ℝ) / n) (fun u => u) := by
  intro ε hε
  have ht : Tendsto (fun n : ℕ => ((a : ℝ) + 1) / n) atTop (𝓝 0) := tendsto_const_div_atTop_nhds_zero_nat _
  filter_upwards [ht.eventually (gt_mem_nhds hε)] with n k i hin
  refine le_trans ?_ k.le
  have hn : (0 : ℝ) < n := by exact_mod_cast (show 0 < n by omega)
  have h3 : (0 : ℝ) ≤ i := Nat.cast_nonneg i
  have h4 : (i : ℝ) + 1 ≤ n := by exact_mod_cast hin
  have h5 : (i : ℝ) - a ≤ ((i - a : ℕ) : ℝ) := by
    have : i ≤ (i - a) + a := by omega
    have : (i : ℝ) ≤ ((i - a : ℕ) : ℝ) + a := by exact_mod_cast this
    linarith
  have h6 : ((i - a : ℕ) : ℝ) ≤ i := by exact_mod_cast Nat.sub_le i a
  have h7 : |(i : ℝ) / n - ((i : ℝ) + 1) / (n + 1)| ≤ 1 / n := by
    have e : (i : ℝ) / n - ((i : ℝ) + 1) / (n + 1) = (i - n) / (n * (n + 1)) := by
      field_simp
      ring
    rw [e, abs_div, abs_of_pos (show (0 : ℝ) < n * (n + 1) by positivity), div_le_div_iff₀ (by positivity) hn]
    have : |(i : ℝ) - n| ≤ n + 1 := abs_le.2 ⟨by linarith, by linarith⟩
    nlinarith
  have h8 : |((i - a : ℕ) : ℝ) / n - (i : ℝ) / n| ≤ a / n := by
    rw [← sub_div, abs_div, abs_of_pos hn]
    exact div_le_div_of_nonneg_right (abs_le.2 ⟨by linarith, by linarith [(Nat.cast_nonneg a : (0 : ℝ) ≤ a)]⟩) hn.le
  refine (abs_sub_le _ _ _).trans ((add_le_add h8 h7).trans_eq ?_)
  rw [← add_div]

theorem rankNear_desc (a : ℕ) : RankNear (fun n i => (i.descFactorial a : ℝ) / n ^ a) (fun u => u ^ a) := by
  induction a with
  | zero => simpa using rankNear_seq (tendsto_const_nhds (x := (1 : ℝ)))
  | succ a ih =>
    have := (rankNear_id a).mul ih (by fun_prop) (by fun_prop)
    have e1 : (fun n i : ℕ => (i.descFactorial (a + 1) : ℝ) / n ^ (a + 1)) =
        fun n i : ℕ => ((i - a : ℕ) : ℝ) / n * ((i.descFactorial a : ℝ) / n ^ a) := by
      funext n i
      rw [Nat.descFactorial_succ, Nat.cast_mul, pow_succ', mul_div_mul_comm]
    have e2 : (fun u : ℝ => u ^ (a + 1)) = fun u => u * u ^ a := by
      funext u
      rw [pow_succ']
    rw [e1, e2]
    exact this

theorem descFactorial_ratio (a : ℕ) : Tendsto (fun n : ℕ => (n.descFactorial a : ℝ) / n ^ a) atTop (𝓝 1) := by
  induction a with
  | zero => simp
  | succ a ih =>
    have h1 : Tendsto (fun n : ℕ => ((n - a : ℕ) : ℝ) / n) atTop (𝓝 1) := by
      have : Tendsto (fun n : ℕ => 1 - (a : ℝ) / n) atTop (𝓝 (1 - 0)) :=
        tendsto_const_nhds.sub (tendsto_const_div_atTop_nhds_zero_nat _)
      rw [sub_zero] at this
      refine this.congr' ?_
      filter_upwards [eventually_gt_atTop a] with n hn
      have h0 : (n : ℝ) ≠ 0 := by
        have : n ≠ 0 := by omega
        exact_mod_cast this
      rw [Nat.cast_sub hn.le]
      field_simp
    have := h1.mul ih
    rw [one_mul] at this
    refine this.congr fun n => ?_
    rw [Nat.descFactorial_succ, Nat.cast_mul, pow_succ', mul_div_mul_comm]

/-! ### Trimmed L-moments settle -/

/-- The density of the `a + 1`-th of `a + b + 1` uniform observations. -/
noncomputable def orderWeight (a b : ℕ) (u : ℝ) : ℝ :=
  (a + b + 1).factorial / (a.factorial * b.factorial) * (u ^ a * (1 - u) ^ b)

theorem orderWeight_continuous (a b : ℕ) : Continuous (orderWeight a b) := by
  unfold orderWeight
  fun_prop

theorem rankNear_order (a b : ℕ) : RankNear
    (fun n i => n * ((i.choose a * (n - 1 - i).choose b : ℕ) : ℝ) / (n.choose (a + b + 1) : ℝ)) (orderWeight a b) := by
  have h1 := (rankNear_desc a).mul (rankNear_desc b).reflect (by fun_prop) (by fun_prop)
  have h2 : Tendsto (fun n : ℕ => ((a + b + 1).factorial / (a.factorial * b.factorial) : ℝ) *
      ((n.descFactorial (a + b + 1) : ℝ) / n ^ (a + b + 1))⁻¹) atTop
      (𝓝 (((a + b + 1).factorial / (a.factorial * b.factorial) : ℝ) * 1⁻¹)) :=
    ((descFactorial_ratio (a + b + 1)).inv₀ one_ne_zero).const_mul _
  rw [inv_one, mul_one] at h2
  have h3 := (rankNear_seq h2).mul h1 (by fun_prop) (by fun_prop)
  intro ε hε
  filter_upwards [h3 ε hε, eventually_ge_atTop (a + b + 1)] with n k hn i hin
  have := k i hin
  refine le_of_eq_of_le ?_ this
  rw [orderWeight]
  congr 2
  rw [Nat.descFactorial_eq_factorial_mul_choose, Nat.descFactorial_eq_factorial_mul_choose,
    Nat.descFactorial_eq_factorial_mul_choose]
  push_cast
  have f1 : (a.factorial : ℝ) ≠ 0 := by exact_mod_cast a.factorial_ne_zero
  have f2 : (b.factorial : ℝ) ≠ 0 := by exact_mod_cast b.factorial_ne_zero
  have f3 : ((a + b + 1).factorial : ℝ) ≠ 0 := by exact_mod_cast (a + b + 1).factorial_ne_zero
  have f4 : (n.choose (a + b + 1) : ℝ) ≠ 0 := by exact_mod_cast (Nat.choose_pos hn).ne'
  have f5 : (n : ℝ) ≠ 0 := by
    have : n ≠ 0 := by omega
    exact_mod_cast this
  field_simp
  ring

/-- The weight of the rank in the trimmed L-moment. -/
noncomputable def trimmedWeight (t r : ℕ) (u : ℝ) : ℝ :=
  ∑ k ∈ Finset.range r, (-1 : ℝ) ^ k * (r - 1).choose k / r * orderWeight (r + t - 1 - k) (t + k) u

theorem trimmedWeight_continuous (t r : ℕ) : Continuous (trimmedWeight t r) := by
  unfold trimmedWeight
  exact continuous_finset_sum _ fun k _ => continuous_const.mul (orderWeight_continuous _ _)

theorem rankNear_trimmed (t r : ℕ) : RankNear (fun n i => ∑ k ∈ Finset.range r, (-1 : ℝ) ^ k * (r - 1).choose k / r *
    (n * ((i.choose (r + t - 1 - k) * (n - 1 - i).choose (t + k) : ℕ) : ℝ) / (n.choose (r + 2 * t) : ℝ)))
    (trimmedWeight t r) := by
  refine rankNear_sum (w := fun k n i => (-1 : ℝ) ^ k * (r - 1).choose k / r *
    (n * ((i.choose (r + t - 1 - k) * (n - 1 - i).choose (t + k) : ℕ) : ℝ) / (n.choose (r + 2 * t) : ℝ)))
    (J := fun k u => (-1 : ℝ) ^ k * (r - 1).choose k / r * orderWeight (r + t - 1 - k) (t + k) u) fun k hk => ?_
  have h := rankNear_order (r + t - 1 - k) (t + k)
  rw [show r + t - 1 - k + (t + k) + 1 = r + 2 * t by omega] at h
  exact (rankNear_seq (tendsto_const_nhds (x := (-1 : ℝ) ^ k * (r - 1).choose k / r))).mul h continuous_const
    (orderWeight_continuous _ _)

section
variable {Q : Measure ℝ} [IsProbabilityMeasure Q] (hc : Continuous (cdf Q)) (hi : Integrable (fun x => x) Q)

include hc hi in
theorem trimmedLMoment_weight (t r : ℕ) : trimmedLMoment t r Q = ∫ x, trimmedWeight t r (cdf Q x) * x ∂Q := by
  have e : ∀ x, trimmedWeight t r (cdf Q x) * x = ∑ k ∈ Finset.range r, (-1 : ℝ) ^ k * (r - 1).choose k / r *
      (orderWeight (r + t - 1 - k) (t + k) (cdf Q x) * x) := fun x => by
    rw [trimmedWeight, Finset.sum_mul]
    exact Finset.sum_congr rfl fun k _ => mul_assoc _ _ _
  simp only [e]
  rw [integral_finset_sum _ fun k _ => (score_integrable hc (orderWeight_continuous _ _) hi).const_mul _, trimmedLMoment,
    Finset.sum_div]
  refine Finset.sum_congr rfl fun k hk => ?_
  have hk := Finset.mem_range.1 hk
  rw [integral_const_mul, meanOrderStatistic]
  have e2 : ∀ x, orderWeight (r + t - 1 - k) (t + k) (cdf Q x) * x =
      (r + 2 * t).factorial / ((r + t - k - 1).factorial * (r + 2 * t - (r + t - k)).factorial) *
        (cdf Q x ^ (r + t - k - 1) * (1 - cdf Q x) ^ (r + 2 * t - (r + t - k)) * x) := fun x => by
    rw [orderWeight, show r + t - 1 - k + (t + k) + 1 = r + 2 * t by omega, show r + t - 1 - k = r + t - k - 1 by omega,
      show t + k = r + 2 * t - (r + t - k) by omega, mul_assoc]
  simp only [e2, integral_const_mul]
  ring

include hc hi in
/-- The trimmed L-moments of the sample settle at those of the law. -/
theorem trimmed_settles (t r : ℕ) : ∀ᵐ ω ∂seqLaw Q,
    Tendsto (fun n => sampleLMoment t r (List.ofFn (firsts n ω))) atTop (𝓝 (trimmedLMoment t r Q)) := by
  rw [trimmedLMoment_weight hc hi]
  filter_upwards [weights_settle hc hi (trimmedWeight_continuous t r) _ (rankNear_trimmed t r)] with ω h
  refine h.congr' ?_
  filter_upwards [eventually_gt_atTop 0] with n hn
  have h0 : (n : ℝ) ≠ 0 := by exact_mod_cast hn.ne'
  rw [sampleLMoment_eq, dot_at, (sort_perm _).length_eq]
  simp only [List.length_ofFn, Finset.sum_div, Finset.mul_sum]
  refine Finset.sum_congr rfl fun i _ => Finset.sum_congr rfl fun k _ => ?_
  by_cases hr : (r : ℝ) = 0
  · simp [hr]
  by_cases hC : (n.choose (r + 2 * t) : ℝ) = 0
  · simp [hC]
  field_simp

theorem unit_integral (f : ℝ → ℝ) : ∫ u, f u ∂unitLaw = ∫ u in (0 : ℝ)..1, f u := by
  have := uniform_integral one_pos f
  rw [div_one] at this
  exact this

include hc in
theorem integral_of_cdf {f : ℝ → ℝ} (hf : Continuous f) : ∫ x, f (cdf Q x) ∂Q = ∫ u in (0 : ℝ)..1, f u := by
  rw [← unit_integral, ← map_cdf hc fun x => rfl, integral_map hc.measurable.aemeasurable hf.aestronglyMeasurable]

/-- The weight of the second L-moment is odd about the median. -/
theorem trimmedWeight_two (t : ℕ) : ∃ C : ℝ, 0 < C ∧ ∀ u, trimmedWeight t 2 u = C * ((u * (1 - u)) ^ t * (2 * u - 1)) := by
  refine ⟨(t + 1 + t + 1).factorial / ((t + 1).factorial * t.factorial) / 2, by positivity, fun u => ?_⟩
  simp only [trimmedWeight, Finset.sum_range_succ, Finset.sum_range_zero, orderWeight]
  have e1 : 2 + t - 1 - 0 = t + 1 := by omega
  have e2 : 2 + t - 1 - 1 = t := by omega
  rw [e1, e2, show t + (t + 1) + 1 = t + 1 + t + 1 by omega, show t + 1 + (t + 0) + 1 = t + 1 + t + 1 by omega, mul_pow]
  simp only [Nat.add_zero, pow_zero, pow_one, Nat.choose_self, Nat.choose_zero_right, Nat.cast_one, Nat.add_one_sub_one,
    Nat.cast_ofNat]
  ring

include hc hi in
/-- The second trimmed L-moment of a continuous law is positive. -/
theorem trimmed_two_pos (t : ℕ) : 0 < trimmedLMoment t 2 Q := by
  obtain ⟨C, hC, hw⟩ := trimmedWeight_two t
  obtain ⟨m, hm⟩ : ∃ m, cdf Q m = 1 / 2 := by
    have h1 := ((tendsto_cdf_atBot Q).eventually (gt_mem_nhds (show (0 : ℝ) < 1 / 2 by norm_num))).exists
    have h2 := ((tendsto_cdf_atTop Q).eventually (lt_mem_nhds (show (1 / 2 : ℝ) < 1 by norm_num))).exists
    obtain ⟨a, ha⟩ := h1
    obtain ⟨b, hb⟩ := h2
    exact mem_range_of_exists_le_of_exists_ge hc ⟨a, ha.le⟩ ⟨b, hb.le⟩
  have hz : ∫ x, trimmedWeight t 2 (cdf Q x) ∂Q = 0 := by
    rw [integral_of_cdf hc (trimmedWeight_continuous t 2)]
    have h := intervalIntegral.integral_comp_sub_left (a := 0) (b := 1) (trimmedWeight t 2) 1
    have h2 : ∀ u, trimmedWeight t 2 (1 - u) = -trimmedWeight t 2 u := fun u => by
      rw [hw, hw]
      ring
    simp only [h2, intervalIntegral.integral_neg, sub_self, sub_zero] at h
    linarith
  have i1 := score_integrable hc (trimmedWeight_continuous t 2) hi
  have i2 : Integrable (fun x => trimmedWeight t 2 (cdf Q x)) Q := by
    obtain ⟨K, hK⟩ := isCompact_Icc.exists_bound_of_continuousOn (s := Set.Icc (0 : ℝ) 1)
      (trimmedWeight_continuous t 2).continuousOn
    exact Integrable.of_bound (C := K) ((trimmedWeight_continuous t 2).comp hc).aestronglyMeasurable
      (.of_forall fun x => hK _ ⟨cdf_nonneg Q x, cdf_le_one Q x⟩)
  have e : trimmedLMoment t 2 Q = ∫ x, (trimmedWeight t 2 (cdf Q x) * x - trimmedWeight t 2 (cdf Q x) * m) ∂Q := by
    rw [integral_sub i1 (i2.mul_const m), integral_mul_const, hz, zero_mul, sub_zero, trimmedLMoment_weight hc hi]
  have hne : ∀ᵐ x ∂Q, cdf Q x ≠ 1 / 2 := by
    have : ∀ᵐ u ∂unitLaw, u ≠ 1 / 2 := by
      rw [ae_iff]
      simp
    rw [← map_cdf hc fun x => rfl] at this
    exact ae_of_ae_map hc.measurable.aemeasurable this
  have hpos : ∀ᵐ x ∂Q, 0 < trimmedWeight t 2 (cdf Q x) * x - trimmedWeight t 2 (cdf Q x) * m := by
    filter_upwards [hne, ae_cdf_inner hc fun x => rfl] with x h1 h2
    have hp : 0 < C * (cdf Q x * (1 - cdf Q x)) ^ t := mul_pos hC (pow_pos (mul_pos h2.1 (by linarith [h2.2])) t)
    rw [hw, ← mul_sub, ← mul_assoc, mul_assoc]
    refine mul_pos hp ?_
    rcases lt_or_gt_of_ne h1 with h | h
    · have hx : x < m := by
        by_contra hge
        have := monotone_cdf Q (not_lt.1 hge)
        linarith
      nlinarith
    · have hx : m < x := by
        by_contra hge
        have := monotone_cdf Q (not_lt.1 hge)
        linarith
      nlinarith
  rw [e]
  refine lt_of_le_of_ne (integral_nonneg_of_ae (hpos.mono fun x hx => hx.le)) fun h0 => ?_
  have hz0 := (integral_eq_zero_iff_of_nonneg_ae (hpos.mono fun x hx => hx.le) (i1.sub (i2.mul_const m))).1 h0.symm
  obtain ⟨x, h1, h2⟩ := (hpos.and hz0).exists
  exact h1.ne' h2

include hc hi in
theorem trimmedStatistic_settles (t : ℕ) : ∀ᵐ ω ∂seqLaw Q,
    Tendsto (fun n => lMomentStatistic t (List.ofFn (firsts n ω))) atTop (𝓝 (trimmedIndex t Q)) := by
  have h0 := (trimmed_two_pos hc hi t).ne'
  filter_upwards [trimmed_settles hc hi t 2, trimmed_settles hc hi t 3, trimmed_settles hc hi t 4] with ω h2 h3 h4
  refine ((((h3.div h2 h0).pow 2).div_const _).add ((((h4.div h2 h0).sub_const _).pow 2).div_const _)).congr' ?_
  filter_upwards [eventually_gt_atTop 50] with n hn
  have e : lMomentNull t (List.ofFn (firsts n ω)).length = lMomentNull t 51 := by
    rw [List.length_ofFn]
    unfold lMomentNull
    split <;> simp [show ¬n ≤ 25 by omega, show ¬n ≤ 50 by omega]
  simp only [lMomentStatistic, e, Pi.div_apply]

include hc hi in
theorem trimmedHosking_settles (code : String) (params : Option (List (String × ℝ))) {s : NormStat} {t : ℕ}
    (hs : ∀ xs : List ℝ, 4 ≤ xs.length → s.value scipyNorm xs = .ok (some (lMomentStatistic t xs))) :
    ValueSettles (s.statistic scipyNorm code params) (fun _ x => x) Q (trimmedIndex t Q) := by
  filter_upwards [trimmedStatistic_settles hc hi t] with ω h
  refine ⟨_, h, ?_⟩
  filter_upwards [eventually_ge_atTop 4] with n hn
  rw [normal_value (hs _ (by simpa using hn))]

end

section
variable (code : String) (params : Option (List (String × ℝ)))
variable (classes : List GeneratorClass) (hp : classes.Perm generatorClasses) (m : ℝ) {v : ℝ} (hv : 0 < v)

include hp hv in
/-- **C137, Hosking with trimmed L-moments**: with one, two or three observations trimmed, every continuous law with a mean
whose trimmed L-skewness and L-kurtosis do not give Hosking's combination the value that it has for the normal law is
rejected in the long run. -/
theorem C137_hosking_trimmed : ∃ G, (Gen.Family.normal m v).simulator classes = .ok G ∧
    (∀ n, G.generate n = .ok (iid n (gaussianReal m v.toNNReal))) ∧
    ∀ Q : Measure ℝ, IsProbabilityMeasure Q → Continuous (cdf Q) → Integrable (fun x => x) Q →
      (trimmedIndex 1 Q ≠ trimmedIndex 1 (gaussianReal m v.toNNReal) →
        Consistent (NormStat.hosking2.statistic scipyNorm code params) Q (gaussianReal m v.toNNReal)) ∧
      (trimmedIndex 2 Q ≠ trimmedIndex 2 (gaussianReal m v.toNNReal) →
        Consistent (NormStat.hosking3.statistic scipyNorm code params) Q (gaussianReal m v.toNNReal)) ∧
      (trimmedIndex 3 Q ≠ trimmedIndex 3 (gaussianReal m v.toNNReal) →
        Consistent (NormStat.hosking4.statistic scipyNorm code params) Q (gaussianReal m v.toNNReal)) := by
  refine with_normal hp m hv fun Q _ hc hi => ?_
  have main : ∀ {s : NormStat} {t : ℕ}, (s.statistic scipyNorm code params).alternative = .twoTailed →
      (∀ xs : List ℝ, 4 ≤ xs.length → s.value scipyNorm xs = .ok (some (lMomentStatistic t xs))) →
      trimmedIndex t Q ≠ trimmedIndex t (gaussianReal m v.toNNReal) →
      Consistent (s.statistic scipyNorm code params) Q (gaussianReal m v.toNNReal) := by
    intro s t ha hs hne
    have hg := trimmedHosking_settles (gaussian_continuous m hv) (gaussian_integrable m v.toNNReal) code params hs
    refine value_consistent (normal_meas _ code params) (.of_forall fun _ => strictMono_id)
      (trimmedHosking_settles hc hi code params hs) hg ?_
    rcases lt_or_gt_of_ne hne with h | h
    · exact Or.inr ⟨(fun h => by rw [ha] at h; cases h), h⟩
    · exact Or.inl ⟨(fun h => by rw [ha] at h; cases h), h⟩
  exact ⟨main rfl fun xs h => (C109_trimmed _ h).1, main rfl fun xs h => (C109_trimmed _ h).2.1,
    main rfl fun xs h => (C109_trimmed _ h).2.2⟩

end

/-! ### Two laws with different indices -/

theorem beta_poly (a b : ℕ) : ∫ u in (0 : ℝ)..1, u ^ a * (1 - u) ^ b = a.factorial * b.factorial / (a + b + 1).factorial := by
  induction b generalizing a with
  | zero =>
    simp only [pow_zero, mul_one, integral_pow, Nat.factorial_zero, Nat.cast_one, Nat.add_zero, Nat.factorial_succ]
    have : (a.factorial : ℝ) ≠ 0 := by exact_mod_cast a.factorial_ne_zero
    push_cast
    rw [one_pow, zero_pow (by omega), sub_zero]
    field_simp
  | succ b ih =>
    have e : ∀ u : ℝ, u ^ a * (1 - u) ^ (b + 1) = u ^ a * (1 - u) ^ b - u ^ (a + 1) * (1 - u) ^ b := fun u => by ring
    simp only [e]
    rw [intervalIntegral.integral_sub (Continuous.intervalIntegrable (by fun_prop) _ _)
      (Continuous.intervalIntegrable (by fun_prop) _ _), ih, ih, show a + 1 + b + 1 = a + b + 1 + 1 by omega,
      show a + (b + 1) + 1 = a + b + 1 + 1 by omega, Nat.factorial_succ (a + b + 1), Nat.factorial_succ a,
      Nat.factorial_succ b]
    have : ((a + b + 1).factorial : ℝ) ≠ 0 := by exact_mod_cast (a + b + 1).factorial_ne_zero
    push_cast
    field_simp
    ring

/-- The law of the power `p` of a uniform observation. -/
noncomputable def powerLaw (p : ℕ) : Measure ℝ := unitLaw.map fun u => u ^ p

instance (p : ℕ) : IsProbabilityMeasure (powerLaw p) := Measure.isProbabilityMeasure_map (by fun_prop)

theorem powerLaw_cdf {p : ℕ} (hp : p ≠ 0) : ∀ᵐ u ∂unitLaw, cdf (powerLaw p) (u ^ p) = u := by
  filter_upwards [unitLaw_inner] with u hu
  have h1 : cdf unitLaw u = u := by
    have := (cdf_uniformLaw (zero_lt_one (α := ℝ))).2 u
    rw [Uniform.uniformCdf, if_neg (not_le.2 hu.1), if_neg (not_le.2 hu.2), sub_zero, sub_zero, div_one] at this
    exact this
  conv_rhs => rw [← h1]
  rw [cdf_eq_real, cdf_eq_real, powerLaw, map_measureReal_apply (by fun_prop) measurableSet_Iic]
  refine measureReal_congr ?_
  filter_upwards [unitLaw_inner] with w hw
  refine propext ⟨fun h => ?_, fun h => ?_⟩
  · exact (pow_le_pow_iff_left₀ hw.1.le hu.1.le hp).1 h
  · exact (pow_le_pow_iff_left₀ hw.1.le hu.1.le hp).2 h

theorem powerLaw_null {p : ℕ} (hp : p ≠ 0) : NullSingletonClass (powerLaw p) := ⟨fun x => by
  rw [powerLaw, Measure.map_apply (by fun_prop) (measurableSet_singleton x)]
  have h : unitLaw {u : ℝ | 0 < u ∧ u ^ p = x} = 0 := by
    refine Set.Subsingleton.measure_zero (fun a ha b hb => ?_) _
    exact (pow_left_inj₀ ha.1.le hb.1.le hp).1 (ha.2.trans hb.2.symm)
  rw [← h]
  refine measure_congr ?_
  filter_upwards [unitLaw_inner] with w hw
  exact propext ⟨fun h => ⟨hw.1, h⟩, fun h => h.2⟩⟩

theorem powerLaw_continuous {p : ℕ} (hp : p ≠ 0) : Continuous (cdf (powerLaw p)) := by
  have := powerLaw_null hp
  exact continuous_cdf (powerLaw p)

theorem powerLaw_integrable (p : ℕ) : Integrable (fun x => x) (powerLaw p) := by
  rw [powerLaw, integrable_map_measure (by fun_prop) (by fun_prop)]
  refine Integrable.of_bound (C := 1) (by fun_prop) (unitLaw_inner.mono fun u hu => ?_)
  rw [Function.comp, Real.norm_eq_abs, abs_of_pos (pow_pos hu.1 p)]
  exact pow_le_one₀ hu.1.le hu.2.le

theorem powerLaw_order {p : ℕ} (hp : p ≠ 0) {j m : ℕ} (hj : 1 ≤ j) (hm : j ≤ m) : meanOrderStatistic j m (powerLaw p) =
    ((j - 1 + p).factorial : ℝ) * m.factorial / ((j - 1).factorial * (m + p).factorial) := by
  have hc := powerLaw_continuous hp
  have e : ∫ x, cdf (powerLaw p) x ^ (j - 1) * (1 - cdf (powerLaw p) x) ^ (m - j) * x ∂powerLaw p =
      ∫ u in (0 : ℝ)..1, u ^ (j - 1 + p) * (1 - u) ^ (m - j) := by
    conv_lhs => rw [show (fun x => cdf (powerLaw p) x ^ (j - 1) * (1 - cdf (powerLaw p) x) ^ (m - j) * x) =
      fun x => (fun y => cdf (powerLaw p) y ^ (j - 1) * (1 - cdf (powerLaw p) y) ^ (m - j) * y) x from rfl]
    rw [← unit_integral, powerLaw, integral_map (by fun_prop) (by rw [← powerLaw]; fun_prop), ← powerLaw]
    refine integral_congr_ae ?_
    filter_upwards [powerLaw_cdf hp] with u hu
    rw [hu]
    ring
  rw [meanOrderStatistic, e, beta_poly, show j - 1 + p + (m - j) + 1 = m + p by omega]
  have f1 : ((j - 1).factorial : ℝ) ≠ 0 := by exact_mod_cast (j - 1).factorial_ne_zero
  have f2 : ((m - j).factorial : ℝ) ≠ 0 := by exact_mod_cast (m - j).factorial_ne_zero
  have f3 : ((m + p).factorial : ℝ) ≠ 0 := by exact_mod_cast (m + p).factorial_ne_zero
  field_simp

/-- Uniform observations have no trimmed L-skewness, their squares have some, and neither have trimmed L-kurtosis. -/
theorem powerLaw_index {t : ℕ} (ht : t = 1 ∨ t = 2 ∨ t = 3) : trimmedIndex t (powerLaw 1) < trimmedIndex t (powerLaw 2) := by
  have key : ∀ p : ℕ, p ≠ 0 → ∀ r, trimmedLMoment t r (powerLaw p) = (∑ k ∈ Finset.range r, (-1 : ℝ) ^ k *
      (r - 1).choose k * (((r + t - k - 1 + p).factorial : ℝ) * (r + 2 * t).factorial /
        ((r + t - k - 1).factorial * (r + 2 * t + p).factorial))) / r := fun p hp r => by
    rw [trimmedLMoment]
    congr 1
    refine Finset.sum_congr rfl fun k hk => ?_
    have := Finset.mem_range.1 hk
    rw [powerLaw_order hp (by omega) (by omega)]
  rcases ht with rfl | rfl | rfl <;>
  · simp only [trimmedIndex, key 1 one_ne_zero, key 2 two_ne_zero, Finset.sum_range_succ, Finset.sum_range_zero, lMomentNull]
    norm_num [Nat.factorial, Nat.choose]

/-- The hypotheses are met: uniform observations and their squares give different values, so that at least one of the two
laws is detected. -/
theorem trimmed_detects (m : ℝ) {v : ℝ} (hv : 0 < v) : ∀ s ∈ [NormStat.hosking2, NormStat.hosking3, NormStat.hosking4],
    Consistent (s.statistic scipyNorm "" none) (powerLaw 1) (gaussianReal m v.toNNReal) ∨
    Consistent (s.statistic scipyNorm "" none) (powerLaw 2) (gaussianReal m v.toNNReal) := by
  obtain ⟨G, -, -, h⟩ := C137_hosking_trimmed "" none generatorClasses (List.Perm.refl _) m hv
  have a := h _ inferInstance (powerLaw_continuous one_ne_zero) (powerLaw_integrable 1)
  have b := h _ inferInstance (powerLaw_continuous two_ne_zero) (powerLaw_integrable 2)
  have i1 := powerLaw_index (t := 1) (by simp)
  have i2 := powerLaw_index (t := 2) (by simp)
  have i3 := powerLaw_index (t := 3) (by simp)
  intro s hs
  simp only [List.mem_cons, List.not_mem_nil, or_false] at hs
  rcases hs with rfl | rfl | rfl
  · by_cases e : trimmedIndex 1 (powerLaw 1) = trimmedIndex 1 (gaussianReal m v.toNNReal)
    · exact Or.inr (b.1 (by rw [← e]; exact i1.ne'))
    · exact Or.inl (a.1 e)
  · by_cases e : trimmedIndex 2 (powerLaw 1) = trimmedIndex 2 (gaussianReal m v.toNNReal)
    · exact Or.inr (b.2.1 (by rw [← e]; exact i2.ne'))
    · exact Or.inl (a.2.1 e)
  · by_cases e : trimmedIndex 3 (powerLaw 1) = trimmedIndex 3 (gaussianReal m v.toNNReal)
    · exact Or.inr (b.2.2 (by rw [← e]; exact i3.ne'))
    · exact Or.inl (a.2.2 e)

end Pysatl.Props
