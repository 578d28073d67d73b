import Verif.Lemmas.WeakConvergence
import Verif.Props.ConsistencyExponential
import Verif.Props.ExponMoments
import Verif.Props.CalibrationSimple
import Verif.Lemmas.StandardLaws
import Verif.Spec.Ageing

/-! # C136: what the criteria of exponentiality that count pairs and triples detect when the sample grows -/

namespace Pysatl.Props

open Pysatl.Decision Pysatl.Resolver Pysatl.Spec Pysatl.Edf Pysatl.Graph Pysatl.Gen Pysatl.Exponent
open MeasureTheory ProbabilityTheory Filter Topology

/-! ### Boundaries -/

theorem null_graph {α : Type} [MeasurableSpace α] {ν : Measure α} {μ : Measure ℝ} [SFinite ν] [SFinite μ] [NullSingletonClass μ]
    {h : α → ℝ} (hh : Measurable h) : ν.prod μ {q | h q.1 = q.2} = 0 := by
  rw [Measure.prod_apply (measurableSet_eq_fun (by fun_prop) (by fun_prop))]
  have : ∀ x, μ (Prod.mk x ⁻¹' {q : α × ℝ | h q.1 = q.2}) = 0 := fun x => by
    have e : Prod.mk x ⁻¹' {q : α × ℝ | h q.1 = q.2} = {h x} := by
      ext y
      simp [eq_comm]
    rw [e, measure_singleton]
  simp [this]

theorem null_graph' {μ ν : Measure ℝ} [SFinite ν] [SFinite μ] [NullSingletonClass μ] {h : ℝ → ℝ} (hh : Measurable h) :
    μ.prod ν {q | h q.2 = q.1} = 0 := by
  rw [← Measure.prod_swap, Measure.map_apply measurable_swap (measurableSet_eq_fun (by fun_prop) (by fun_prop))]
  exact null_graph (ν := ν) (μ := μ) hh

/-! ### Deshpande -/

theorem at_ofFn {n : ℕ} (x : Fin n → ℝ) (i : Fin n) : at_ (List.ofFn x) i = x i := by
  simp [at_, List.getD_eq_getElem?_getD]

section
variable (code : String) (params : Option (List (String × ℝ)))

open Classical in
theorem desCount_le (b : ℝ) {n : ℕ} (x : Fin n → ℝ) :
    (desCount b (List.ofFn x) : ℝ) ≤ ∑ i, ∑ k, (if b * x k < x i then (1 : ℝ) else 0) ∧
    ∑ i, ∑ k, (if b * x k < x i then (1 : ℝ) else 0) ≤ desCount b (List.ofFn x) + n := by
  have e : (desCount b (List.ofFn x) : ℝ) = ∑ i : Fin n, ∑ k : Fin n, if i ≠ k ∧ b * x k < x i then (1 : ℝ) else 0 := by
    simp only [desCount, List.length_ofFn, Finset.sum_range, at_ofFn, Nat.cast_sum, Nat.cast_ite, Nat.cast_one,
      Nat.cast_zero, ne_eq, Fin.val_inj]
  rw [e]
  constructor
  · refine Finset.sum_le_sum fun i _ => Finset.sum_le_sum fun k _ => ?_
    by_cases h : b * x k < x i
    · simp only [h, and_true, if_true]
      split <;> simp
    · simp [h]
  · have : ∀ i : Fin n, ∑ k, (if b * x k < x i then (1 : ℝ) else 0) ≤
        (∑ k, if i ≠ k ∧ b * x k < x i then (1 : ℝ) else 0) + 1 := fun i => by
      have h1 : ∑ k, (if k = i then (1 : ℝ) else 0) = 1 := by simp
      rw [← h1, ← Finset.sum_add_distrib]
      refine Finset.sum_le_sum fun k _ => ?_
      by_cases h : b * x k < x i
      · by_cases hk : k = i
        · rw [if_pos h, if_pos hk]
          split <;> simp
        · simp [h, hk, Ne.symm hk]
      · simp only [h, and_false, if_false, zero_add]
        split <;> simp
    refine (Finset.sum_le_sum fun i _ => this i).trans ?_
    rw [Finset.sum_add_distrib]
    simp

/-- Counts that miss few of the pairs or triples have the same limits. -/
theorem count_limit {C V d : ℕ → ℝ} {k : ℕ} {r l : ℝ} (hV : Tendsto (fun n => V n / (n : ℝ) ^ (k + 1)) atTop (𝓝 l))
    (hd : Tendsto (fun n => d n / (n : ℝ) ^ (k + 1)) atTop (𝓝 1)) (h1 : ∀ᶠ n in atTop, C n ≤ V n)
    (h2 : ∀ᶠ n in atTop, V n ≤ C n + r * (n : ℝ) ^ k) : Tendsto (fun n => C n / d n) atTop (𝓝 l) := by
  have hr : Tendsto (fun n : ℕ => V n / (n : ℝ) ^ (k + 1) - r * (n : ℝ)⁻¹) atTop (𝓝 l) := by
    have := hV.sub (tendsto_inv_atTop_nhds_zero_nat.const_mul r)
    rwa [mul_zero, sub_zero] at this
  have hC : Tendsto (fun n => C n / (n : ℝ) ^ (k + 1)) atTop (𝓝 l) := by
    refine tendsto_of_tendsto_of_tendsto_of_le_of_le' hr hV ?_ ?_
    · filter_upwards [h2, eventually_gt_atTop 0] with n hn h0
      have h0' : (0 : ℝ) < n := by exact_mod_cast h0
      have e : r * (n : ℝ)⁻¹ = r * (n : ℝ) ^ k / (n : ℝ) ^ (k + 1) := by rw [pow_succ]; field_simp
      rw [e, ← sub_div]
      exact div_le_div_of_nonneg_right (by linarith) (by positivity)
    · filter_upwards [h1] with n hn
      exact div_le_div_of_nonneg_right hn (by positivity)
  have := hC.div hd one_ne_zero
  rw [div_one] at this
  refine this.congr' ?_
  filter_upwards [eventually_gt_atTop 0] with n h0
  have h0' : (n : ℝ) ^ (k + 1) ≠ 0 := pow_ne_zero _ (by exact_mod_cast h0.ne')
  show C n / _ / (d n / _) = _
  rw [div_div_div_cancel_right₀ h0']

theorem deshpande_settles (b : ℝ) {Q : Measure ℝ} [IsProbabilityMeasure Q] [NullSingletonClass Q] :
    ValueSettles ((ExpStat.deshpande b).statistic code params) (fun _ x => x) Q ((Q.prod Q).real {p | b * p.2 < p.1}) := by
  have hE : MeasurableSet {p : ℝ × ℝ | b * p.2 < p.1} := measurableSet_lt (by fun_prop) (by fun_prop)
  have h0 : Q.prod Q (frontier {p : ℝ × ℝ | b * p.2 < p.1}) = 0 := by
    refine measure_mono_null (frontier_lt_subset_eq (by fun_prop) (by fun_prop)) ?_
    exact null_graph' (h := fun y => b * y) (by fun_prop)
  classical
  filter_upwards [pairs_settle h0] with ω h
  refine ⟨fun n => (desCount b (List.ofFn (firsts n ω)) : ℝ) / (n * (n - 1)), ?_, ?_⟩
  · refine count_limit (k := 1) (r := 1)
      (V := fun n => ∑ i, ∑ k, if b * firsts n ω k < firsts n ω i then (1 : ℝ) else 0) ?_ ?_ ?_ ?_
    · refine h.congr' ?_
      filter_upwards [eventually_gt_atTop 0] with n hn
      rw [prod_empirical hn _ hE]
      rfl
    · have c : ContinuousAt (fun u : ℝ => 1 - u) 0 := by fun_prop
      have := (c.tendsto.comp tendsto_inv_atTop_nhds_zero_nat)
      rw [sub_zero] at this
      refine this.congr' ?_
      filter_upwards [eventually_gt_atTop 0] with n hn
      have h1 : (n : ℝ) ≠ 0 := by exact_mod_cast hn.ne'
      simp only [Function.comp]
      field_simp
      ring
    · exact .of_forall fun n => (desCount_le b (firsts n ω)).1
    · exact .of_forall fun n => by simpa using (desCount_le b (firsts n ω)).2
  · filter_upwards [eventually_gt_atTop 1] with n hn
    show (ExpStat.deshpande b).value (List.ofFn (firsts n ω)) = _
    simp only [ExpStat.value, Exponent.deshpande, List.length_ofFn, if_neg (show ¬ n ≤ 1 by omega)]

/-! ### Hollander and Proschan -/

open Classical in
theorem hpCount_le {n : ℕ} (x : Fin n → ℝ) :
    (2 * hpCount (List.ofFn x) : ℝ) ≤ ∑ i, ∑ j, ∑ k, (if x j + x k < x i then (1 : ℝ) else 0) ∧
    ∑ i, ∑ j, ∑ k, (if x j + x k < x i then (1 : ℝ) else 0) ≤ 2 * hpCount (List.ofFn x) + 3 * (n : ℝ) ^ 2 := by
  have e1 : (hpCount (List.ofFn x) : ℝ) = ∑ i : Fin n, ∑ j : Fin n, ∑ k : Fin n,
      if i ≠ j ∧ i ≠ k ∧ j < k ∧ x j + x k < x i then (1 : ℝ) else 0 := by
    simp only [hpCount, List.length_ofFn, Finset.sum_range, at_ofFn, Nat.cast_sum, Nat.cast_ite, Nat.cast_one,
      Nat.cast_zero, ne_eq, Fin.val_inj, Fin.val_fin_lt]
  have e : (2 * hpCount (List.ofFn x) : ℝ) = ∑ i : Fin n, ∑ j : Fin n, ∑ k : Fin n,
      if i ≠ j ∧ i ≠ k ∧ j ≠ k ∧ x j + x k < x i then (1 : ℝ) else 0 := by
    rw [e1, two_mul, ← Finset.sum_add_distrib]
    refine Finset.sum_congr rfl fun i _ => ?_
    have : ∑ j : Fin n, ∑ k : Fin n, (if i ≠ j ∧ i ≠ k ∧ j < k ∧ x j + x k < x i then (1 : ℝ) else 0) =
        ∑ j : Fin n, ∑ k : Fin n, (if i ≠ j ∧ i ≠ k ∧ k < j ∧ x j + x k < x i then (1 : ℝ) else 0) := by
      rw [Finset.sum_comm]
      refine Finset.sum_congr rfl fun j _ => Finset.sum_congr rfl fun k _ => if_congr ?_ rfl rfl
      rw [add_comm (x k)]
      tauto
    conv_lhs => rw [this]
    conv_lhs => enter [2]; rw [← this]
    rw [← Finset.sum_add_distrib]
    refine Finset.sum_congr rfl fun j _ => ?_
    rw [← Finset.sum_add_distrib]
    refine Finset.sum_congr rfl fun k _ => ?_
    rcases lt_trichotomy j k with h | h | h
    · simp [h, h.ne, h.not_gt]
    · simp [h]
    · simp [h, h.ne', h.not_gt]
  rw [e]
  constructor
  · refine Finset.sum_le_sum fun i _ => Finset.sum_le_sum fun j _ => Finset.sum_le_sum fun k _ => ?_
    by_cases h : x j + x k < x i
    · simp only [h, and_true, if_true]
      split <;> simp
    · simp [h]
  · have h3 : 3 * (n : ℝ) ^ 2 = ∑ i : Fin n, ∑ j : Fin n, ∑ k : Fin n,
        ((if i = j then (1 : ℝ) else 0) + (if i = k then (1 : ℝ) else 0) + (if j = k then (1 : ℝ) else 0)) := by
      simp [Finset.sum_add_distrib]
      ring
    rw [h3, ← Finset.sum_add_distrib]
    refine Finset.sum_le_sum fun i _ => ?_
    rw [← Finset.sum_add_distrib]
    refine Finset.sum_le_sum fun j _ => ?_
    rw [← Finset.sum_add_distrib]
    refine Finset.sum_le_sum fun k _ => ?_
    have h0 : ∀ (p : Prop) [Decidable p], (0 : ℝ) ≤ if p then 1 else 0 := fun p _ => by split <;> norm_num
    have h01 : ∀ (p : Prop) [Decidable p], (if p then (1 : ℝ) else 0) ≤ 1 := fun p _ => by split <;> norm_num
    by_cases h1 : i = j
    · rw [if_pos h1]
      linarith [h0 (i ≠ j ∧ i ≠ k ∧ j ≠ k ∧ x j + x k < x i), h0 (i = k), h0 (j = k), h01 (x j + x k < x i)]
    by_cases h2 : i = k
    · rw [if_pos h2]
      linarith [h0 (i ≠ j ∧ i ≠ k ∧ j ≠ k ∧ x j + x k < x i), h0 (i = j), h0 (j = k), h01 (x j + x k < x i)]
    by_cases h3 : j = k
    · rw [if_pos h3]
      linarith [h0 (i ≠ j ∧ i ≠ k ∧ j ≠ k ∧ x j + x k < x i), h0 (i = j), h0 (i = k), h01 (x j + x k < x i)]
    simp [h1, h2, h3]

theorem hollanderProschan_settles {Q : Measure ℝ} [IsProbabilityMeasure Q] [NullSingletonClass Q] :
    ValueSettles (ExpStat.hollanderProschan.statistic code params) (fun _ x => x) Q
      (((Q.prod Q).prod Q).real {q | q.1.1 + q.1.2 < q.2}) := by
  have hE : MeasurableSet {q : (ℝ × ℝ) × ℝ | q.1.1 + q.1.2 < q.2} := measurableSet_lt (by fun_prop) (by fun_prop)
  have h0 : (Q.prod Q).prod Q (frontier {q : (ℝ × ℝ) × ℝ | q.1.1 + q.1.2 < q.2}) = 0 := by
    refine measure_mono_null (frontier_lt_subset_eq (by fun_prop) (by fun_prop)) ?_
    exact null_graph (h := fun p : ℝ × ℝ => p.1 + p.2) (by fun_prop)
  classical
  filter_upwards [triples_settle h0] with ω h
  refine ⟨fun n => (2 * hpCount (List.ofFn (firsts n ω)) : ℝ) / (n * (n - 1) * (n - 2)), ?_, ?_⟩
  · refine count_limit (k := 2) (r := 3)
      (V := fun n => ∑ i, ∑ j, ∑ k, if firsts n ω j + firsts n ω k < firsts n ω i then (1 : ℝ) else 0) ?_ ?_ ?_ ?_
    · refine h.congr' ?_
      filter_upwards [eventually_gt_atTop 0] with n hn
      rw [prod3_empirical hn _ hE]
      rfl
    · have c : ContinuousAt (fun u : ℝ => (1 - u) * (1 - 2 * u)) 0 := by fun_prop
      have := (c.tendsto.comp tendsto_inv_atTop_nhds_zero_nat)
      rw [sub_zero, mul_zero, sub_zero, mul_one] at this
      refine this.congr' ?_
      filter_upwards [eventually_gt_atTop 0] with n hn
      have h1 : (n : ℝ) ≠ 0 := by exact_mod_cast hn.ne'
      simp only [Function.comp]
      field_simp
      ring
    · exact .of_forall fun n => (hpCount_le (firsts n ω)).1
    · exact .of_forall fun n => (hpCount_le (firsts n ω)).2
  · filter_upwards [eventually_gt_atTop 2] with n hn
    show ExpStat.hollanderProschan.value (List.ofFn (firsts n ω)) = _
    simp only [ExpStat.value, Exponent.hollanderProschan, List.length_ofFn, if_neg (show ¬ n ≤ 2 by omega)]
    rw [div_mul_eq_mul_div]

/-! ### Ahsanullah -/

theorem ahsanullah_settles {Q : Measure ℝ} [IsProbabilityMeasure Q] [NullSingletonClass Q] :
    ValueSettles (ExpStat.ahsanullah.statistic code params) (fun _ x => x) Q
      (((Q.prod Q).prod Q).real {q | |q.1.1 - q.1.2| < q.2} - ((Q.prod Q).prod Q).real {q | 2 * min q.1.1 q.1.2 < q.2}) := by
  have hE : MeasurableSet {q : (ℝ × ℝ) × ℝ | |q.1.1 - q.1.2| < q.2} := measurableSet_lt (by fun_prop) (by fun_prop)
  have hF : MeasurableSet {q : (ℝ × ℝ) × ℝ | 2 * min q.1.1 q.1.2 < q.2} := measurableSet_lt (by fun_prop) (by fun_prop)
  have h1 : (Q.prod Q).prod Q (frontier {q : (ℝ × ℝ) × ℝ | |q.1.1 - q.1.2| < q.2}) = 0 := by
    refine measure_mono_null (frontier_lt_subset_eq (by fun_prop) (by fun_prop)) ?_
    exact null_graph (h := fun p : ℝ × ℝ => |p.1 - p.2|) (by fun_prop)
  have h2 : (Q.prod Q).prod Q (frontier {q : (ℝ × ℝ) × ℝ | 2 * min q.1.1 q.1.2 < q.2}) = 0 := by
    refine measure_mono_null (frontier_lt_subset_eq (by fun_prop) (by fun_prop)) ?_
    exact null_graph (h := fun p : ℝ × ℝ => 2 * min p.1 p.2) (by fun_prop)
  classical
  filter_upwards [triples_settle h1, triples_settle h2] with ω a b
  refine ⟨_, a.sub b, ?_⟩
  filter_upwards [eventually_gt_atTop 0] with n hn
  show ExpStat.ahsanullah.value (List.ofFn (firsts n ω)) = _
  simp only [ExpStat.value, Exponent.ahsanullah, List.length_ofFn, if_neg (show ¬ n = 0 by omega)]
  rw [prod3_empirical hn _ hE, prod3_empirical hn _ hF, ← sub_div]
  congr 2
  simp only [ahsH, ahsG, List.length_ofFn, Finset.sum_range, at_ofFn, Nat.cast_sum, Nat.cast_ite, Nat.cast_one,
    Nat.cast_zero]
  rfl

end

/-! ### Tails -/

section
variable {Q : Measure ℝ} [IsProbabilityMeasure Q] [NullSingletonClass Q]

theorem tail_eq (x : ℝ) : tail Q x = 1 - cdf Q x := by
  rw [tail, ← Set.compl_Iic, probReal_compl_eq_one_sub measurableSet_Iic, ← cdf_eq_real]

theorem tail_measurable : Measurable (tail Q) := by
  have : tail Q = fun x => 1 - cdf Q x := funext tail_eq
  rw [this]
  exact ((continuous_cdf Q).measurable).const_sub 1

theorem tail_le_one (x : ℝ) : tail Q x ≤ 1 := measureReal_le_one

theorem tail_nonneg (x : ℝ) : 0 ≤ tail Q x := measureReal_nonneg

theorem tail_pos : ∀ᵐ x ∂Q, 0 < tail Q x := by
  filter_upwards [ae_cdf_inner (continuous_cdf Q) (fun _ => rfl)] with x hx
  rw [tail_eq]
  linarith [hx.2]

theorem tail_integrable {α : Type} [MeasurableSpace α] {ν : Measure α} [IsFiniteMeasure ν] {h : α → ℝ} (hh : Measurable h) :
    Integrable (fun a => tail Q (h a)) ν :=
  Integrable.of_bound (C := 1) (tail_measurable.comp hh).aestronglyMeasurable
    (ae_of_all _ fun a => by rw [Real.norm_of_nonneg (tail_nonneg _)]; exact tail_le_one _)

/-- The tail at an observation is uniform on the unit interval. -/
theorem tail_power {c : ℝ} (hc : 0 ≤ c) : ∫ x, tail Q x ^ c ∂Q = 1 / (1 + c) := by
  have h := map_cdf (μ := Q) (continuous_cdf Q) (fun _ => rfl)
  have e : ∫ x, tail Q x ^ c ∂Q = ∫ u, (1 - u) ^ c ∂unitLaw := by
    rw [← h, integral_map (continuous_cdf Q).measurable.aemeasurable (by fun_prop)]
    simp only [tail_eq]
  rw [e]
  have e2 : unitLaw = uniformLaw 0 1 := rfl
  rw [e2, uniform_integral one_pos]
  rw [intervalIntegral.integral_comp_sub_left (fun u : ℝ => u ^ c) (a := 0) (b := 1) 1, sub_self, sub_zero,
    integral_rpow (Or.inl (by linarith)), Real.one_rpow, Real.zero_rpow (by linarith), sub_zero, div_one, add_comm]

theorem tail_mean : ∫ x, tail Q x ∂Q = 1 / 2 := by
  have := tail_power (Q := Q) zero_le_one
  simp only [Real.rpow_one] at this
  rw [this]
  norm_num

omit [NullSingletonClass Q] in
theorem deshpande_tail (b : ℝ) : (Q.prod Q).real {p | b * p.2 < p.1} = ∫ y, tail Q (b * y) ∂Q := by
  rw [real_prod_symm (measurableSet_lt (by fun_prop) (by fun_prop))]
  rfl

omit [NullSingletonClass Q] in
theorem proschan_tail : ((Q.prod Q).prod Q).real {q | q.1.1 + q.1.2 < q.2} = ∫ p, tail Q (p.1 + p.2) ∂Q.prod Q := by
  rw [real_prod (measurableSet_lt (by fun_prop) (by fun_prop))]
  rfl

theorem tail_square : ∫ p, tail Q p.1 * tail Q p.2 ∂Q.prod Q = 1 / 4 := by
  rw [integral_prod_mul (fun x => tail Q x) (fun x => tail Q x), tail_mean]
  norm_num

/-- Of three observations that are all positive, `|X - Y| < Z` unless one of `X`, `Y` is the sum of the other and `Z`
or more. -/
theorem difference_tail (hpos : ∀ᵐ x ∂Q, 0 < x) : ((Q.prod Q).prod Q).real {q | |q.1.1 - q.1.2| < q.2} =
    1 - 2 * ((Q.prod Q).prod Q).real {q | q.1.1 + q.1.2 < q.2} := by
  set S : Set ((ℝ × ℝ) × ℝ) := {q | q.1.1 + q.1.2 ≤ q.2} with hS
  have hSm : MeasurableSet S := measurableSet_le (by fun_prop) (by fun_prop)
  have e0 : ((Q.prod Q).prod Q).real {q | q.1.1 + q.1.2 < q.2} = ((Q.prod Q).prod Q).real S := by
    refine measureReal_congr ?_
    have h0 : ∀ᵐ q ∂(Q.prod Q).prod Q, ¬ q.1.1 + q.1.2 = q.2 := by
      rw [ae_iff]
      simpa only [not_not] using null_graph (ν := Q.prod Q) (μ := Q) (h := fun p : ℝ × ℝ => p.1 + p.2) (by fun_prop)
    filter_upwards [h0] with q hq
    refine propext ⟨fun h : q.1.1 + q.1.2 < q.2 => h.le, fun h : q.1.1 + q.1.2 ≤ q.2 => lt_of_le_of_ne h hq⟩
  have f1 : MeasurePreserving (fun q : (ℝ × ℝ) × ℝ => ((q.1.2, q.2), q.1.1)) ((Q.prod Q).prod Q) ((Q.prod Q).prod Q) :=
    (Measure.measurePreserving_swap (μ := Q) (ν := Q.prod Q)).comp (measurePreserving_prodAssoc Q Q Q)
  have f2 : MeasurePreserving (fun q : (ℝ × ℝ) × ℝ => ((q.1.1, q.2), q.1.2)) ((Q.prod Q).prod Q) ((Q.prod Q).prod Q) :=
    f1.comp ((Measure.measurePreserving_swap (μ := Q) (ν := Q)).prod (MeasurePreserving.id Q))
  set A := (fun q : (ℝ × ℝ) × ℝ => ((q.1.2, q.2), q.1.1)) ⁻¹' S with hA
  set B := (fun q : (ℝ × ℝ) × ℝ => ((q.1.1, q.2), q.1.2)) ⁻¹' S with hB
  have eA : ((Q.prod Q).prod Q).real A = ((Q.prod Q).prod Q).real S := by
    rw [measureReal_def, f1.measure_preimage hSm.nullMeasurableSet]; rfl
  have eB : ((Q.prod Q).prod Q).real B = ((Q.prod Q).prod Q).real S := by
    rw [measureReal_def, f2.measure_preimage hSm.nullMeasurableSet]; rfl
  have hz : ∀ᵐ q ∂(Q.prod Q).prod Q, 0 < q.2 := Measure.quasiMeasurePreserving_snd.ae hpos
  have hAB : AEDisjoint ((Q.prod Q).prod Q) A B := by
    refine measure_mono_null ?_ (ae_iff.1 hz)
    rintro q ⟨h1 : q.1.2 + q.2 ≤ q.1.1, h2 : q.1.1 + q.2 ≤ q.1.2⟩
    show ¬ 0 < q.2
    linarith
  have eU : ((Q.prod Q).prod Q).real (A ∪ B)ᶜ = ((Q.prod Q).prod Q).real {q | |q.1.1 - q.1.2| < q.2} := by
    refine congrArg _ ?_
    ext q
    show ¬ (q.1.2 + q.2 ≤ q.1.1 ∨ q.1.1 + q.2 ≤ q.1.2) ↔ |q.1.1 - q.1.2| < q.2
    rw [abs_lt]
    push Not
    constructor <;> rintro ⟨h1, h2⟩ <;> constructor <;> linarith
  rw [← eU, probReal_compl_eq_one_sub ((f1.measurable hSm).union (f2.measurable hSm)),
    measureReal_union₀' (f1.measurable hSm).nullMeasurableSet hAB, eA, eB, e0]
  ring

theorem minimum_tail : ((Q.prod Q).prod Q).real {q | 2 * min q.1.1 q.1.2 < q.2} = 1 - ∫ z, tail Q (z / 2) ^ 2 ∂Q := by
  rw [real_prod_symm (measurableSet_lt (by fun_prop) (by fun_prop))]
  have e : ∀ z, (Q.prod Q).real {p | (p, z) ∈ {q : (ℝ × ℝ) × ℝ | 2 * min q.1.1 q.1.2 < q.2}} = 1 - tail Q (z / 2) ^ 2 :=
      fun z => by
    have h1 : {p : ℝ × ℝ | (p, z) ∈ {q : (ℝ × ℝ) × ℝ | 2 * min q.1.1 q.1.2 < q.2}} =
        (Set.Ici (z / 2) ×ˢ Set.Ici (z / 2))ᶜ := by
      ext p
      simp only [Set.mem_ofPred_eq, Set.mem_compl_iff, Set.mem_prod, Set.mem_Ici, ← le_min_iff, not_le]
      constructor <;> intro h <;> linarith
    have h2 : Q.real (Set.Ici (z / 2)) = tail Q (z / 2) := measureReal_congr Ioi_ae_eq_Ici.symm
    rw [h1, probReal_compl_eq_one_sub (measurableSet_Ici.prod measurableSet_Ici), measureReal_prod_prod, h2, sq]
  simp only [e]
  rw [integral_sub (integrable_const _) ?_]
  · simp
  · refine Integrable.of_bound (C := 1) ((tail_measurable.comp (measurable_id.div_const 2)).pow_const 2).aestronglyMeasurable
      (ae_of_all _ fun a => ?_)
    rw [Real.norm_of_nonneg (sq_nonneg _)]
    exact pow_le_one₀ (tail_nonneg _) (tail_le_one _)

/-! ### Ageing -/

theorem lt_integral {α : Type} [MeasurableSpace α] {ν : Measure α} [IsProbabilityMeasure ν] {f g : α → ℝ}
    (hf : Integrable f ν) (hg : Integrable g ν) (h : ∀ᵐ a ∂ν, f a < g a) : ∫ a, f a ∂ν < ∫ a, g a ∂ν := by
  refine lt_of_le_of_ne (integral_mono_ae hf hg (h.mono fun a ha => ha.le)) fun he => ?_
  have h0 : ∫ a, (g - f) a ∂ν = 0 := by
    rw [integral_sub' hg hf, he, sub_self]
  have h1 := (integral_eq_zero_iff_of_nonneg_ae (h.mono fun a ha => by simpa using ha.le) (hg.sub hf)).1 h0
  obtain ⟨a, ha, hb⟩ := (h.and h1).exists
  simp only [Pi.sub_apply, Pi.zero_apply] at hb
  linarith

variable (hpos : ∀ᵐ x ∂Q, 0 < x)
include hpos

theorem pair_ae : ∀ᵐ p ∂Q.prod Q, (0 < p.1 ∧ 0 < tail Q p.1) ∧ 0 < p.2 ∧ 0 < tail Q p.2 :=
  (Measure.quasiMeasurePreserving_fst.ae (hpos.and tail_pos)).and
    (Measure.quasiMeasurePreserving_snd.ae (hpos.and tail_pos))

theorem tail_mul_integrable : Integrable (fun p : ℝ × ℝ => tail Q p.1 * tail Q p.2) (Q.prod Q) :=
  (tail_integrable (h := fun x => x) measurable_id).mul_prod (tail_integrable (h := fun x => x) measurable_id)

theorem proschan_better (h : NewBetter Q) : ((Q.prod Q).prod Q).real {q | q.1.1 + q.1.2 < q.2} < 1 / 4 := by
  rw [proschan_tail, ← tail_square (Q := Q)]
  refine lt_integral (tail_integrable (by fun_prop)) (tail_mul_integrable hpos) ?_
  filter_upwards [pair_ae hpos] with p hp
  exact h _ _ hp.1.1 hp.2.1 hp.1.2 hp.2.2

theorem proschan_worse (h : NewWorse Q) : 1 / 4 < ((Q.prod Q).prod Q).real {q | q.1.1 + q.1.2 < q.2} := by
  rw [proschan_tail, ← tail_square (Q := Q)]
  refine lt_integral (tail_mul_integrable hpos) (tail_integrable (by fun_prop)) ?_
  filter_upwards [pair_ae hpos] with p hp
  exact h _ _ hp.1.1 hp.2.1 hp.1.2 hp.2.2

theorem half_integrable : Integrable (fun z => tail Q (z / 2) ^ 2) Q := by
  refine Integrable.of_bound (C := 1) ((tail_measurable.comp (measurable_id.div_const 2)).pow_const 2).aestronglyMeasurable
    (ae_of_all _ fun a => ?_)
  rw [Real.norm_of_nonneg (sq_nonneg _)]
  exact pow_le_one₀ (tail_nonneg _) (tail_le_one _)

theorem half_pos : ∀ᵐ z ∂Q, 0 < z / 2 ∧ 0 < tail Q (z / 2) := by
  filter_upwards [hpos, tail_pos (Q := Q)] with z h1 h2
  exact ⟨by linarith, h2.trans_le (measureReal_mono (Set.Ioi_subset_Ioi (by linarith)))⟩

theorem minimum_better (h : NewBetter Q) : ((Q.prod Q).prod Q).real {q | 2 * min q.1.1 q.1.2 < q.2} < 1 / 2 := by
  have : ∫ z, tail Q z ∂Q < ∫ z, tail Q (z / 2) ^ 2 ∂Q := by
    refine lt_integral (tail_integrable measurable_id) (half_integrable hpos) ?_
    filter_upwards [half_pos hpos] with z hz
    have := h _ _ hz.1 hz.1 hz.2 hz.2
    rwa [add_halves, ← sq] at this
  rw [minimum_tail]
  rw [tail_mean] at this
  linarith

theorem minimum_worse (h : NewWorse Q) : 1 / 2 < ((Q.prod Q).prod Q).real {q | 2 * min q.1.1 q.1.2 < q.2} := by
  have : ∫ z, tail Q (z / 2) ^ 2 ∂Q < ∫ z, tail Q z ∂Q := by
    refine lt_integral (half_integrable hpos) (tail_integrable measurable_id) ?_
    filter_upwards [half_pos hpos] with z hz
    have := h _ _ hz.1 hz.1 hz.2 hz.2
    rwa [add_halves, ← sq] at this
  rw [minimum_tail]
  rw [tail_mean] at this
  linarith

end

/-! ### Laws that age -/

theorem weibull_prob {k : ℝ} (hk : 0 < k) : IsProbabilityMeasure (weibullLaw 1 k) ∧
    ∀ x, 0 < x → tail (weibullLaw 1 k) x = Real.exp (-x ^ k) := by
  have e : weibullLaw 1 k = density fun x => if 0 < x then
      1 * k * (1 - Real.exp (-x ^ k)) ^ ((1 : ℝ) - 1) * Real.exp (-x ^ k) * x ^ (k - 1) else 0 := by
    rw [weibullLaw]
    congr 1
    funext x
    simp only [sub_self, Real.rpow_zero, div_one, mul_one]
    split_ifs <;> ring
  obtain ⟨h1, h2⟩ := exponweib_cdf one_pos hk
  rw [← e] at h1 h2
  refine ⟨h1, fun x hx => ?_⟩
  rw [tail, ← Set.compl_Iic, probReal_compl_eq_one_sub measurableSet_Iic, ← cdf_eq_real, h2, if_pos hx, Real.rpow_one]
  ring

instance (l k : ℝ) : NullSingletonClass (weibullLaw l k) := by unfold weibullLaw density; infer_instance

theorem weibull_pos {k : ℝ} (hk : 0 < k) : ∀ᵐ x ∂weibullLaw 1 k, 0 < x := by
  have := (weibull_prob hk).1
  have h : weibullLaw 1 k (Set.Iic 0) = 0 := by
    rw [weibullLaw, density, withDensity_apply _ measurableSet_Iic]
    refine (setLIntegral_congr_fun (g := fun _ => 0) measurableSet_Iic fun x hx => ?_).trans (by simp)
    simp [not_lt.2 (show x ≤ 0 from hx)]
  rw [ae_iff]
  simp only [not_lt]
  exact h

theorem rpow_split {x k : ℝ} (hx : 0 < x) : x ^ k = x * x ^ (k - 1) := by
  rw [Real.rpow_sub_one hx.ne', mul_div_cancel₀ _ hx.ne']

/-- The Weibull law with shape above 1: new is better than used. -/
theorem weibull_better {k : ℝ} (hk : 1 < k) : NewBetter (weibullLaw 1 k) := fun x y hx hy _ _ => by
  have h := (weibull_prob (zero_lt_one.trans hk)).2
  rw [h _ hx, h _ hy, h _ (add_pos hx hy), ← Real.exp_add, Real.exp_lt_exp]
  have h1 : x ^ (k - 1) < (x + y) ^ (k - 1) := Real.rpow_lt_rpow hx.le (by linarith) (by linarith)
  have h2 : y ^ (k - 1) < (x + y) ^ (k - 1) := Real.rpow_lt_rpow hy.le (by linarith) (by linarith)
  rw [rpow_split hx, rpow_split hy, rpow_split (add_pos hx hy)]
  nlinarith

/-- The Weibull law with shape below 1: new is worse than used. -/
theorem weibull_worse {k : ℝ} (hk : 0 < k) (hk1 : k < 1) : NewWorse (weibullLaw 1 k) := fun x y hx hy _ _ => by
  have h := (weibull_prob hk).2
  rw [h _ hx, h _ hy, h _ (add_pos hx hy), ← Real.exp_add, Real.exp_lt_exp]
  have h1 : (x + y) ^ (k - 1) < x ^ (k - 1) := Real.rpow_lt_rpow_of_neg hx (by linarith) (by linarith)
  have h2 : (x + y) ^ (k - 1) < y ^ (k - 1) := Real.rpow_lt_rpow_of_neg hy (by linarith) (by linarith)
  rw [rpow_split hx, rpow_split hy, rpow_split (add_pos hx hy)]
  nlinarith

/-- Uniform observations: new is better than used. -/
theorem uniform_better {b : ℝ} (hb : 0 < b) : NewBetter (uniformLaw 0 b) := fun x y hx hy h1 h2 => by
  have hpr := (cdf_uniformLaw hb).1
  have ht : ∀ x, 0 < x → tail (uniformLaw 0 b) x = max 0 (1 - x / b) := fun x hx => by
    rw [tail, ← Set.compl_Iic, probReal_compl_eq_one_sub measurableSet_Iic, ← cdf_eq_real, (cdf_uniformLaw hb).2,
      Uniform.uniformCdf, if_neg (not_le.2 hx), sub_zero, sub_zero]
    split_ifs with h
    · rw [max_eq_left (by rw [sub_nonpos, one_le_div hb]; exact h), sub_self]
    · rw [max_eq_right (by rw [sub_nonneg, div_le_one hb]; exact (not_le.1 h).le)]
  rw [ht _ hx] at h1
  rw [ht _ hy] at h2
  rw [ht _ hx, ht _ hy, ht _ (add_pos hx hy)]
  rcases lt_max_iff.1 h1 with h | h
  · exact absurd h (lt_irrefl _)
  rcases lt_max_iff.1 h2 with h' | h'
  · exact absurd h' (lt_irrefl _)
  rw [max_eq_right h.le, max_eq_right h'.le]
  refine max_lt (mul_pos h h') ?_
  have h3 : 0 < x / b := div_pos hx hb
  have h4 : 0 < y / b := div_pos hy hb
  rw [add_div]
  nlinarith

theorem deshpande_weibull {k b : ℝ} (hk : 0 < k) (hb : 0 < b) :
    ((weibullLaw 1 k).prod (weibullLaw 1 k)).real {p | b * p.2 < p.1} = 1 / (1 + b ^ k) := by
  have hpr := (weibull_prob hk).1
  rw [deshpande_tail, ← tail_power (Q := weibullLaw 1 k) (Real.rpow_nonneg hb.le k)]
  refine integral_congr_ae ?_
  filter_upwards [weibull_pos hk] with y hy
  have h := (weibull_prob hk).2
  rw [h _ hy, h _ (mul_pos hb hy), ← Real.exp_mul, Real.mul_rpow hb.le hy.le]
  ring_nf

/-! ### What the three criteria detect -/

section
variable (code : String) (params : Option (List (String × ℝ))) (classes : List GeneratorClass)
  (hp : classes.Perm generatorClasses)
include hp

/-- **C136, Deshpande**: let observations `X`, `Y` come from a law `Q` of positive numbers without atoms.  When `X > b Y`
is more probable than for exponential observations, the criterion detects `Q`; when it is less probable, the criterion
detects `Q` with a probability that tends to zero.  Missing: the second half is the failure of consistency; see
`C136_refuted_deshpande`. -/
theorem C136_deshpande_partial {r b : ℝ} (hr : 0 < r) (hb : 0 ≤ b) :
    ∃ G, (Gen.Family.exponential r).simulator classes = .ok G ∧ (∀ n, G.generate n = .ok (iid n (expMeasure r))) ∧
    ∀ Q : Measure ℝ, IsProbabilityMeasure Q → (∀ c, Q {c} = 0) →
      (1 / (1 + b) < (Q.prod Q).real {p | b * p.2 < p.1} →
        Consistent ((ExpStat.deshpande b).statistic code params) Q (expMeasure r)) ∧
      ((Q.prod Q).real {p | b * p.2 < p.1} < 1 / (1 + b) →
        Undetected ((ExpStat.deshpande b).statistic code params) Q (expMeasure r)) := by
  have hpr := isProbabilityMeasure_expMeasure hr
  obtain ⟨G, hG, hgen⟩ := simulates_all (f := .exponential r) fun n => C111_exponential classes hp r hr n
  refine ⟨G, hG, hgen, fun Q _ h0 => ?_⟩
  have : NullSingletonClass Q := ⟨h0⟩
  have hP := deshpande_settles code params b (Q := expMeasure r)
  rw [prob_mul_lt hr hb] at hP
  exact ⟨fun h => value_consistent (exponential_meas _ code params) (.of_forall fun _ => strictMono_id)
      (deshpande_settles code params b) hP (Or.inl ⟨(fun h => by cases h), h⟩),
    fun h => value_undetected (exponential_meas _ code params) (.of_forall fun _ => strictMono_id)
      (deshpande_settles code params b) hP (Or.inr ⟨rfl, h⟩)⟩

/-- **C136, Hollander and Proschan**: what lasts for more than the sum of two others, compared with the probability `1/4`
of this for exponential observations.  Missing: the second half is the failure of consistency; see
`C136_refuted_hollanderProschan`. -/
theorem C136_hollanderProschan_partial {r : ℝ} (hr : 0 < r) :
    ∃ G, (Gen.Family.exponential r).simulator classes = .ok G ∧ (∀ n, G.generate n = .ok (iid n (expMeasure r))) ∧
    ∀ Q : Measure ℝ, IsProbabilityMeasure Q → (∀ c, Q {c} = 0) →
      (1 / 4 < ((Q.prod Q).prod Q).real {q | q.1.1 + q.1.2 < q.2} →
        Consistent (ExpStat.hollanderProschan.statistic code params) Q (expMeasure r)) ∧
      (((Q.prod Q).prod Q).real {q | q.1.1 + q.1.2 < q.2} < 1 / 4 →
        Undetected (ExpStat.hollanderProschan.statistic code params) Q (expMeasure r)) := by
  have hpr := isProbabilityMeasure_expMeasure hr
  obtain ⟨G, hG, hgen⟩ := simulates_all (f := .exponential r) fun n => C111_exponential classes hp r hr n
  refine ⟨G, hG, hgen, fun Q _ h0 => ?_⟩
  have : NullSingletonClass Q := ⟨h0⟩
  have hP := hollanderProschan_settles code params (Q := expMeasure r)
  rw [(prob_add_lt hr).1] at hP
  exact ⟨fun h => value_consistent (exponential_meas _ code params) (.of_forall fun _ => strictMono_id)
      (hollanderProschan_settles code params) hP (Or.inl ⟨(fun h => by cases h), h⟩),
    fun h => value_undetected (exponential_meas _ code params) (.of_forall fun _ => strictMono_id)
      (hollanderProschan_settles code params) hP (Or.inr ⟨rfl, h⟩)⟩

/-- **C136, Ahsanullah**: `P(|X - Y| < Z)` compared with `P(2 min(X, Y) < Z)`, which are equal for exponential
observations.  Missing: the second half is the failure of consistency; see `C136_refuted_ahsanullah`. -/
theorem C136_ahsanullah_partial {r : ℝ} (hr : 0 < r) :
    ∃ G, (Gen.Family.exponential r).simulator classes = .ok G ∧ (∀ n, G.generate n = .ok (iid n (expMeasure r))) ∧
    ∀ Q : Measure ℝ, IsProbabilityMeasure Q → (∀ c, Q {c} = 0) →
      (((Q.prod Q).prod Q).real {q | 2 * min q.1.1 q.1.2 < q.2} < ((Q.prod Q).prod Q).real {q | |q.1.1 - q.1.2| < q.2} →
        Consistent (ExpStat.ahsanullah.statistic code params) Q (expMeasure r)) ∧
      (((Q.prod Q).prod Q).real {q | |q.1.1 - q.1.2| < q.2} < ((Q.prod Q).prod Q).real {q | 2 * min q.1.1 q.1.2 < q.2} →
        Undetected (ExpStat.ahsanullah.statistic code params) Q (expMeasure r)) := by
  have hpr := isProbabilityMeasure_expMeasure hr
  obtain ⟨G, hG, hgen⟩ := simulates_all (f := .exponential r) fun n => C111_exponential classes hp r hr n
  refine ⟨G, hG, hgen, fun Q _ h0 => ?_⟩
  have : NullSingletonClass Q := ⟨h0⟩
  have hP := ahsanullah_settles code params (Q := expMeasure r)
  rw [difference_tail (Expon.ae_pos hr), (prob_add_lt hr).1, prob_min_lt hr] at hP
  exact ⟨fun h => value_consistent (exponential_meas _ code params) (.of_forall fun _ => strictMono_id)
      (ahsanullah_settles code params) hP (Or.inl ⟨(fun h => by cases h), by linarith⟩),
    fun h => value_undetected (exponential_meas _ code params) (.of_forall fun _ => strictMono_id)
      (ahsanullah_settles code params) hP (Or.inr ⟨rfl, by linarith⟩)⟩

/-- **C136, Deshpande, refuted**: with `0 < b < 1`, of which the code documents the default `0.44`, the criterion detects
Weibull laws with shapes above 1 and with a probability that tends to zero Weibull laws with shapes below 1. -/
theorem C136_refuted_deshpande {r b k : ℝ} (hr : 0 < r) (hb : 0 < b) (hb1 : b < 1) (hk : 0 < k) :
    (1 < k → Consistent ((ExpStat.deshpande b).statistic code params) (weibullLaw 1 k) (expMeasure r)) ∧
    (k < 1 → Undetected ((ExpStat.deshpande b).statistic code params) (weibullLaw 1 k) (expMeasure r)) := by
  have hpr := (weibull_prob hk).1
  obtain ⟨_, _, _, h⟩ := C136_deshpande_partial code params classes hp hr hb.le
  have h1 := h _ hpr fun c => measure_singleton c
  rw [deshpande_weibull hk hb] at h1
  have hpw : 0 < b ^ k := Real.rpow_pos_of_pos hb k
  refine ⟨fun hk1 => h1.1 (one_div_lt_one_div_of_lt (by positivity) ?_),
    fun hk1 => h1.2 (one_div_lt_one_div_of_lt (by positivity) ?_)⟩
  · have := Real.rpow_lt_rpow_of_exponent_gt hb hb1 hk1
    rw [Real.rpow_one] at this
    linarith
  · have := Real.rpow_lt_rpow_of_exponent_gt hb hb1 hk1
    rw [Real.rpow_one] at this
    linarith

/-- **C136, Hollander and Proschan, refuted**: the criterion detects every law of positive numbers without atoms for
which new is worse than used, and with a probability that tends to zero every such law for which new is better than
used. -/
theorem C136_refuted_hollanderProschan {r : ℝ} (hr : 0 < r) {Q : Measure ℝ} [IsProbabilityMeasure Q]
    (h0 : ∀ c, Q {c} = 0) (hpos : ∀ᵐ x ∂Q, 0 < x) :
    (NewWorse Q → Consistent (ExpStat.hollanderProschan.statistic code params) Q (expMeasure r)) ∧
    (NewBetter Q → Undetected (ExpStat.hollanderProschan.statistic code params) Q (expMeasure r)) := by
  obtain ⟨_, _, _, h⟩ := C136_hollanderProschan_partial code params classes hp hr
  have : NullSingletonClass Q := ⟨h0⟩
  have h1 := h Q ‹_› h0
  exact ⟨fun hw => h1.1 (proschan_worse hpos hw), fun hw => h1.2 (proschan_better hpos hw)⟩

/-- **C136, Ahsanullah, refuted**: the other way around, the criterion detects every law of positive numbers without atoms
for which new is better than used, and with a probability that tends to zero every such law for which new is worse than
used. -/
theorem C136_refuted_ahsanullah {r : ℝ} (hr : 0 < r) {Q : Measure ℝ} [IsProbabilityMeasure Q]
    (h0 : ∀ c, Q {c} = 0) (hpos : ∀ᵐ x ∂Q, 0 < x) :
    (NewBetter Q → Consistent (ExpStat.ahsanullah.statistic code params) Q (expMeasure r)) ∧
    (NewWorse Q → Undetected (ExpStat.ahsanullah.statistic code params) Q (expMeasure r)) := by
  obtain ⟨_, _, _, h⟩ := C136_ahsanullah_partial code params classes hp hr
  have : NullSingletonClass Q := ⟨h0⟩
  have h1 := h Q ‹_› h0
  rw [difference_tail hpos] at h1
  exact ⟨fun hw => h1.1 (by linarith [proschan_better hpos hw, minimum_better hpos hw]),
    fun hw => h1.2 (by linarith [proschan_worse hpos hw, minimum_worse hpos hw])⟩

end

/-! ### The hypotheses are met -/

/-- Uniform observations escape the criterion of Hollander and Proschan and are found by that of Ahsanullah. -/
example : Undetected (ExpStat.hollanderProschan.statistic "" none) (uniformLaw 0 1) (expMeasure 2) ∧
    Consistent (ExpStat.ahsanullah.statistic "" none) (uniformLaw 0 1) (expMeasure 2) := by
  have hpr := (cdf_uniformLaw (zero_lt_one (α := ℝ))).1
  have h0 : ∀ c, uniformLaw 0 1 {c} = 0 := fun c => measure_singleton (μ := unitLaw) c
  exact ⟨(C136_refuted_hollanderProschan "" none _ (.refl _) two_pos h0 (uniform_pos one_pos)).2 (uniform_better one_pos),
    (C136_refuted_ahsanullah "" none _ (.refl _) two_pos h0 (uniform_pos one_pos)).1 (uniform_better one_pos)⟩

/-- Weibull observations with shape 1/2: the other way around. -/
example : Consistent (ExpStat.hollanderProschan.statistic "" none) (weibullLaw 1 (1 / 2)) (expMeasure 2) ∧
    Undetected (ExpStat.ahsanullah.statistic "" none) (weibullLaw 1 (1 / 2)) (expMeasure 2) ∧
    Undetected ((ExpStat.deshpande (11 / 25)).statistic "" none) (weibullLaw 1 (1 / 2)) (expMeasure 2) := by
  have hk : (0 : ℝ) < 1 / 2 := by norm_num
  have hpr := (weibull_prob hk).1
  have h0 : ∀ c, weibullLaw 1 (1 / 2) {c} = 0 := fun c => measure_singleton c
  exact ⟨(C136_refuted_hollanderProschan "" none _ (.refl _) two_pos h0 (weibull_pos hk)).1
      (weibull_worse hk (by norm_num)),
    (C136_refuted_ahsanullah "" none _ (.refl _) two_pos h0 (weibull_pos hk)).2 (weibull_worse hk (by norm_num)),
    (C136_refuted_deshpande "" none _ (.refl _) two_pos (by norm_num) (by norm_num) hk).2 (by norm_num)⟩

end Pysatl.Props
