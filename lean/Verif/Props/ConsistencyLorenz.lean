import Verif.Props.ConsistencyScores
import Verif.Lemmas.NoTiesEdf
import Mathlib.MeasureTheory.Integral.IntervalIntegral.FundThmCalculus

/-! # C136: Lorenz -/

namespace Pysatl.Props

open Pysatl.Decision Pysatl.Resolver Pysatl.Spec Pysatl.Edf Pysatl.Graph Pysatl.Gen Pysatl.Exponent
open MeasureTheory ProbabilityTheory Filter Topology

/-- One up to `a`, zero from `a + ε`, linear between. -/
noncomputable def ramp (a ε u : ℝ) : ℝ := max 0 (min 1 ((a + ε - u) / ε))

theorem ramp_continuous (a ε : ℝ) : Continuous (ramp a ε) := by unfold ramp; fun_prop

theorem ramp_unit (a ε u : ℝ) : 0 ≤ ramp a ε u ∧ ramp a ε u ≤ 1 :=
  ⟨le_max_left _ _, max_le zero_le_one (min_le_left _ _)⟩

theorem ramp_one {a ε u : ℝ} (hε : 0 < ε) (h : u ≤ a) : ramp a ε u = 1 := by
  have : 1 ≤ (a + ε - u) / ε := (one_le_div hε).2 (by linarith)
  rw [ramp, min_eq_left this, max_eq_right zero_le_one]

theorem ramp_zero {a ε u : ℝ} (hε : 0 < ε) (h : a + ε ≤ u) : ramp a ε u = 0 := by
  have : (a + ε - u) / ε ≤ 0 := div_nonpos_of_nonpos_of_nonneg (by linarith) hε.le
  rw [ramp, max_eq_left ((min_le_right _ _).trans this)]

theorem sum_take_ite (l : List ℝ) (k : ℕ) : (l.take k).sum = ∑ i : Fin l.length, if (i : ℕ) < k then l[i] else 0 := by
  rw [← sum_mapIdx l fun i x => if i < k then x else 0]
  induction l generalizing k with
  | nil => simp
  | cons a l ih =>
    cases k with
    | zero =>
      have := ih 0
      simp only [List.take_zero, List.sum_nil, Nat.not_lt_zero, if_false] at this
      simp [List.mapIdx_cons, ← this]
    | succ k => simp [List.mapIdx_cons, ih k]

section
variable {Q : Measure ℝ} [IsProbabilityMeasure Q] (hc : Continuous (cdf Q)) (hpos : ∀ᵐ x ∂Q, 0 < x)
  (hi : Integrable (fun x => x) Q)

include hc in
theorem level_null (p : ℝ) : ∀ᵐ x ∂Q, cdf Q x ≠ p := by
  have hu : Q.map (cdf Q) = unitLaw := by
    have := map_transform (P := Q) measurable_id hc fun x => by rw [cdf_eq_real]; rfl
    exact this
  have : ∀ᵐ u ∂Q.map (cdf Q), u ≠ p := by
    rw [hu]
    have : unitLaw {p} = 0 := measure_singleton p
    rw [ae_iff]
    simp [this]
  exact ae_of_ae_map hc.measurable.aemeasurable this

include hc hi in
theorem ramp_limit (p : ℝ) : Tendsto (fun k : ℕ => ∫ x, ramp (p + 1 / ((k : ℝ) + 1)) (1 / ((k : ℝ) + 1)) (cdf Q x) * x ∂Q) atTop
      (𝓝 (∫ x in {x | cdf Q x ≤ p}, x ∂Q)) ∧
    Tendsto (fun k : ℕ => ∫ x, ramp (p - 2 * (1 / ((k : ℝ) + 1))) (1 / ((k : ℝ) + 1)) (cdf Q x) * x ∂Q) atTop
      (𝓝 (∫ x in {x | cdf Q x ≤ p}, x ∂Q)) := by
  have hset : MeasurableSet {x | cdf Q x ≤ p} := hc.measurable measurableSet_Iic
  have hε : Tendsto (fun k : ℕ => 1 / ((k : ℝ) + 1)) atTop (𝓝 0) := tendsto_one_div_add_atTop_nhds_zero_nat
  have hε0 : ∀ k : ℕ, 0 < 1 / ((k : ℝ) + 1) := fun k => by positivity
  rw [← integral_indicator hset]
  have hb : ∀ a ε x, ‖ramp a ε (cdf Q x) * x‖ ≤ |x| := fun a ε x => by
    rw [Real.norm_eq_abs, abs_mul, abs_of_nonneg (ramp_unit _ _ _).1]
    exact mul_le_of_le_one_left (abs_nonneg x) (ramp_unit _ _ _).2
  have hm : ∀ a ε, AEStronglyMeasurable (fun x => ramp a ε (cdf Q x) * x) Q := fun a ε =>
    (((ramp_continuous a ε).comp hc).mul continuous_id).aestronglyMeasurable
  constructor
  · refine tendsto_integral_of_dominated_convergence (fun x => |x|) (fun k => hm _ _) hi.abs
      (fun k => .of_forall fun x => hb _ _ x) (.of_forall fun x => ?_)
    by_cases hx : cdf Q x ≤ p
    · rw [Set.indicator_of_mem (show x ∈ {x | cdf Q x ≤ p} from hx)]
      refine tendsto_const_nhds.congr fun k => ?_
      rw [ramp_one (hε0 k) (by linarith [hε0 k]), one_mul]
    · rw [Set.indicator_of_notMem (show x ∉ {x | cdf Q x ≤ p} from hx)]
      refine tendsto_const_nhds.congr' ?_
      filter_upwards [hε.eventually (gt_mem_nhds (show 0 < (cdf Q x - p) / 2 by linarith))] with k hk
      rw [ramp_zero (hε0 k) (by linarith), zero_mul]
  · refine tendsto_integral_of_dominated_convergence (fun x => |x|) (fun k => hm _ _) hi.abs
      (fun k => .of_forall fun x => hb _ _ x) ?_
    filter_upwards [level_null hc p] with x hne
    by_cases hx : cdf Q x ≤ p
    · rw [Set.indicator_of_mem (show x ∈ {x | cdf Q x ≤ p} from hx)]
      refine tendsto_const_nhds.congr' ?_
      have hlt := lt_of_le_of_ne hx hne
      filter_upwards [hε.eventually (gt_mem_nhds (show 0 < (p - cdf Q x) / 2 by linarith))] with k hk
      rw [ramp_one (hε0 k) (by linarith), one_mul]
    · rw [Set.indicator_of_notMem (show x ∉ {x | cdf Q x ≤ p} from hx)]
      refine tendsto_const_nhds.congr fun k => ?_
      rw [ramp_zero (hε0 k) (by linarith [hε0 k]), zero_mul]

include hc hpos hi in
/-- The sum of a growing part of the order statistics settles. -/
theorem head_settles {p : ℝ} {k : ℕ → ℕ} (hk : Tendsto (fun n => (k n : ℝ) / n) atTop (𝓝 p)) : ∀ᵐ ω ∂seqLaw Q,
    Tendsto (fun n => ((sort (List.ofFn (firsts n ω))).take (k n)).sum / n) atTop
      (𝓝 (∫ x in {x | cdf Q x ≤ p}, x ∂Q)) := by
  have hall : ∀ᵐ ω ∂seqLaw Q, ∀ j : ℕ,
      Tendsto (fun n => (∑ i : Fin (sort (List.ofFn (firsts n ω))).length,
        ramp (p + 1 / ((j : ℝ) + 1)) (1 / ((j : ℝ) + 1)) ((((i : ℕ) : ℝ) + 1) / (n + 1)) *
          (sort (List.ofFn (firsts n ω)))[i]) / n) atTop
        (𝓝 (∫ x, ramp (p + 1 / ((j : ℝ) + 1)) (1 / ((j : ℝ) + 1)) (cdf Q x) * x ∂Q)) ∧
      Tendsto (fun n => (∑ i : Fin (sort (List.ofFn (firsts n ω))).length,
        ramp (p - 2 * (1 / ((j : ℝ) + 1))) (1 / ((j : ℝ) + 1)) ((((i : ℕ) : ℝ) + 1) / (n + 1)) *
          (sort (List.ofFn (firsts n ω)))[i]) / n) atTop
        (𝓝 (∫ x, ramp (p - 2 * (1 / ((j : ℝ) + 1))) (1 / ((j : ℝ) + 1)) (cdf Q x) * x ∂Q)) := by
    refine ae_all_iff.2 fun j => ?_
    filter_upwards [scores_settle hc hpos hi (ramp_continuous (p + 1 / ((j : ℝ) + 1)) (1 / ((j : ℝ) + 1))),
      scores_settle hc hpos hi (ramp_continuous (p - 2 * (1 / ((j : ℝ) + 1))) (1 / ((j : ℝ) + 1)))] with ω a b
    exact ⟨a, b⟩
  have hk' : Tendsto (fun n => (k n : ℝ) / (n + 1)) atTop (𝓝 p) := by
    have h1 : Tendsto (fun n : ℕ => (n : ℝ) / (n + 1)) atTop (𝓝 1) := tendsto_natCast_div_add_atTop 1
    have := hk.mul h1
    rw [mul_one] at this
    refine this.congr' ?_
    filter_upwards [eventually_gt_atTop 0] with n hn
    have : (n : ℝ) ≠ 0 := by exact_mod_cast hn.ne'
    field_simp
  filter_upwards [hall, seq_ae hpos] with ω h h4
  have hxpos : ∀ n (i : Fin (sort (List.ofFn (firsts n ω))).length), 0 < (sort (List.ofFn (firsts n ω)))[i] := fun n i => by
    obtain ⟨j, hj⟩ := List.mem_ofFn.1 ((sort_perm _).mem_iff.1 (List.getElem_mem i.2))
    have := h4 j
    rw [Fin.getElem_fin, ← hj]
    exact this
  rw [tendsto_order]
  obtain ⟨l1, l2⟩ := ramp_limit hc hi p
  constructor
  · intro a ha
    obtain ⟨j, hj⟩ := (l2.eventually (lt_mem_nhds ha)).exists
    have hε0 : 0 < 1 / ((j : ℝ) + 1) := by positivity
    filter_upwards [(h j).2.eventually (lt_mem_nhds hj), hk'.eventually (lt_mem_nhds (show p - 1 / ((j : ℝ) + 1) < p by linarith))]
      with n hn hkn
    refine hn.trans_le (div_le_div_of_nonneg_right ?_ (Nat.cast_nonneg n))
    rw [sum_take_ite]
    refine Finset.sum_le_sum fun i _ => ?_
    have hx := hxpos n i
    split_ifs with hik
    · exact mul_le_of_le_one_left hx.le (ramp_unit _ _ _).2
    · rw [ramp_zero hε0, zero_mul]
      have : (k n : ℝ) ≤ (i : ℕ) := by exact_mod_cast not_lt.1 hik
      have h3 : (k n : ℝ) / (n + 1) ≤ (((i : ℕ) : ℝ) + 1) / (n + 1) := div_le_div_of_nonneg_right (by linarith) (by positivity)
      linarith
  · intro a ha
    obtain ⟨j, hj⟩ := (l1.eventually (gt_mem_nhds ha)).exists
    have hε0 : 0 < 1 / ((j : ℝ) + 1) := by positivity
    filter_upwards [(h j).1.eventually (gt_mem_nhds hj), hk'.eventually (gt_mem_nhds (show p < p + 1 / ((j : ℝ) + 1) by linarith))]
      with n hn hkn
    refine lt_of_le_of_lt (div_le_div_of_nonneg_right ?_ (Nat.cast_nonneg n)) hn
    rw [sum_take_ite]
    refine Finset.sum_le_sum fun i _ => ?_
    have hx := hxpos n i
    split_ifs with hik
    · rw [ramp_one hε0, one_mul]
      have : (((i : ℕ) : ℝ) + 1) ≤ k n := by exact_mod_cast hik
      have h3 : (((i : ℕ) : ℝ) + 1) / (n + 1) ≤ (k n : ℝ) / (n + 1) := div_le_div_of_nonneg_right this (by positivity)
      linarith
    · exact mul_nonneg (ramp_unit _ _ _).1 hx.le

theorem floor_share {p : ℝ} (hp : 0 ≤ p) : Tendsto (fun n : ℕ => (⌊(n : ℝ) * p⌋₊ : ℝ) / n) atTop (𝓝 p) := by
  have := (tendsto_nat_floor_mul_div_atTop (R := ℝ) hp).comp tendsto_natCast_atTop_atTop
  refine this.congr fun n => ?_
  simp only [Function.comp, mul_comm]

include hc hpos hi in
theorem lorenz_settles {p : ℝ} (hp : 0 ≤ p) (code : String) (params : Option (List (String × ℝ))) :
    ValueSettles ((ExpStat.lorenz p).statistic code params) (fun _ x => x) Q (lorenzShare Q p) := by
  filter_upwards [head_settles hc hpos hi (floor_share hp), settles_fitted_mean hi] with ω h1 h2
  refine ⟨_, h1.div h2 (lawMean_pos hi hpos).ne', ?_⟩
  filter_upwards [eventually_gt_atTop 0] with n hn
  have hN : (n : ℝ) ≠ 0 := by exact_mod_cast hn.ne'
  have hne : List.ofFn (firsts n ω) ≠ [] := by rw [← List.length_pos_iff, List.length_ofFn]; exact hn
  simp only [ExpStat.statistic, ExpStat.value, Exponent.lorenz, if_neg hne, Pi.div_apply]
  rw [List.length_ofFn, mean, List.length_ofFn, (sort_perm (List.ofFn (firsts n ω))).sum_eq, div_div_div_cancel_right₀ hN]

end

/-! ### Shares of exponential variables -/

theorem exp_level {r p : ℝ} (hr : 0 < r) (h1 : p < 1) : ∀ᵐ x ∂expMeasure r,
    (cdf (expMeasure r) x ≤ p ↔ x ≤ -Real.log (1 - p) / r) := by
  filter_upwards [Expon.ae_pos hr] with x hx
  rw [cdf_expMeasure_eq hr, if_pos hx.le, le_div_iff₀ hr, le_neg, ← Real.log_exp (-(x * r)),
    Real.log_le_log_iff (by linarith) (Real.exp_pos _), mul_comm x r]
  constructor <;> intro h <;> linarith

/-- The integral of a function with a given primitive over the lowest part of an exponential population. -/
theorem exp_share {r p : ℝ} (hr : 0 < r) (h0 : 0 < p) (h1 : p < 1) {f g : ℝ → ℝ} (hf : Continuous f)
    (hg : ∀ x, HasDerivAt g (f x * (r * Real.exp (-(r * x)))) x) :
    ∫ x in {x | cdf (expMeasure r) x ≤ p}, f x ∂expMeasure r = g (-Real.log (1 - p) / r) - g 0 := by
  have hq : 0 ≤ -Real.log (1 - p) / r := div_nonneg (neg_nonneg.2 (Real.log_nonpos (by linarith) (by linarith))) hr.le
  have e : ∫ x in {x | cdf (expMeasure r) x ≤ p}, f x ∂expMeasure r =
      ∫ x, (Set.Iic (-Real.log (1 - p) / r)).indicator f x ∂expMeasure r := by
    have hset : MeasurableSet {x | cdf (expMeasure r) x ≤ p} := (exp_continuous hr).measurable measurableSet_Iic
    rw [← integral_indicator hset]
    refine integral_congr_ae ?_
    filter_upwards [exp_level hr h1] with x hx
    by_cases h : cdf (expMeasure r) x ≤ p
    · rw [Set.indicator_of_mem (show x ∈ {x | cdf (expMeasure r) x ≤ p} from h), Set.indicator_of_mem (show x ∈ Set.Iic _ from hx.1 h)]
    · rw [Set.indicator_of_notMem (show x ∉ {x | cdf (expMeasure r) x ≤ p} from h), Set.indicator_of_notMem (show x ∉ Set.Iic _ from fun h' => h (hx.2 h'))]
  rw [e, Expon.integral_exp hr]
  have e2 : ∀ x, (Set.Iic (-Real.log (1 - p) / r)).indicator f x * (r * Real.exp (-(r * x))) =
      (Set.Iic (-Real.log (1 - p) / r)).indicator (fun x => f x * (r * Real.exp (-(r * x)))) x := fun x => by
    by_cases h : x ∈ Set.Iic (-Real.log (1 - p) / r)
    · rw [Set.indicator_of_mem h, Set.indicator_of_mem h]
    · rw [Set.indicator_of_notMem h, Set.indicator_of_notMem h, zero_mul]
  simp only [e2]
  rw [setIntegral_indicator measurableSet_Iic, Set.Ioi_inter_Iic, ← intervalIntegral.integral_of_le hq]
  refine intervalIntegral.integral_eq_sub_of_hasDerivAt (fun x _ => hg x) ?_
  exact Continuous.intervalIntegrable (by fun_prop) _ _

theorem exp_share_mean {r p : ℝ} (hr : 0 < r) (h0 : 0 < p) (h1 : p < 1) :
    ∫ x in {x | cdf (expMeasure r) x ≤ p}, x ∂expMeasure r = (1 - (1 - p) * (1 - Real.log (1 - p))) / r := by
  rw [exp_share hr h0 h1 (f := fun x => x) (g := fun x => -((x + 1 / r) * Real.exp (-(r * x)))) continuous_id fun x => ?_]
  · have : -(r * (-Real.log (1 - p) / r)) = Real.log (1 - p) := by field_simp
    rw [this, Real.exp_log (by linarith)]
    simp
    field_simp
    ring
  · have h2 : HasDerivAt (fun x => Real.exp (-(r * x))) (Real.exp (-(r * x)) * (-(r * 1))) x :=
      (((hasDerivAt_id x).const_mul r).neg).exp
    have h3 : HasDerivAt (fun x : ℝ => x + 1 / r) 1 x := (hasDerivAt_id x).add_const _
    refine ((h3.mul h2).neg).congr_deriv ?_
    field_simp
    ring

theorem exp_share_square {p : ℝ} (h0 : 0 < p) (h1 : p < 1) :
    ∫ x in {x | cdf (expMeasure 1) x ≤ p}, x ^ 2 ∂expMeasure 1 =
      2 - (1 - p) * (Real.log (1 - p) ^ 2 - 2 * Real.log (1 - p) + 2) := by
  rw [exp_share one_pos h0 h1 (f := fun x => x ^ 2) (g := fun x => -((x ^ 2 + 2 * x + 2) * Real.exp (-(1 * x))))
    (by fun_prop) fun x => ?_]
  · have : -(1 * (-Real.log (1 - p) / 1)) = Real.log (1 - p) := by ring
    rw [this, Real.exp_log (by linarith)]
    simp
    ring
  · have h2 : HasDerivAt (fun x => Real.exp (-(1 * x))) (Real.exp (-(1 * x)) * (-(1 * 1))) x :=
      (((hasDerivAt_id x).const_mul 1).neg).exp
    have h3 : HasDerivAt (fun x : ℝ => x ^ 2 + 2 * x + 2) (2 * x + 2) x := by
      have := (((hasDerivAt_id x).pow 2).add ((hasDerivAt_id x).const_mul 2)).add_const 2
      refine this.congr_deriv ?_
      simp
    refine ((h3.mul h2).neg).congr_deriv ?_
    ring

theorem lorenzShare_exp {r p : ℝ} (hr : 0 < r) (h0 : 0 < p) (h1 : p < 1) :
    lorenzShare (expMeasure r) p = 1 - (1 - p) * (1 - Real.log (1 - p)) := by
  rw [lorenzShare, exp_share_mean hr h0 h1, lawMean_exp hr]
  field_simp

theorem log_share {p : ℝ} (h0 : 0 < p) (h1 : p < 1) : Real.log (1 - p) < 0 := Real.log_neg (by linarith) (by linarith)

theorem lorenzShare_squaredExp {p : ℝ} (h0 : 0 < p) (h1 : p < 1) :
    lorenzShare squaredExp p < 1 - (1 - p) * (1 - Real.log (1 - p)) := by
  have hm : Measurable fun x : ℝ => x ^ 2 := by fun_prop
  have hset : MeasurableSet {x | cdf squaredExp x ≤ p} := squaredExp_continuous.measurable measurableSet_Iic
  have e1 : ∫ x in {x | cdf squaredExp x ≤ p}, x ∂squaredExp = ∫ x in {x | cdf (expMeasure 1) x ≤ p}, x ^ 2 ∂expMeasure 1 := by
    rw [squaredExp] at hset ⊢
    rw [setIntegral_map hset (by fun_prop) hm.aemeasurable]
    refine setIntegral_congr_set ?_
    filter_upwards [Expon.ae_pos one_pos] with x hx
    refine propext ?_
    change cdf squaredExp (x ^ 2) ≤ p ↔ cdf (expMeasure 1) x ≤ p
    rw [cdf_squaredExp, Real.sqrt_sq hx.le, cdf_expMeasure_eq one_pos, if_pos hx.le, one_mul]
  have e2 : lawMean squaredExp = 2 := by
    rw [lawMean, squaredExp, integral_map hm.aemeasurable (by fun_prop), exp_moment one_pos]
    norm_num [Nat.factorial]
  rw [lorenzShare, e1, e2, exp_share_square h0 h1, div_lt_iff₀ two_pos]
  have := log_share h0 h1
  have h3 : 0 < (1 - p) * Real.log (1 - p) ^ 2 := mul_pos (by linarith) (sq_pos_of_neg this)
  linarith

theorem lorenzShare_shiftedExp {p : ℝ} (h0 : 0 < p) (h1 : p < 1) :
    1 - (1 - p) * (1 - Real.log (1 - p)) < lorenzShare shiftedExp p := by
  have hpr := isProbabilityMeasure_expMeasure one_pos
  have hm : Measurable fun x : ℝ => x + 1 := by fun_prop
  obtain ⟨-, -, -, hcont, -⟩ := shiftedExp_facts
  have hset : MeasurableSet {x | cdf shiftedExp x ≤ p} := hcont.measurable measurableSet_Iic
  have hcdf : ∀ x, cdf shiftedExp (x + 1) = cdf (expMeasure 1) x := fun x => by
    have := shiftedExp_facts.1
    rw [cdf_eq_real, cdf_eq_real, shiftedExp, map_measureReal_apply hm measurableSet_Iic]
    congr 1
    ext y
    simp
  have hset' : MeasurableSet {x | cdf (expMeasure 1) x ≤ p} := (exp_continuous one_pos).measurable measurableSet_Iic
  have hone : ∫ _x in {x | cdf (expMeasure 1) x ≤ p}, (1 : ℝ) ∂expMeasure 1 = p := by
    rw [exp_share one_pos h0 h1 (f := fun _ => 1) (g := fun x => -Real.exp (-(1 * x))) continuous_const fun x => ?_]
    · have : -(1 * (-Real.log (1 - p) / 1)) = Real.log (1 - p) := by ring
      rw [this, Real.exp_log (by linarith)]
      simp
    · have h2 : HasDerivAt (fun x => Real.exp (-(1 * x))) (Real.exp (-(1 * x)) * (-(1 * 1))) x :=
        (((hasDerivAt_id x).const_mul 1).neg).exp
      refine h2.neg.congr_deriv ?_
      ring
  have e1 : ∫ x in {x | cdf shiftedExp x ≤ p}, x ∂shiftedExp = 1 - (1 - p) * (1 - Real.log (1 - p)) + p := by
    have : ∫ x in {x | cdf shiftedExp x ≤ p}, x ∂shiftedExp = ∫ x in {x | cdf (expMeasure 1) x ≤ p}, (x + 1) ∂expMeasure 1 := by
      rw [shiftedExp] at hset ⊢
      rw [setIntegral_map hset (by fun_prop) hm.aemeasurable]
      refine setIntegral_congr_set (.of_forall fun x => propext ?_)
      change cdf shiftedExp (x + 1) ≤ p ↔ cdf (expMeasure 1) x ≤ p
      rw [hcdf]
    rw [this, integral_add (exp_integrable_id one_pos).integrableOn (integrable_const _).integrableOn,
      exp_share_mean one_pos h0 h1, hone, div_one]
  have e2 : lawMean shiftedExp = 2 := by
    rw [lawMean, shiftedExp, integral_map hm.aemeasurable (by fun_prop),
      integral_add (exp_integrable_id one_pos) (integrable_const _)]
    have := lawMean_exp one_pos
    rw [lawMean] at this
    rw [this]
    simp
    norm_num
  rw [lorenzShare, e1, e2, lt_div_iff₀ two_pos]
  have := log_share h0 h1
  have h3 : (1 - p) * Real.log (1 - p) < 0 := mul_neg_of_pos_of_neg (by linarith) this
  linarith

section
variable (code : String) (params : Option (List (String × ℝ))) (classes : List GeneratorClass)
  (hcl : classes.Perm generatorClasses)

include hcl in
/-- **C136, Lorenz**, for the laws on one side: a continuous law whose lowest part has a larger share in the total than that
of the exponential laws is detected.  Missing: laws with a smaller share, which are not (`C136_refuted_lorenz`), and laws
with atoms. -/
theorem C136_lorenz_partial {r p : ℝ} (hr : 0 < r) (h0 : 0 < p) (h1 : p < 1) :
    ∃ G, (Gen.Family.exponential r).simulator classes = .ok G ∧ (∀ n, G.generate n = .ok (iid n (expMeasure r))) ∧
    ∀ Q : Measure ℝ, IsProbabilityMeasure Q → Continuous (cdf Q) → (∀ᵐ x ∂Q, 0 < x) → Integrable (fun x => x) Q →
      1 - (1 - p) * (1 - Real.log (1 - p)) < lorenzShare Q p →
      Consistent ((ExpStat.lorenz p).statistic code params) Q (expMeasure r) := by
  have hpr := isProbabilityMeasure_expMeasure hr
  obtain ⟨G, hG, hgen⟩ := simulates_all (f := .exponential r) fun n => C111_exponential classes hcl r hr n
  have hP := lorenz_settles (exp_continuous hr) (Expon.ae_pos hr) (exp_integrable_id hr) h0.le code params
  rw [lorenzShare_exp hr h0 h1] at hP
  exact ⟨G, hG, hgen, fun Q _ hc hpos hi hlt => value_consistent (exponential_meas _ code params)
    (.of_forall fun _ => strictMono_id) (lorenz_settles hc hpos hi h0.le code params) hP
    (Or.inl ⟨(fun h => by cases h), hlt⟩)⟩

/-- **C136, refuted, Lorenz**: the criterion is judged in the right tail.  The probability that it rejects tends to zero for
every continuous law of positive observations whose lowest part has a smaller share in the total than that of the exponential
laws, for instance for squares of exponential variables. -/
theorem C136_refuted_lorenz {r p : ℝ} (hr : 0 < r) (h0 : 0 < p) (h1 : p < 1) :
    (∀ Q : Measure ℝ, IsProbabilityMeasure Q → Continuous (cdf Q) → (∀ᵐ x ∂Q, 0 < x) → Integrable (fun x => x) Q →
      lorenzShare Q p < lorenzShare (expMeasure r) p →
      Undetected ((ExpStat.lorenz p).statistic code params) Q (expMeasure r)) ∧
    lorenzShare squaredExp p ≠ lorenzShare (expMeasure r) p ∧
      Undetected ((ExpStat.lorenz p).statistic code params) squaredExp (expMeasure r) := by
  have hpr := isProbabilityMeasure_expMeasure hr
  have key : ∀ Q : Measure ℝ, IsProbabilityMeasure Q → Continuous (cdf Q) → (∀ᵐ x ∂Q, 0 < x) → Integrable (fun x => x) Q →
      lorenzShare Q p < lorenzShare (expMeasure r) p →
      Undetected ((ExpStat.lorenz p).statistic code params) Q (expMeasure r) := fun Q _ hc hpos hi hlt =>
    value_undetected (exponential_meas _ code params) (.of_forall fun _ => strictMono_id)
      (lorenz_settles hc hpos hi h0.le code params)
      (lorenz_settles (exp_continuous hr) (Expon.ae_pos hr) (exp_integrable_id hr) h0.le code params) (Or.inr ⟨rfl, hlt⟩)
  obtain ⟨h2, h3, h4, -⟩ := squaredExp_facts
  have hlt : lorenzShare squaredExp p < lorenzShare (expMeasure r) p := by
    rw [lorenzShare_exp hr h0 h1]; exact lorenzShare_squaredExp h0 h1
  exact ⟨key, hlt.ne, key _ h2 squaredExp_continuous h3 h4 hlt⟩

end

/-- At the default level one half the criterion detects a guaranteed lifetime, and never squares of exponential variables. -/
example : Consistent ((ExpStat.lorenz (1 / 2)).statistic "" none) shiftedExp (expMeasure 2) ∧
    Undetected ((ExpStat.lorenz (1 / 2)).statistic "" none) squaredExp (expMeasure 2) := by
  obtain ⟨h1, h2, h3, h4, -⟩ := shiftedExp_facts
  obtain ⟨_, _, _, h⟩ := C136_lorenz_partial "" none _ (List.Perm.refl _) two_pos (p := 1 / 2) (by norm_num) (by norm_num)
  exact ⟨h _ h1 h4 (h2.mono fun x hx => one_pos.trans hx) h3 (lorenzShare_shiftedExp (by norm_num) (by norm_num)),
    (C136_refuted_lorenz "" none two_pos (by norm_num) (by norm_num)).2.2⟩

end Pysatl.Props
