import Verif.Props.ConsistencyLorenz
import Verif.Props.TotalTime
import Verif.Props.NormalDomain

/-! # C136: Gnedenko and Harris -/

namespace Pysatl.Props

open Pysatl.Decision Pysatl.Resolver Pysatl.Spec Pysatl.Edf Pysatl.Graph Pysatl.Gen Pysatl.Exponent
open MeasureTheory ProbabilityTheory Filter Topology

theorem totalTime_near (xs : List ℝ) (s t : ℝ) : |totalTime xs s - totalTime xs t| ≤ xs.length * |s - t| := by
  unfold totalTime
  induction xs with
  | nil => simp
  | cons a l ih =>
    simp only [List.map_cons, List.sum_cons, List.length_cons]
    push_cast
    have h : |min a s - min a t| ≤ |s - t| := by
      refine (abs_min_sub_min_le_max a s a t).trans ?_
      simp
    rw [abs_le] at *
    constructor <;> linarith

theorem sum_take_at {rvs : List ℝ} (hpos : ∀ x ∈ rvs, 0 < x) {k : ℕ} (h0 : 0 < k) (hk : k ≤ rvs.length) :
    ((normSpacings (sort (0 :: rvs))).take k).sum = totalTime rvs (at_ (sort rvs) (k - 1)) := by
  rw [sort_cons_zero hpos, sum_take_normSpacings (sort_pairwise _) h0 (by rwa [(sort_perm rvs).length_eq])]
  simp only [sub_zero]
  rw [((sort_perm rvs).map _).sum_eq]
  rfl

section
variable {Q : Measure ℝ} [IsProbabilityMeasure Q]

/-- Order statistics settle at the quantile. -/
theorem order_settles {p m : ℝ} (hm : IsQuantile Q p m) (h1 : p < 1) {k : ℕ → ℕ}
    (hk : Tendsto (fun n => (k n : ℝ) / n) atTop (𝓝 p)) : ∀ᵐ ω ∂seqLaw Q,
    Tendsto (fun n => at_ (sort (List.ofFn (firsts n ω))) (k n - 1)) atTop (𝓝 m) := by
  filter_upwards [empirical_cdf (μ := Q)] with ω h
  have hk1 : Tendsto (fun n => ((k n - 1 : ℕ) : ℝ) / n) atTop (𝓝 p) := by
    have h2 : Tendsto (fun n : ℕ => (k n : ℝ) / n - 1 / n) atTop (𝓝 (p - 0)) :=
      hk.sub tendsto_one_div_atTop_nhds_zero_nat
    rw [sub_zero] at h2
    refine tendsto_of_tendsto_of_tendsto_of_le_of_le h2 hk (fun n => ?_) (fun n => ?_)
    · show (k n : ℝ) / n - 1 / n ≤ _
      rw [← sub_div]
      refine div_le_div_of_nonneg_right ?_ (Nat.cast_nonneg n)
      have : (k n : ℝ) ≤ ((k n - 1 : ℕ) : ℝ) + 1 := by exact_mod_cast (by omega : k n ≤ k n - 1 + 1)
      linarith
    · refine div_le_div_of_nonneg_right ?_ (Nat.cast_nonneg n)
      exact Nat.cast_le.2 (Nat.sub_le (k n) 1)
  rw [tendsto_order]
  constructor
  · intro a ha
    obtain ⟨q, hq1, hq2⟩ := exists_rat_btwn ha
    obtain ⟨c, hc1, hc2⟩ := exists_between (hm.1 q hq2)
    filter_upwards [(h q).eventually (gt_mem_nhds hc1), hk1.eventually (lt_mem_nhds hc2), hk1.eventually (gt_mem_nhds h1),
      eventually_gt_atTop 0] with n e1 e2 e3 hn
    have hN : (0 : ℝ) < n := by exact_mod_cast hn
    rw [fracLe_eq, List.length_ofFn] at e1
    have h4 := (div_lt_div_iff_of_pos_right hN).1 (e1.trans e2)
    rw [div_lt_one hN] at e3
    have h4' : List.countP (fun x => decide (x ≤ (q : ℝ))) (List.ofFn (firsts n ω)) < k n - 1 := by exact_mod_cast h4
    have h3' : k n - 1 < n := by exact_mod_cast e3
    exact hq1.trans (sort_getD_gt h4'.le (by rwa [List.length_ofFn]))
  · intro a ha
    obtain ⟨q, hq1, hq2⟩ := exists_rat_btwn ha
    obtain ⟨c, hc1, hc2⟩ := exists_between (hm.2 q hq1)
    filter_upwards [(h q).eventually (lt_mem_nhds hc2), hk1.eventually (gt_mem_nhds hc1),
      eventually_gt_atTop 0] with n e1 e2 hn
    have hN : (0 : ℝ) < n := by exact_mod_cast hn
    rw [fracLe_eq, List.length_ofFn] at e1
    have h4 := (div_lt_div_iff_of_pos_right hN).1 (e2.trans e1)
    have h4' : k n - 1 < List.countP (fun x => decide (x ≤ (q : ℝ))) (List.ofFn (firsts n ω)) := by exact_mod_cast h4
    exact lt_of_le_of_lt (Medcouple.sort_getD_le h4') hq2

theorem min_integrable (hi : Integrable (fun x => x) Q) (m : ℝ) : Integrable (fun x => min x m) Q :=
  hi.inf (integrable_const m)

/-- Times on test up to an order statistic settle. -/
theorem time_settles {p m : ℝ} (hi : Integrable (fun x => x) Q) (hm : IsQuantile Q p m) (h1 : p < 1) {k : ℕ → ℕ}
    (hk : Tendsto (fun n => (k n : ℝ) / n) atTop (𝓝 p)) : ∀ᵐ ω ∂seqLaw Q,
    Tendsto (fun n => totalTime (List.ofFn (firsts n ω)) (at_ (sort (List.ofFn (firsts n ω))) (k n - 1)) / n) atTop
      (𝓝 (∫ x, min x m ∂Q)) := by
  filter_upwards [order_settles hm h1 hk, settles_integral (μ := Q) (f := fun x => min x m) (by fun_prop) (min_integrable hi m)]
    with ω a b
  have b' : Tendsto (fun n => totalTime (List.ofFn (firsts n ω)) m / n) atTop (𝓝 (∫ x, min x m ∂Q)) := by
    refine b.congr fun n => ?_
    rw [integral_empirical, List.length_ofFn, totalTime]
  have a' : Tendsto (fun n => |at_ (sort (List.ofFn (firsts n ω))) (k n - 1) - m|) atTop (𝓝 0) := by
    have := (a.sub_const m).abs
    simpa using this
  refine tendsto_of_tendsto_of_dist b' (squeeze_zero (fun _ => dist_nonneg) (fun n => ?_) a')
  rw [Real.dist_eq, ← sub_div, abs_div, Nat.abs_cast, abs_sub_comm]
  have := totalTime_near (List.ofFn (firsts n ω)) (at_ (sort (List.ofFn (firsts n ω))) (k n - 1)) m
  rw [List.length_ofFn] at this
  exact div_le_of_le_mul₀ (Nat.cast_nonneg n) (abs_nonneg _) (by rw [mul_comm]; exact this)

theorem share_half : Tendsto (fun n : ℕ => (pyRoundDiv n 2 : ℝ) / n) atTop (𝓝 (1 / 2)) ∧
    Tendsto (fun n : ℕ => (pyRoundDiv n 4 : ℝ) / n) atTop (𝓝 (1 / 4)) := by
  have key : ∀ (c : ℝ) (f : ℕ → ℕ), (∀ n, |(f n : ℝ) - c * n| ≤ 1) → Tendsto (fun n => (f n : ℝ) / n) atTop (𝓝 c) := by
    intro c f hf
    refine tendsto_of_tendsto_of_dist tendsto_const_nhds (squeeze_zero' (.of_forall fun _ => dist_nonneg) ?_
      (tendsto_one_div_atTop_nhds_zero_nat (𝕜 := ℝ)))
    filter_upwards [eventually_gt_atTop 0] with n hn
    have hN : (0 : ℝ) < n := by exact_mod_cast hn
    rw [Real.dist_eq, abs_sub_comm, show (f n : ℝ) / n - c = (f n - c * n) / n by field_simp, abs_div, Nat.abs_cast]
    exact div_le_div_of_nonneg_right (hf n) hN.le
  constructor
  · refine key _ _ fun n => ?_
    have a : 2 * pyRoundDiv n 2 ≤ n + 2 ∧ n ≤ 2 * pyRoundDiv n 2 + 2 := by unfold pyRoundDiv; split_ifs <;> omega
    have a1 : (2 : ℝ) * pyRoundDiv n 2 ≤ n + 2 := by exact_mod_cast a.1
    have a2 : (n : ℝ) ≤ 2 * pyRoundDiv n 2 + 2 := by exact_mod_cast a.2
    rw [abs_le]; constructor <;> linarith
  · refine key _ _ fun n => ?_
    have a : 4 * pyRoundDiv n 4 ≤ n + 4 ∧ n ≤ 4 * pyRoundDiv n 4 + 4 := by unfold pyRoundDiv; split_ifs <;> omega
    have a1 : (4 : ℝ) * pyRoundDiv n 4 ≤ n + 4 := by exact_mod_cast a.1
    have a2 : (n : ℝ) ≤ 4 * pyRoundDiv n 4 + 4 := by exact_mod_cast a.2
    rw [abs_le]; constructor <;> linarith

theorem gnedenko_settles (hpos : ∀ᵐ x ∂Q, 0 < x) (hi : Integrable (fun x => x) Q) {m : ℝ} (hm : IsQuantile Q (1 / 2) m)
    (hlt : timeShare Q m < 1) (code : String) (params : Option (List (String × ℝ))) :
    ValueSettles ((ExpStat.gnedenko none).statistic code params) (fun _ x => x) Q (timeShare Q m / (1 - timeShare Q m)) := by
  have hμ := lawMean_pos hi hpos
  filter_upwards [time_settles hi hm (by norm_num) share_half.1, settles_fitted_mean hi, seq_ae hpos] with ω h1 h2 h3
  have hlt' : ∫ x, min x m ∂Q < lawMean Q := (div_lt_one hμ).1 hlt
  have hne : (lawMean Q - ∫ x, min x m ∂Q) / (1 - 1 / 2) ≠ 0 := (div_pos (by linarith) (by norm_num)).ne'
  have lim := (h1.div share_half.1 (by norm_num)).div ((h2.sub h1).div ((tendsto_const_nhds (x := (1 : ℝ))).sub share_half.1) (by norm_num)) hne
  have e : ((∫ x, min x m ∂Q) / (1 / 2)) / ((lawMean Q - ∫ x, min x m ∂Q) / (1 - 1 / 2)) = timeShare Q m / (1 - timeShare Q m) := by
    rw [timeShare]
    have h4 : lawMean Q - ∫ x, min x m ∂Q ≠ 0 := by linarith
    have h5 : 1 - (∫ x, min x m ∂Q) / lawMean Q = (lawMean Q - ∫ x, min x m ∂Q) / lawMean Q := by field_simp
    rw [h5]
    generalize ∫ x, min x m ∂Q = I at *
    field_simp
    norm_num
  rw [e] at lim
  refine ⟨_, lim, ?_⟩
  filter_upwards [eventually_ge_atTop 3] with n hn
  have hN : (n : ℝ) ≠ 0 := by exact_mod_cast (by omega : n ≠ 0)
  have a : 0 < pyRoundDiv n 2 ∧ pyRoundDiv n 2 < n := by unfold pyRoundDiv; split_ifs <;> omega
  have hp : ∀ x ∈ List.ofFn (firsts n ω), 0 < x := fun x hx => by
    obtain ⟨i, rfl⟩ := List.mem_ofFn.1 hx
    exact h3 i
  simp only [ExpStat.statistic, ExpStat.value, Exponent.gnedenko, List.length_ofFn, Option.getD_none,
    if_neg (show ¬ (pyRoundDiv n 2 = 0 ∨ n - pyRoundDiv n 2 = 0) by omega)]
  rw [sum_drop_eq, sum_take_at hp a.1 (by rw [List.length_ofFn]; exact a.2.le), sum_spacings_eq hp]
  congr 1
  simp only [Pi.div_apply, mean, List.length_ofFn]
  have e2 : (1 : ℝ) - (pyRoundDiv n 2 : ℝ) / n = (n - pyRoundDiv n 2) / n := by field_simp
  rw [e2, ← sub_div, div_div_div_cancel_right₀ hN, div_div_div_cancel_right₀ hN]

theorem harris_settles (hpos : ∀ᵐ x ∂Q, 0 < x) (hi : Integrable (fun x => x) Q) {s t : ℝ} (hs : IsQuantile Q (1 / 4) s)
    (ht : IsQuantile Q (3 / 4) t) (hlt : timeShare Q s < timeShare Q t) (code : String) (params : Option (List (String × ℝ))) :
    ValueSettles ((ExpStat.harris none).statistic code params) (fun _ x => x) Q
      (1 / (timeShare Q t - timeShare Q s) - 1) := by
  have hμ := lawMean_pos hi hpos
  have hk : Tendsto (fun n : ℕ => ((n - pyRoundDiv n 4 : ℕ) : ℝ) / n) atTop (𝓝 (3 / 4)) := by
    have := (tendsto_const_nhds (x := (1 : ℝ))).sub share_half.2
    rw [show (1 : ℝ) - 1 / 4 = 3 / 4 by norm_num] at this
    refine this.congr' ?_
    filter_upwards [eventually_ge_atTop 3] with n hn
    have hN : (n : ℝ) ≠ 0 := by exact_mod_cast (by omega : n ≠ 0)
    have a : pyRoundDiv n 4 ≤ n := by unfold pyRoundDiv; split_ifs <;> omega
    rw [Nat.cast_sub a]
    field_simp
  filter_upwards [time_settles hi hs (by norm_num) share_half.2, time_settles hi ht (by norm_num) hk, settles_fitted_mean hi, seq_ae hpos]
    with ω h1 h1' h2 h3
  have hlt' : ∫ x, min x s ∂Q < ∫ x, min x t ∂Q := (div_lt_div_iff_of_pos_right hμ).1 hlt
  have hne : ((∫ x, min x t ∂Q) - ∫ x, min x s ∂Q) / (1 - 2 * (1 / 4)) ≠ 0 := (div_pos (by linarith) (by norm_num)).ne'
  have lim := ((h1.add (h2.sub h1')).div (share_half.2.const_mul 2) (by norm_num)).div
    ((h1'.sub h1).div ((tendsto_const_nhds (x := (1 : ℝ))).sub (share_half.2.const_mul 2)) (by norm_num)) hne
  have e : (((∫ x, min x s ∂Q) + (lawMean Q - ∫ x, min x t ∂Q)) / (2 * (1 / 4))) /
      (((∫ x, min x t ∂Q) - ∫ x, min x s ∂Q) / (1 - 2 * (1 / 4))) = 1 / (timeShare Q t - timeShare Q s) - 1 := by
    rw [timeShare, timeShare, ← sub_div]
    have h4 : (∫ x, min x t ∂Q) - ∫ x, min x s ∂Q ≠ 0 := by linarith
    generalize hI : ∫ x, min x s ∂Q = I at *
    generalize hJ : ∫ x, min x t ∂Q = J at *
    rw [show (1 : ℝ) - 2 * (1 / 4) = 2 * (1 / 4) by norm_num, div_div_div_cancel_right₀ (by norm_num)]
    field_simp
    ring
  rw [e] at lim
  refine ⟨_, lim, ?_⟩
  filter_upwards [eventually_ge_atTop 5] with n hn
  have hN : (n : ℝ) ≠ 0 := by exact_mod_cast (by omega : n ≠ 0)
  have a : 0 < pyRoundDiv n 4 ∧ 2 * pyRoundDiv n 4 < n := by unfold pyRoundDiv; split_ifs <;> omega
  have hp : ∀ x ∈ List.ofFn (firsts n ω), 0 < x := fun x hx => by
    obtain ⟨i, rfl⟩ := List.mem_ofFn.1 hx
    exact h3 i
  simp only [ExpStat.statistic, ExpStat.value, Exponent.harris, lastSlice, midSlice, Option.getD_none, length_spacings,
    List.length_ofFn, if_neg (show ¬ pyRoundDiv n 4 = 0 by omega)]
  rw [sum_drop_eq, sum_drop_eq, List.take_take, min_eq_left (show pyRoundDiv n 4 ≤ n - pyRoundDiv n 4 by omega),
    sum_take_at hp a.1 (by rw [List.length_ofFn]; omega),
    sum_take_at hp (k := n - pyRoundDiv n 4) (by omega) (by rw [List.length_ofFn]; omega), sum_spacings_eq hp]
  congr 1
  simp only [Pi.div_apply, mean, List.length_ofFn]
  have e2 : (1 : ℝ) - 2 * ((pyRoundDiv n 4 : ℝ) / n) = (n - 2 * pyRoundDiv n 4) / n := by field_simp
  rw [e2, ← sub_div, ← sub_div, ← add_div, ← mul_div_assoc, div_div_div_cancel_right₀ hN, div_div_div_cancel_right₀ hN]

theorem time_pos {f : ℝ → ℝ} (hf : Integrable f Q) (h0 : ∀ x, 0 ≤ f x) {s : ℝ} (hs : cdf Q s < 1) (h : ∀ x, f x = 0 → x ≤ s) :
    0 < ∫ x, f x ∂Q := by
  refine lt_of_le_of_ne (integral_nonneg h0) fun e => ?_
  have hz := (integral_eq_zero_iff_of_nonneg h0 hf).1 e.symm
  have h1 : Q.real (Set.Iic s) = 1 := by
    have : ∀ᵐ x ∂Q, x ∈ Set.Iic s := hz.mono fun x hx => h x hx
    rw [measureReal_def, prob_compl_eq_zero_iff measurableSet_Iic |>.1 this]
    rfl
  rw [cdf_eq_real] at hs
  linarith

theorem share_lt_one (hpos : ∀ᵐ x ∂Q, 0 < x) (hi : Integrable (fun x => x) Q) {m : ℝ} (hm : cdf Q m < 1) : timeShare Q m < 1 := by
  have := time_pos (f := fun x => x - min x m) (hi.sub (min_integrable hi m)) (fun x => sub_nonneg.2 (min_le_left _ _)) hm
    fun x hx => by rw [sub_eq_zero] at hx; rw [hx]; exact min_le_right _ _
  rw [integral_sub hi (min_integrable hi m)] at this
  rw [timeShare, div_lt_one (lawMean_pos hi hpos), lawMean]
  linarith

theorem share_strict (hpos : ∀ᵐ x ∂Q, 0 < x) (hi : Integrable (fun x => x) Q) {p s t : ℝ} (hp : p < 1) (ht : IsQuantile Q p t) (hst : s < t) :
    timeShare Q s < timeShare Q t := by
  have := time_pos (f := fun x => min x t - min x s) ((min_integrable hi t).sub (min_integrable hi s))
    (fun x => sub_nonneg.2 (min_le_min_left x hst.le)) ((ht.1 s hst).trans hp) fun x hx => by
      by_contra hlt
      rw [not_le] at hlt
      have : s < min x t := lt_min hlt hst
      have h2 := min_le_right x s
      linarith
  rw [integral_sub (min_integrable hi t) (min_integrable hi s)] at this
  exact div_lt_div_of_pos_right (by linarith) (lawMean_pos hi hpos)

end

/-! ### Exponential variables, their squares and shifts -/

theorem exp_quantile {r p : ℝ} (hr : 0 < r) (h0 : 0 < p) (h1 : p < 1) : IsQuantile (expMeasure r) p (-Real.log (1 - p) / r) := by
  have hq := log_share h0 h1
  have key : ∀ x, 0 ≤ x → (cdf (expMeasure r) x = 1 - Real.exp (-(r * x))) := fun x hx => by rw [cdf_expMeasure_eq hr, if_pos hx]
  constructor
  · intro x hx
    rcases lt_or_ge x 0 with h | h
    · rw [cdf_expMeasure_eq hr, if_neg (not_le.2 h)]; exact h0
    · rw [key x h]
      rw [lt_div_iff₀ hr] at hx
      have : Real.exp (Real.log (1 - p)) < Real.exp (-(r * x)) := Real.exp_lt_exp.2 (by linarith)
      rw [Real.exp_log (by linarith)] at this
      linarith
  · intro x hx
    have h : 0 ≤ x := (div_nonneg (by linarith) hr.le).trans hx.le
    rw [key x h]
    rw [gt_iff_lt, div_lt_iff₀ hr] at hx
    have : Real.exp (-(r * x)) < Real.exp (Real.log (1 - p)) := Real.exp_lt_exp.2 (by linarith)
    rw [Real.exp_log (by linarith)] at this
    linarith

theorem exp_share_one {r p : ℝ} (hr : 0 < r) (h0 : 0 < p) (h1 : p < 1) : (expMeasure r).real {x | cdf (expMeasure r) x ≤ p} = p := by
  have : ∫ _x in {x | cdf (expMeasure r) x ≤ p}, (1 : ℝ) ∂expMeasure r = p := by
    rw [exp_share hr h0 h1 (f := fun _ => 1) (g := fun x => -Real.exp (-(r * x))) continuous_const fun x => ?_]
    · have : -(r * (-Real.log (1 - p) / r)) = Real.log (1 - p) := by field_simp
      rw [this, Real.exp_log (by linarith)]
      simp
    · have h2 : HasDerivAt (fun x => Real.exp (-(r * x))) (Real.exp (-(r * x)) * (-(r * 1))) x :=
        (((hasDerivAt_id x).const_mul r).neg).exp
      refine h2.neg.congr_deriv ?_
      ring
  rwa [setIntegral_const, smul_eq_mul, mul_one] at this

/-- The integral of a function that is constant above the quantile. -/
theorem exp_split {r p : ℝ} (hr : 0 < r) (h0 : 0 < p) (h1 : p < 1) {f g : ℝ → ℝ} {c : ℝ} (hg : Integrable g (expMeasure r))
    (e1 : ∀ x, 0 < x → x ≤ -Real.log (1 - p) / r → g x = f x) (e2 : ∀ x, -Real.log (1 - p) / r < x → g x = c) :
    ∫ x, g x ∂expMeasure r = ∫ x in {x | cdf (expMeasure r) x ≤ p}, f x ∂expMeasure r + c * (1 - p) := by
  have hpr := isProbabilityMeasure_expMeasure hr
  have hset : MeasurableSet {x | cdf (expMeasure r) x ≤ p} := (exp_continuous hr).measurable measurableSet_Iic
  rw [← integral_add_compl hset hg]
  congr 1
  · refine setIntegral_congr_ae hset ?_
    filter_upwards [Expon.ae_pos hr, exp_level hr h1] with x hx hx' hm
    exact e1 x hx (hx'.1 hm)
  · have : ∫ x in {x | cdf (expMeasure r) x ≤ p}ᶜ, g x ∂expMeasure r = ∫ _x in {x | cdf (expMeasure r) x ≤ p}ᶜ, c ∂expMeasure r := by
      refine setIntegral_congr_ae hset.compl ?_
      filter_upwards [exp_level hr h1] with x hx' hm
      exact e2 x (not_le.1 fun h => hm (hx'.2 h))
    rw [this, setIntegral_const, smul_eq_mul, probReal_compl_eq_one_sub hset, exp_share_one hr h0 h1, mul_comm]

theorem time_exp {r p : ℝ} (hr : 0 < r) (h0 : 0 < p) (h1 : p < 1) :
    ∫ x, min x (-Real.log (1 - p) / r) ∂expMeasure r = p / r := by
  have hpr := isProbabilityMeasure_expMeasure hr
  rw [exp_split hr h0 h1 (f := fun x => x) (min_integrable (exp_integrable_id hr) _) (fun x _ hx => min_eq_left hx)
    (fun x hx => min_eq_right hx.le), exp_share_mean hr h0 h1]
  field_simp
  ring

theorem timeShare_exp {r p : ℝ} (hr : 0 < r) (h0 : 0 < p) (h1 : p < 1) :
    timeShare (expMeasure r) (-Real.log (1 - p) / r) = p := by
  rw [timeShare, time_exp hr h0 h1, lawMean_exp hr]
  field_simp

theorem squaredExp_quantile {p : ℝ} (h0 : 0 < p) (h1 : p < 1) : IsQuantile squaredExp p (Real.log (1 - p) ^ 2) := by
  have hq := log_share h0 h1
  rw [← neg_sq]
  constructor
  · intro x hx
    rw [cdf_squaredExp]
    have h := (Real.sqrt_lt' (neg_pos.2 hq)).2 hx
    have : Real.exp (Real.log (1 - p)) < Real.exp (-√x) := Real.exp_lt_exp.2 (by linarith)
    rw [Real.exp_log (by linarith)] at this
    linarith
  · intro x hx
    rw [cdf_squaredExp]
    have h := (Real.lt_sqrt (neg_pos.2 hq).le).2 hx
    have : Real.exp (-√x) < Real.exp (Real.log (1 - p)) := Real.exp_lt_exp.2 (by linarith)
    rw [Real.exp_log (by linarith)] at this
    linarith

theorem timeShare_squaredExp {p : ℝ} (h0 : 0 < p) (h1 : p < 1) :
    timeShare squaredExp (Real.log (1 - p) ^ 2) = 1 - (1 - p) * (1 - Real.log (1 - p)) := by
  have hpr := isProbabilityMeasure_expMeasure one_pos
  have hm : Measurable fun x : ℝ => x ^ 2 := by fun_prop
  have hq := log_share h0 h1
  have e2 : lawMean squaredExp = 2 := by
    rw [lawMean, squaredExp, integral_map hm.aemeasurable (by fun_prop), exp_moment one_pos]
    norm_num [Nat.factorial]
  obtain ⟨hp2, -, hi2, -⟩ := squaredExp_facts
  have hint : Integrable (fun x : ℝ => min (x ^ 2) (Real.log (1 - p) ^ 2)) (expMeasure 1) := by
    have := min_integrable hi2 (Real.log (1 - p) ^ 2)
    rw [squaredExp, integrable_map_measure (by fun_prop) hm.aemeasurable] at this
    exact this
  rw [timeShare, e2, squaredExp, integral_map hm.aemeasurable (by fun_prop),
    exp_split one_pos h0 h1 (f := fun x => x ^ 2) (c := Real.log (1 - p) ^ 2) hint (fun x h hx => ?_) (fun x hx => ?_),
    exp_share_square h0 h1]
  · ring
  · rw [div_one] at hx
    refine min_eq_left ?_
    rw [← neg_sq (Real.log (1 - p))]
    exact pow_le_pow_left₀ h.le hx 2
  · rw [div_one] at hx
    refine min_eq_right ?_
    rw [← neg_sq (Real.log (1 - p))]
    exact pow_le_pow_left₀ (by linarith) hx.le 2

theorem shiftedExp_quantile {p : ℝ} (h0 : 0 < p) (h1 : p < 1) : IsQuantile shiftedExp p (1 - Real.log (1 - p)) := by
  have hm : Measurable fun x : ℝ => x + 1 := by fun_prop
  have hpr := isProbabilityMeasure_expMeasure one_pos
  have hcdf : ∀ x, cdf shiftedExp x = cdf (expMeasure 1) (x - 1) := fun x => by
    have := shiftedExp_facts.1
    rw [cdf_eq_real, cdf_eq_real, shiftedExp, map_measureReal_apply hm measurableSet_Iic]
    congr 1
    ext y
    simp [le_sub_iff_add_le]
  have h := exp_quantile one_pos h0 h1
  rw [div_one] at h
  exact ⟨fun x hx => by rw [hcdf]; exact h.1 _ (by linarith), fun x hx => by rw [hcdf]; exact h.2 _ (by linarith)⟩

theorem timeShare_shiftedExp {p : ℝ} (h0 : 0 < p) (h1 : p < 1) : timeShare shiftedExp (1 - Real.log (1 - p)) = (1 + p) / 2 := by
  have hpr := isProbabilityMeasure_expMeasure one_pos
  have hm : Measurable fun x : ℝ => x + 1 := by fun_prop
  have e2 : lawMean shiftedExp = 2 := by
    rw [lawMean, shiftedExp, integral_map hm.aemeasurable (by fun_prop),
      integral_add (exp_integrable_id one_pos) (integrable_const _)]
    have := lawMean_exp one_pos
    rw [lawMean] at this
    rw [this]
    simp
    norm_num
  have e3 : ∀ x : ℝ, min (x + 1) (1 - Real.log (1 - p)) = min x (-Real.log (1 - p) / 1) + 1 := fun x => by
    rw [div_one, ← min_add_add_right, neg_add_eq_sub]
  rw [timeShare, e2, shiftedExp, integral_map hm.aemeasurable (by fun_prop)]
  simp only [e3]
  rw [integral_add (min_integrable (exp_integrable_id one_pos) _) (integrable_const _), time_exp one_pos h0 h1]
  simp
  ring

/-- Half of the items fail at time 1, the others at time 10. -/
noncomputable def twoAges : Measure ℝ := empiricalLaw [1, 10]

theorem twoAges_facts : IsProbabilityMeasure twoAges ∧ (∀ᵐ x ∂twoAges, 0 < x) ∧ Integrable (fun x => x) twoAges ∧
    IsQuantile twoAges (1 / 4) 1 ∧ IsQuantile twoAges (3 / 4) 10 ∧ 1 / 2 < timeShare twoAges 10 - timeShare twoAges 1 := by
  obtain ⟨hp, hpos, hint⟩ := empirical_facts (xs := [1, 10]) (by simp) (by simp)
  have hcdf : ∀ x, cdf (empiricalLaw [1, 10]) x = fracLe [1, 10] x := fun x => by
    rw [fracLe_empirical, cdf_eq_real, integral_indicator measurableSet_Iic, integral_const, smul_eq_mul, mul_one,
      measureReal_restrict_apply_univ]
  unfold twoAges
  refine ⟨hp, hpos, hint _, ?_, ?_, ?_⟩
  · constructor
    · intro x hx
      rw [hcdf]
      norm_num [fracLe, List.filter_cons, not_le.2 hx, not_le.2 (hx.trans (by norm_num : (1 : ℝ) < 10))]
    · intro x hx
      rw [hcdf]
      by_cases h : (10 : ℝ) ≤ x <;> norm_num [fracLe, List.filter_cons, le_of_lt hx, h]
  · constructor
    · intro x hx
      rw [hcdf]
      by_cases h : (1 : ℝ) ≤ x <;> norm_num [fracLe, List.filter_cons, not_le.2 hx, h]
    · intro x hx
      rw [hcdf]
      norm_num [fracLe, List.filter_cons, le_of_lt hx, (lt_trans (by norm_num : (1 : ℝ) < 10) hx).le]
  · rw [timeShare, timeShare, lawMean, integral_empirical, integral_empirical, integral_empirical]
    norm_num

section
variable (code : String) (params : Option (List (String × ℝ))) (classes : List GeneratorClass)
  (hcl : classes.Perm generatorClasses)

theorem gnedenko_null {r : ℝ} (hr : 0 < r) : haveI := isProbabilityMeasure_expMeasure hr
    ValueSettles ((ExpStat.gnedenko none).statistic code params) (fun _ x => x) (expMeasure r) 1 := by
  have := isProbabilityMeasure_expMeasure hr
  have e := timeShare_exp hr (p := 1 / 2) (by norm_num) (by norm_num)
  have := gnedenko_settles (Expon.ae_pos hr) (exp_integrable_id hr) (exp_quantile hr (by norm_num) (by norm_num))
    (by rw [e]; norm_num) code params
  rw [e] at this
  norm_num at this
  exact this

theorem harris_null {r : ℝ} (hr : 0 < r) : haveI := isProbabilityMeasure_expMeasure hr
    ValueSettles ((ExpStat.harris none).statistic code params) (fun _ x => x) (expMeasure r) 1 := by
  have := isProbabilityMeasure_expMeasure hr
  have e := timeShare_exp hr (p := 1 / 4) (by norm_num) (by norm_num)
  have e' := timeShare_exp hr (p := 3 / 4) (by norm_num) (by norm_num)
  have := harris_settles (Expon.ae_pos hr) (exp_integrable_id hr) (exp_quantile hr (by norm_num) (by norm_num))
    (exp_quantile hr (by norm_num) (by norm_num)) (by rw [e, e']; norm_num) code params
  rw [e, e'] at this
  norm_num at this
  exact this

include hcl in
/-- **C136, Gnedenko** (default split), for the laws on one side: a law with one median is detected if more than half of the
expected lifetime is spent before the median.  Missing: laws with less than half, which are not detected
(`C136_refuted_gnedenko`). -/
theorem C136_gnedenko_partial {r : ℝ} (hr : 0 < r) :
    ∃ G, (Gen.Family.exponential r).simulator classes = .ok G ∧ (∀ n, G.generate n = .ok (iid n (expMeasure r))) ∧
    ∀ Q : Measure ℝ, IsProbabilityMeasure Q → (∀ᵐ x ∂Q, 0 < x) → Integrable (fun x => x) Q →
      ∀ m, IsQuantile Q (1 / 2) m → cdf Q m < 1 → 1 / 2 < timeShare Q m →
      Consistent ((ExpStat.gnedenko none).statistic code params) Q (expMeasure r) := by
  have hpr := isProbabilityMeasure_expMeasure hr
  obtain ⟨G, hG, hgen⟩ := simulates_all (f := .exponential r) fun n => C111_exponential classes hcl r hr n
  refine ⟨G, hG, hgen, fun Q _ hpos hi m hm hF hlt => ?_⟩
  have h1 := share_lt_one hpos hi hF
  exact value_consistent (exponential_meas _ code params) (.of_forall fun _ => strictMono_id)
    (gnedenko_settles hpos hi hm h1 code params) (gnedenko_null code params hr)
    (Or.inl ⟨(fun h => by cases h), (one_lt_div (by linarith)).2 (by linarith)⟩)

/-- **C136, refuted, Gnedenko**: the criterion is judged in the right tail.  The probability that it rejects tends to zero for
every law with one median for which less than half of the expected lifetime is spent before the median, for instance for squares
of exponential variables. -/
theorem C136_refuted_gnedenko {r : ℝ} (hr : 0 < r) :
    (∀ Q : Measure ℝ, IsProbabilityMeasure Q → (∀ᵐ x ∂Q, 0 < x) → Integrable (fun x => x) Q →
      ∀ m, IsQuantile Q (1 / 2) m → timeShare Q m < 1 / 2 →
      Undetected ((ExpStat.gnedenko none).statistic code params) Q (expMeasure r)) ∧
    Undetected ((ExpStat.gnedenko none).statistic code params) squaredExp (expMeasure r) := by
  have hpr := isProbabilityMeasure_expMeasure hr
  have key : ∀ Q : Measure ℝ, IsProbabilityMeasure Q → (∀ᵐ x ∂Q, 0 < x) → Integrable (fun x => x) Q →
      ∀ m, IsQuantile Q (1 / 2) m → timeShare Q m < 1 / 2 →
      Undetected ((ExpStat.gnedenko none).statistic code params) Q (expMeasure r) := fun Q _ hpos hi m hm hlt =>
    value_undetected (exponential_meas _ code params) (.of_forall fun _ => strictMono_id)
      (gnedenko_settles hpos hi hm (by linarith) code params) (gnedenko_null code params hr)
      (Or.inr ⟨rfl, (div_lt_one (by linarith)).2 (by linarith)⟩)
  obtain ⟨h2, h3, h4, -⟩ := squaredExp_facts
  refine ⟨key, key _ h2 h3 h4 _ (squaredExp_quantile (by norm_num) (by norm_num)) ?_⟩
  rw [timeShare_squaredExp (by norm_num) (by norm_num)]
  have := log_share (p := 1 / 2) (by norm_num) (by norm_num)
  linarith

include hcl in
/-- **C136, Harris** (default split), for the laws on one side: a law with different quartiles is detected if less than half of
the expected lifetime is spent between the quartiles.  Missing: laws with more than half, which are not detected
(`C136_refuted_harris`). -/
theorem C136_harris_partial {r : ℝ} (hr : 0 < r) :
    ∃ G, (Gen.Family.exponential r).simulator classes = .ok G ∧ (∀ n, G.generate n = .ok (iid n (expMeasure r))) ∧
    ∀ Q : Measure ℝ, IsProbabilityMeasure Q → (∀ᵐ x ∂Q, 0 < x) → Integrable (fun x => x) Q →
      ∀ s t, IsQuantile Q (1 / 4) s → IsQuantile Q (3 / 4) t → s < t → timeShare Q t - timeShare Q s < 1 / 2 →
      Consistent ((ExpStat.harris none).statistic code params) Q (expMeasure r) := by
  have hpr := isProbabilityMeasure_expMeasure hr
  obtain ⟨G, hG, hgen⟩ := simulates_all (f := .exponential r) fun n => C111_exponential classes hcl r hr n
  refine ⟨G, hG, hgen, fun Q _ hpos hi s t hs ht hst hlt => ?_⟩
  have h1 := share_strict hpos hi (by norm_num) ht hst
  refine value_consistent (exponential_meas _ code params) (.of_forall fun _ => strictMono_id)
    (harris_settles hpos hi hs ht h1 code params) (harris_null code params hr) (Or.inl ⟨(fun h => by cases h), ?_⟩)
  have : 2 < 1 / (timeShare Q t - timeShare Q s) := (lt_div_iff₀ (by linarith)).2 (by linarith)
  linarith

/-- **C136, refuted, Harris**: the probability that the criterion rejects tends to zero for every law for which more than half of
the expected lifetime is spent between the quartiles, for instance if half of the items fail early and the others late. -/
theorem C136_refuted_harris {r : ℝ} (hr : 0 < r) :
    (∀ Q : Measure ℝ, IsProbabilityMeasure Q → (∀ᵐ x ∂Q, 0 < x) → Integrable (fun x => x) Q →
      ∀ s t, IsQuantile Q (1 / 4) s → IsQuantile Q (3 / 4) t → 1 / 2 < timeShare Q t - timeShare Q s →
      Undetected ((ExpStat.harris none).statistic code params) Q (expMeasure r)) ∧
    Undetected ((ExpStat.harris none).statistic code params) twoAges (expMeasure r) := by
  have hpr := isProbabilityMeasure_expMeasure hr
  have key : ∀ Q : Measure ℝ, IsProbabilityMeasure Q → (∀ᵐ x ∂Q, 0 < x) → Integrable (fun x => x) Q →
      ∀ s t, IsQuantile Q (1 / 4) s → IsQuantile Q (3 / 4) t → 1 / 2 < timeShare Q t - timeShare Q s →
      Undetected ((ExpStat.harris none).statistic code params) Q (expMeasure r) := fun Q _ hpos hi s t hs ht hlt => by
    refine value_undetected (exponential_meas _ code params) (.of_forall fun _ => strictMono_id)
      (harris_settles hpos hi hs ht (by linarith) code params) (harris_null code params hr) (Or.inr ⟨rfl, ?_⟩)
    have : 1 / (timeShare Q t - timeShare Q s) < 2 := (div_lt_iff₀ (by linarith)).2 (by linarith)
    linarith
  obtain ⟨h1, h2, h3, h4, h5, h6⟩ := twoAges_facts
  exact ⟨key, key _ h1 h2 h3 1 10 h4 h5 h6⟩

end

/-- Both criteria detect a guaranteed lifetime. -/
example : Consistent ((ExpStat.gnedenko none).statistic "" none) shiftedExp (expMeasure 2) ∧
    Consistent ((ExpStat.harris none).statistic "" none) shiftedExp (expMeasure 2) := by
  obtain ⟨h1, h2, h3, h4, -⟩ := shiftedExp_facts
  have hpos : ∀ᵐ x ∂shiftedExp, 0 < x := h2.mono fun x hx => one_pos.trans hx
  obtain ⟨_, _, _, h⟩ := C136_gnedenko_partial "" none _ (List.Perm.refl _) two_pos
  obtain ⟨_, _, _, h'⟩ := C136_harris_partial "" none _ (List.Perm.refl _) two_pos
  have q := fun {p : ℝ} (h0 : 0 < p) (h1 : p < 1) => shiftedExp_quantile h0 h1
  have sh := fun {p : ℝ} (h0 : 0 < p) (h1 : p < 1) => timeShare_shiftedExp h0 h1
  refine ⟨h _ h1 hpos h3 _ (q (by norm_num) (by norm_num)) ?_ ?_,
    h' _ h1 hpos h3 _ _ (q (by norm_num) (by norm_num)) (q (by norm_num) (by norm_num)) ?_ ?_⟩
  · exact lt_of_le_of_lt (monotone_cdf _ (show 1 - Real.log (1 - 1 / 2) ≤ 1 - Real.log (1 - 3 / 4) by
      have := Real.log_le_log (show (0 : ℝ) < 1 - 3 / 4 by norm_num) (show (1 - 3 / 4 : ℝ) ≤ 1 - 1 / 2 by norm_num)
      linarith)) (lt_trans ((q (p := 7 / 8) (by norm_num) (by norm_num)).1 _ (by
        have := Real.log_lt_log (show (0 : ℝ) < 1 - 7 / 8 by norm_num) (show (1 - 7 / 8 : ℝ) < 1 - 3 / 4 by norm_num)
        linarith)) (by norm_num))
  · rw [sh (by norm_num) (by norm_num)]; norm_num
  · have := Real.log_lt_log (show (0 : ℝ) < 1 - 3 / 4 by norm_num) (show (1 - 3 / 4 : ℝ) < 1 - 1 / 4 by norm_num)
    linarith
  · rw [sh (by norm_num) (by norm_num), sh (by norm_num) (by norm_num)]; norm_num

end Pysatl.Props
