import Verif.Props.LimitLawHermite
import Verif.Props.SamplingLaws

/-! # C138: robust Jarque-Bera, for large normal samples -/

namespace Pysatl.Props

open Pysatl.Decision Pysatl.Resolver Pysatl.Spec Pysatl.Edf Pysatl.Graph Pysatl.Gen Pysatl.Normal Pysatl.Exponent
open MeasureTheory ProbabilityTheory Filter Topology

/-! ### Medians of large samples -/

theorem median_le_count {xs : List ℝ} {o : ℕ → ℝ} (ho : OrderStats xs o) (hn : xs ≠ []) {c : ℝ}
    (h : medianOf xs.length o ≤ c) : (xs.length : ℝ) / 2 ≤ xs.countP (fun x => decide (x ≤ c)) := by
  have hl := List.length_pos_iff.2 hn
  have key : ∀ i, 1 ≤ i → i ≤ xs.length → o i ≤ c → i ≤ xs.countP (fun x => decide (x ≤ c)) := fun i h1 h2 hc =>
    (ho i h1 h2).2.2.trans (List.countP_mono_left fun x _ hx => by
      simp only [decide_eq_true_eq] at hx ⊢
      exact hx.trans hc)
  rw [medianOf] at h
  have hcast : ∀ k : ℕ, xs.length ≤ 2 * k → (xs.length : ℝ) / 2 ≤ k := fun k hk => by
    have : (xs.length : ℝ) ≤ 2 * k := by exact_mod_cast hk
    linarith
  rcases le_total (o ((xs.length + 1) / 2)) (o (xs.length / 2 + 1)) with ha | ha
  · exact (hcast _ (by omega)).trans (Nat.cast_le.2 (key ((xs.length + 1) / 2) (by omega) (by omega) (by linarith)))
  · by_cases h2 : xs.length / 2 + 1 ≤ xs.length
    · exact (hcast _ (by omega)).trans (Nat.cast_le.2 (key (xs.length / 2 + 1) (by omega) h2 (by linarith)))
    · omega

theorem median_ge_count {xs : List ℝ} {o : ℕ → ℝ} (ho : OrderStats xs o) (hn : xs ≠ []) {c : ℝ}
    (h : c ≤ medianOf xs.length o) : (xs.countP (fun x => decide (x < c)) : ℝ) ≤ (xs.length : ℝ) / 2 := by
  have hl := List.length_pos_iff.2 hn
  have key : ∀ i, 1 ≤ i → i ≤ xs.length → c ≤ o i → xs.countP (fun x => decide (x < c)) < i := fun i h1 h2 hc =>
    lt_of_le_of_lt (List.countP_mono_left fun x _ hx => by
      simp only [decide_eq_true_eq] at hx ⊢
      exact hx.trans_le hc) (ho i h1 h2).2.1
  rw [medianOf] at h
  have hcast : ∀ k : ℕ, 2 * k ≤ xs.length → (k : ℝ) ≤ (xs.length : ℝ) / 2 := fun k hk => by
    have : 2 * (k : ℝ) ≤ xs.length := by exact_mod_cast hk
    linarith
  rcases le_total (o ((xs.length + 1) / 2)) (o (xs.length / 2 + 1)) with ha | ha
  · have := key (xs.length / 2 + 1) (by omega) (by omega) (by linarith)
    exact hcast _ (by omega)
  · have := key ((xs.length + 1) / 2) (by omega) (by omega) (by linarith)
    exact hcast _ (by omega)

section
variable (m : ℝ) {v : ℝ} (hv : 0 < v)

include hv in
theorem cdf_at (x : ℝ) : cdf (gaussianReal m v.toNNReal) x = Phi ((x - m) / √v) := by
  have h : cdf (gaussianReal m v.toNNReal) x = (gaussianReal 0 1).real (Set.Iic ((x - m) / √v)) := by
    rw [cdf_eq_real, ← map_zval m hv, Measure.real, Measure.real, Measure.map_apply (measurable_zval m v) measurableSet_Iic]
    congr 2
    ext y
    simp only [Set.mem_Iic, Set.mem_preimage, zval]
    rw [div_le_div_iff_of_pos_right (Real.sqrt_pos.2 hv), sub_le_sub_iff_right]
  rw [h, Phi_eq]

theorem Phi_half : Phi 0 = 1 / 2 := by
  have := Phi_neg 0
  rw [neg_zero] at this
  linarith

/-- The median of a sample, as the code computes it. -/
noncomputable def sampleMedian (n : ℕ) (ω : ℕ → ℝ) : ℝ := median (sort (List.ofFn (firsts n ω)))

theorem measurable_sampleMedian (n : ℕ) : Measurable (sampleMedian n) :=
  ((listMeas_ofFn n).sort.median).comp (measurable_firsts n)

include hv in
/-- The median of a large normal sample is close to the mean of the law. -/
theorem sampleMedian_settles : ∀ᵐ ω ∂seqLaw (gaussianReal m v.toNNReal),
    Tendsto (fun n => sampleMedian n ω) atTop (𝓝 m) := by
  have hc : ∀ x, ContinuousAt (cdf (gaussianReal m v.toNNReal)) x := fun x => by
    have e : (cdf (gaussianReal m v.toNNReal) : ℝ → ℝ) = fun x => Phi ((x - m) / √v) := funext (cdf_at m hv)
    rw [e]
    exact (Phi_continuous.comp (by fun_prop)).continuousAt
  have hs := Real.sqrt_pos.2 hv
  filter_upwards [empirical_cdf (μ := gaussianReal m v.toNNReal)] with ω hω
  rw [Metric.tendsto_nhds]
  intro ε hε
  have h1 := empirical_cdf_at hω (tendsto_const_nhds (x := m - ε)) (hc _)
  have h2 := empirical_cdf_at hω (tendsto_const_nhds (x := m + ε / 2)) (hc _)
  have l1 : cdf (gaussianReal m v.toNNReal) (m - ε) < 1 / 2 := by
    rw [cdf_at m hv, ← Phi_half]
    exact Phi_strictMono (div_neg_of_neg_of_pos (by linarith) hs)
  have l2 : 1 / 2 < cdf (gaussianReal m v.toNNReal) (m + ε / 2) := by
    rw [cdf_at m hv, ← Phi_half]
    exact Phi_strictMono (div_pos (by linarith) hs)
  filter_upwards [h1.eventually (gt_mem_nhds l1), h2.eventually (lt_mem_nhds l2), eventually_gt_atTop 0] with n g1 g2 hn
  have hne : List.ofFn (firsts n ω) ≠ [] := by simpa using hn.ne'
  obtain ⟨o, ho⟩ := exists_orderStats (List.ofFn (firsts n ω))
  have e := median_spec hne ho
  have hn0 : (0 : ℝ) < n := by exact_mod_cast hn
  rw [fracLe_eq, List.length_ofFn, div_lt_iff₀ hn0] at g1
  rw [fracLe_eq, List.length_ofFn, lt_div_iff₀ hn0] at g2
  rw [Real.dist_eq, abs_lt, sampleMedian, e]
  constructor
  · by_contra hh
    have := median_le_count ho hne (c := m - ε) (by linarith)
    rw [List.length_ofFn] at this
    linarith
  · by_contra hh
    have h3 := median_ge_count ho hne (c := m + ε) (by linarith)
    rw [List.length_ofFn] at h3
    have h4 : (List.ofFn (firsts n ω)).countP (fun x => decide (x ≤ m + ε / 2)) ≤
        (List.ofFn (firsts n ω)).countP (fun x => decide (x < m + ε)) :=
      List.countP_mono_left fun x _ hx => by
        simp only [decide_eq_true_eq] at hx ⊢
        linarith
    have h5 : ((List.ofFn (firsts n ω)).countP (fun x => decide (x ≤ m + ε / 2)) : ℝ) ≤
        (List.ofFn (firsts n ω)).countP (fun x => decide (x < m + ε)) := by exact_mod_cast h4
    linarith

/-! ### The mean deviation from the median -/

/-- The standardised median, and the mean deviation of the standardised values from it. -/
noncomputable def zmed (m v : ℝ) (n : ℕ) (ω : ℕ → ℝ) : ℝ := (sampleMedian n ω - m) / √v
noncomputable def zdev (m v : ℝ) (n : ℕ) (ω : ℕ → ℝ) : ℝ := avg (fun x => |zval m v x - zmed m v n ω|) n ω

theorem measurable_zmed (v : ℝ) (n : ℕ) : Measurable (zmed m v n) :=
  ((measurable_sampleMedian n).sub_const _).div_const _

theorem measurable_zdev (v : ℝ) (n : ℕ) : Measurable (zdev m v n) := by
  have h := measurable_zmed m v n
  have hz := measurable_zval m v
  have e : zdev m v n = fun ω => (∑ i ∈ Finset.range n, |zval m v (ω i) - zmed m v n ω|) / n := rfl
  rw [e]
  exact (Finset.measurable_sum _ fun i _ => ((hz.comp (measurable_pi_apply i)).sub h).abs).div_const _

include hv in
theorem zmed_settles : ∀ᵐ ω ∂seqLaw (gaussianReal m v.toNNReal), Tendsto (fun n => zmed m v n ω) atTop (𝓝 0) := by
  filter_upwards [sampleMedian_settles m hv] with ω h
  have := (h.sub_const m).div_const √v
  rw [sub_self, zero_div] at this
  exact this

include hv in
theorem absDeviation_zdev (n : ℕ) (ω : ℕ → ℝ) :
    absDeviation (sampleMedian n ω) (List.ofFn (firsts n ω)) = √v * zdev m v n ω := by
  have hs := Real.sqrt_pos.2 hv
  rw [absDeviation, meanOf_empirical, integral_firsts, zdev, avg, ← mul_div_assoc, Finset.mul_sum]
  congr 1
  refine Finset.sum_congr rfl fun i _ => ?_
  rw [zval, zmed, ← sub_div, abs_div, abs_of_pos hs, sub_sub_sub_cancel_right, mul_div_cancel₀ _ hs.ne']

theorem zdev_lower (n : ℕ) (ω : ℕ → ℝ) :
    avg (fun x => |zval m v x|) n ω - zmed m v n ω * avg (fun x => Real.sign (zval m v x)) n ω ≤ zdev m v n ω := by
  simp only [zdev, avg]
  rw [← mul_div_assoc, ← sub_div]
  refine div_le_div_of_nonneg_right ?_ (Nat.cast_nonneg n)
  rw [Finset.mul_sum, ← Finset.sum_sub_distrib]
  refine Finset.sum_le_sum fun i _ => ?_
  generalize zval m v (ω i) = z
  generalize zmed m v n ω = a
  rcases lt_trichotomy z 0 with h | h | h
  · rw [Real.sign_of_neg h, abs_of_neg h]
    have := neg_le_abs (z - a)
    linarith
  · rw [h, Real.sign_zero, abs_zero]
    simp
  · rw [Real.sign_of_pos h, abs_of_pos h]
    have := le_abs_self (z - a)
    linarith

include hv in
theorem zdev_upper (n : ℕ) (ω : ℕ → ℝ) : zdev m v n ω ≤ avg (fun x => |zval m v x|) n ω := by
  rcases Nat.eq_zero_or_pos n with h | hn
  · subst h
    simp [zdev, avg]
  have hs := Real.sqrt_pos.2 hv
  have hne : List.ofFn (firsts n ω) ≠ [] := by simpa using hn.ne'
  obtain ⟨o, ho⟩ := exists_orderStats (List.ofFn (firsts n ω))
  have h1 := median_least hne ho m
  rw [← median_spec hne ho] at h1
  change absDeviation (sampleMedian n ω) _ ≤ _ at h1
  rw [absDeviation_zdev m hv] at h1
  have e : absDeviation m (List.ofFn (firsts n ω)) = √v * avg (fun x => |zval m v x|) n ω := by
    rw [absDeviation, meanOf_empirical, integral_firsts, avg, ← mul_div_assoc, Finset.mul_sum]
    congr 1
    refine Finset.sum_congr rfl fun i _ => ?_
    rw [zval, abs_div, abs_of_pos hs, mul_div_cancel₀ _ hs.ne']
  rw [e] at h1
  exact le_of_mul_le_mul_left h1 hs

theorem stdNormal_sign : ∫ x, Real.sign x ∂gaussianReal 0 1 = 0 := by
  have hm : (gaussianReal 0 1).map (fun y : ℝ => -y) = gaussianReal 0 1 := by
    have := gaussianReal_map_neg (μ := 0) (v := 1)
    simpa using this
  have h : ∫ x, Real.sign x ∂gaussianReal 0 1 = ∫ x, Real.sign (-x) ∂gaussianReal 0 1 := by
    conv_lhs => rw [← hm]
    rw [integral_map (by fun_prop) measurable_sign.aestronglyMeasurable]
  simp only [Real.sign_neg, integral_neg] at h
  linarith

theorem memLp_sign : MemLp Real.sign 2 (gaussianReal 0 1) :=
  MemLp.of_bound measurable_sign.aestronglyMeasurable 1 (ae_of_all _ fun x => by
    rcases Real.sign_apply_eq x with h | h | h <;> simp [h])

theorem memLp_abs : MemLp (fun x : ℝ => |x|) 2 (gaussianReal 0 1) := by
  have := (memLp_pow 1).abs
  simp only [pow_one] at this
  exact this

theorem integrable_abs : Integrable (fun x : ℝ => |x|) (gaussianReal 0 1) := memLp_abs.integrable (by norm_num)

theorem root_pi : √(Real.pi / 2) * √(2 / Real.pi) = 1 := by
  rw [← Real.sqrt_mul (by positivity), div_mul_div_comm, mul_comm Real.pi 2, div_self (by positivity), Real.sqrt_one]

/-- The centred absolute value. -/
noncomputable def absDev (x : ℝ) : ℝ := √(Real.pi / 2) * |x| - 1

theorem measurable_absDev : Measurable absDev := by unfold absDev; fun_prop
theorem memLp_absDev : MemLp absDev 2 (gaussianReal 0 1) := (memLp_abs.const_mul _).sub (memLp_const 1)

theorem absDev_mean : ∫ x, absDev x ∂gaussianReal 0 1 = 0 := by
  unfold absDev
  rw [integral_sub (integrable_abs.const_mul _) (integrable_const 1), integral_const_mul, stdNormal_abs, root_pi]
  simp

include hv in
theorem small_zdev : Small (gaussianReal m v.toNNReal)
    (fun n ω => √(n : ℝ) * (zdev m v n ω - avg (fun x => |zval m v x|) n ω)) := by
  have ht := tight_zval m hv measurable_sign memLp_sign stdNormal_sign
  have hs : Small (gaussianReal m v.toNNReal) (zmed m v) := Small.of_ae (measurable_zmed m v) (zmed_settles m hv)
  have hz := measurable_zval m v
  refine Small.of_le (fun n => ((measurable_zdev m v n).sub (measurable_avg (by fun_prop) n)).const_mul _) (ht.mul_small hs)
    (ae_of_all _ fun ω => .of_forall fun n => ?_)
  have h1 := zdev_lower m (v := v) n ω
  have h2 := zdev_upper m hv n ω
  have hn := Real.sqrt_nonneg (n : ℝ)
  rw [rootAvg, mul_assoc, abs_mul, abs_mul (√(n : ℝ))]
  refine mul_le_mul_of_nonneg_left ?_ (abs_nonneg _)
  rw [abs_sub_comm, abs_of_nonneg (by linarith), mul_comm]
  exact le_trans (by linarith) (le_abs_self _)

include hv in
/-- The scaled mean deviation from the median is close to an average. -/
theorem near_zdev : Near (gaussianReal m v.toNNReal) (fun n ω => √(n : ℝ) * (√(Real.pi / 2) * zdev m v n ω - 1))
    (rootAvg fun x => absDev (zval m v x)) := by
  refine (Near.of_small (W := rootAvg fun x => absDev (zval m v x)) ((small_zdev m hv).const_mul √(Real.pi / 2))).congr
    (ae_of_all _ fun ω => ?_)
  filter_upwards [eventually_gt_atTop 0] with n hn
  have hn' : (n : ℝ) ≠ 0 := by exact_mod_cast hn.ne'
  have e : avg (fun x => absDev (zval m v x)) n ω = √(Real.pi / 2) * avg (fun x => |zval m v x|) n ω - 1 := by
    simp only [avg, absDev, Finset.sum_sub_distrib, ← Finset.mul_sum, Finset.sum_const, Finset.card_range, nsmul_eq_mul]
    field_simp
  rw [rootAvg, e]
  ring

include hv in
theorem zdev_settles : ∀ᵐ ω ∂seqLaw (gaussianReal m v.toNNReal),
    Tendsto (fun n => √(Real.pi / 2) * zdev m v n ω) atTop (𝓝 1) := by
  have hz := measurable_zval m v
  have hi : Integrable (fun x => |zval m v x|) (gaussianReal m v.toNNReal) :=
    (memLp_zval m hv memLp_abs).integrable (by norm_num)
  have hl := law_of_large_numbers (μ := gaussianReal m v.toNNReal) (f := fun x => |zval m v x|) (by fun_prop) hi
  rw [integral_zval m hv (f := fun x => |x|) (by fun_prop), stdNormal_abs] at hl
  have hsg := law_of_large_numbers (μ := gaussianReal m v.toNNReal) (f := fun x => Real.sign (zval m v x))
    (measurable_sign.comp hz) ((memLp_zval m hv memLp_sign).integrable (by norm_num))
  filter_upwards [hl, hsg, zmed_settles m hv] with ω a b c
  have h1 := a.sub (c.mul b)
  rw [zero_mul, sub_zero] at h1
  have := (tendsto_of_tendsto_of_tendsto_of_le_of_le h1 a (fun n => zdev_lower m n ω) fun n => zdev_upper m hv n ω).const_mul
    √(Real.pi / 2)
  rwa [root_pi] at this

/-! ### Moments over the mean deviation -/

include hv in
/-- The third central moment, over the variance of the hypothesis. -/
theorem near_third : Near (gaussianReal m v.toNNReal)
    (fun n ω => √(n : ℝ) * avg (fun x => (zval m v x - zavg m v 1 n ω) ^ 3) n ω) (rootAvg fun x => he3 (zval m v x)) := by
  have hr : Near (gaussianReal m v.toNNReal) (fun n ω => √(zvar m v n ω) ^ 3) (fun _ _ => 1) := by
    refine Near.of_ae (fun n => (measurable_zvar m v n).sqrt.pow_const 3) ?_
    filter_upwards [zvar_settles m hv] with ω a
    simpa using a.sqrt.pow 3
  have h := (near_skewness m hv).mul hr (tight_zval m hv measurable_he3 memLp_he3 hermite_integrals.1) (Tight.const 1)
  refine (h.of_eq fun n ω => mul_one _).congr ?_
  filter_upwards [zvar_settles m hv] with ω a
  filter_upwards [eventually_gt_atTop 0, a.eventually (lt_mem_nhds one_pos)] with n hn hz
  have hs := (Real.sqrt_pos.2 hz).ne'
  rw [← stdMom_skewness, stdMom, standardised_zavg m hv hn]
  field_simp

/-- The centred fourth power. -/
def fourthDev (x : ℝ) : ℝ := x ^ 4 - 3

theorem memLp_fourthDev : MemLp fourthDev 2 (gaussianReal 0 1) := (memLp_pow 4).sub (memLp_const 3)

theorem fourthDev_mean : ∫ x, fourthDev x ∂gaussianReal 0 1 = 0 := by
  unfold fourthDev
  rw [integral_sub (stdNormal_power 4) (integrable_const 3), stdNormal_moments.2.2.1]
  simp

include hv in
theorem near_fourth : Near (gaussianReal m v.toNNReal)
    (fun n ω => √(n : ℝ) * (avg (fun x => (zval m v x - zavg m v 1 n ω) ^ 4) n ω - 3))
    (rootAvg fun x => fourthDev (zval m v x)) := by
  have s1 : Small (gaussianReal m v.toNNReal) (fun n ω => -4 * zavg m v 3 n ω + 6 * (zavg m v 1 n ω * zavg m v 2 n ω) -
      3 * zavg m v 1 n ω ^ 3) := by
    refine Small.of_ae (fun n => ((((measurable_zavg m v 3 n)).const_mul (-4)).add
      (((measurable_zavg m v 1 n).mul (measurable_zavg m v 2 n)).const_mul 6)).sub
      (((measurable_zavg m v 1 n).pow_const 3).const_mul 3)) ?_
    filter_upwards [zavg_all m hv] with ω h
    obtain ⟨a, b, c, -, -⟩ := h
    have := ((c.const_mul (-4)).add ((a.mul b).const_mul 6)).sub ((a.pow 3).const_mul 3)
    norm_num only at this
    exact this
  refine (Near.of_small (W := rootAvg fun x => fourthDev (zval m v x)) ((tight_first m hv).mul_small s1)).congr
    (ae_of_all _ fun ω => ?_)
  filter_upwards [eventually_gt_atTop 0] with n hn
  have hn' : (n : ℝ) ≠ 0 := by exact_mod_cast hn.ne'
  have e : avg (fun x => fourthDev (zval m v x)) n ω = zavg m v 4 n ω - 3 := by
    simp only [avg, fourthDev, zavg, Finset.sum_sub_distrib, Finset.sum_const, Finset.card_range, nsmul_eq_mul]
    field_simp
  rw [zavg_fourth m hn, rootAvg, e]
  ring

/-- How one observation acts on the fourth moment over the fourth power of the mean deviation. -/
noncomputable def robustDev (x : ℝ) : ℝ := fourthDev x - 12 * absDev x

include hv in
theorem near_robust : Near (gaussianReal m v.toNNReal)
    (fun n ω => √(n : ℝ) * (avg (fun x => (zval m v x - zavg m v 1 n ω) ^ 4) n ω / (√(Real.pi / 2) * zdev m v n ω) ^ 4 - 3))
    (rootAvg fun x => robustDev (zval m v x)) := by
  have ta := tight_zval m hv measurable_absDev memLp_absDev absDev_mean
  have tf := tight_zval m hv (f := fourthDev) (by unfold fourthDev; fun_prop) memLp_fourthDev fourthDev_mean
  have mj : ∀ n, Measurable fun ω => √(Real.pi / 2) * zdev m v n ω := fun n => (measurable_zdev m v n).const_mul _
  have h1 : Near (gaussianReal m v.toNNReal) (fun n ω => (√(Real.pi / 2) * zdev m v n ω + 1) *
      ((√(Real.pi / 2) * zdev m v n ω) ^ 2 + 1)) (fun _ _ => 4) := by
    refine Near.of_ae (fun n => ((mj n).add_const 1).mul (((mj n).pow_const 2).add_const 1)) ?_
    filter_upwards [zdev_settles m hv] with ω a
    have := (a.add_const 1).mul ((a.pow 2).add_const 1)
    norm_num only at this
    exact this
  have h2 : Near (gaussianReal m v.toNNReal) (fun n ω => ((√(Real.pi / 2) * zdev m v n ω) ^ 4)⁻¹) (fun _ _ => 1) := by
    refine Near.of_ae (fun n => ((mj n).pow_const 4).inv) ?_
    filter_upwards [zdev_settles m hv] with ω a
    have := (a.pow 4).inv₀ (by norm_num)
    norm_num only at this
    exact this
  have h3 := ((near_zdev m hv).mul h1 ta (Tight.const 4)).mul (Near.refl fun _ _ => -3) (ta.mul (Tight.const 4)) (Tight.const _)
  have h4 := ((near_fourth m hv).add h3).mul h2 (tf.add ((ta.mul (Tight.const 4)).mul (Tight.const _))) (Tight.const 1)
  refine (h4.of_eq fun n ω => ?_).congr ?_
  · simp only [rootAvg, avg, robustDev, Finset.sum_sub_distrib, ← Finset.mul_sum]
    ring
  · filter_upwards [zdev_settles m hv] with ω a
    filter_upwards [a.eventually (lt_mem_nhds one_pos)] with n hj
    generalize √(Real.pi / 2) * zdev m v n ω = j at *
    generalize avg (fun x => (zval m v x - zavg m v 1 n ω) ^ 4) n ω = c
    field_simp
    ring

include hv in
theorem near_robustSkew : Near (gaussianReal m v.toNNReal)
    (fun n ω => √(n : ℝ) * (avg (fun x => (zval m v x - zavg m v 1 n ω) ^ 3) n ω / (√(Real.pi / 2) * zdev m v n ω) ^ 3))
    (rootAvg fun x => he3 (zval m v x)) := by
  have h2 : Near (gaussianReal m v.toNNReal) (fun n ω => ((√(Real.pi / 2) * zdev m v n ω) ^ 3)⁻¹) (fun _ _ => 1) := by
    refine Near.of_ae (fun n => (((measurable_zdev m v n).const_mul _).pow_const 3).inv) ?_
    filter_upwards [zdev_settles m hv] with ω a
    have := (a.pow 3).inv₀ (by norm_num)
    norm_num only at this
    exact this
  have h := (near_third m hv).mul h2 (tight_zval m hv measurable_he3 memLp_he3 hermite_integrals.1) (Tight.const 1)
  exact (h.of_eq fun n ω => mul_one _).congr (ae_of_all _ fun ω => .of_forall fun n => by
    rw [div_eq_mul_inv, mul_assoc])

end

/-! ### Moments of the influence function -/

theorem measurable_robustDev : Measurable robustDev := by unfold robustDev fourthDev absDev; fun_prop
theorem memLp_robustDev : MemLp robustDev 2 (gaussianReal 0 1) := memLp_fourthDev.sub (memLp_absDev.const_mul 12)

theorem robustDev_mean : ∫ x, robustDev x ∂gaussianReal 0 1 = 0 := by
  unfold robustDev
  rw [integral_sub (memLp_fourthDev.integrable (by norm_num)) ((memLp_absDev.integrable (by norm_num)).const_mul 12),
    integral_const_mul, fourthDev_mean, absDev_mean]
  norm_num

theorem stdNormal_abs_fifth : ∫ x, x ^ 4 * |x| ∂gaussianReal 0 1 = 8 * √(2 / Real.pi) := by
  have h := stdNormal_abs_moment 5 (by norm_num)
  have e : ∀ x : ℝ, |x| ^ (5 : ℝ) = x ^ 4 * |x| := fun x => by
    rw [show (5 : ℝ) = ((5 : ℕ) : ℝ) by norm_num, Real.rpow_natCast, pow_succ, Even.pow_abs (by decide)]
  simp only [e] at h
  rw [h, show ((5 : ℝ) + 1) / 2 = 1 + 1 + 1 by norm_num, Real.Gamma_add_one (by norm_num), Real.Gamma_add_one (by norm_num),
    Real.Gamma_one, show (5 : ℝ) / 2 = 1 / 2 + ((2 : ℕ) : ℝ) by norm_num, Real.rpow_add two_pos, Real.rpow_natCast,
    ← Real.sqrt_eq_rpow, Real.sqrt_div two_pos.le]
  ring

theorem integrable_abs_fifth : Integrable (fun x : ℝ => x ^ 4 * |x|) (gaussianReal 0 1) := by
  have := (memLp_pow 4).integrable_mul memLp_abs
  exact this

/-- The variance of the second term of the criterion, `72 π - 168`, is not the one it is divided by. -/
theorem robustDev_sq : ∫ x, robustDev x ^ 2 ∂gaussianReal 0 1 = 72 * Real.pi - 168 := by
  have hp : √(Real.pi / 2) ^ 2 = Real.pi / 2 := Real.sq_sqrt (by positivity)
  set a := √(Real.pi / 2) with ha
  have e : ∀ x : ℝ, robustDev x ^ 2 = (x ^ 8 + 18 * x ^ 4 + 72 * Real.pi * x ^ 2 + 81) +
      (-24 * a) * (x ^ 4 * |x|) + (-216 * a) * |x| := fun x => by
    rw [robustDev, fourthDev, absDev, ← ha]
    have h2 : |x| ^ 2 = x ^ 2 := sq_abs x
    have : (x ^ 4 - 3 - 12 * (a * |x| - 1)) ^ 2 = x ^ 8 + 18 * x ^ 4 + 144 * (a ^ 2) * |x| ^ 2 + 81 +
      (-24 * a) * (x ^ 4 * |x|) + (-216 * a) * |x| := by ring
    rw [this, hp, h2]
    ring
  simp only [e]
  have i8 := stdNormal_power 8
  have i4 := (stdNormal_power 4).const_mul 18
  have i2 := (stdNormal_power 2).const_mul (72 * Real.pi)
  have i0 : Integrable (fun _ : ℝ => (81 : ℝ)) (gaussianReal 0 1) := integrable_const 81
  have j5 := integrable_abs_fifth.const_mul (-24 * a)
  have j1 := integrable_abs.const_mul (-216 * a)
  obtain ⟨-, m2, m4, -, m8⟩ := stdNormal_moments
  rw [integral_add (by exact ((((i8.add i4).add i2).add i0).add j5)) j1, integral_add (by exact ((i8.add i4).add i2).add i0) j5,
    integral_add (by exact (i8.add i4).add i2) i0, integral_add (by exact i8.add i4) i2, integral_add i8 i4]
  simp only [integral_const_mul, m2, m4, m8, stdNormal_abs_fifth, stdNormal_abs]
  have h1 := root_pi
  rw [← ha] at h1
  have : a * √(2 / Real.pi) = 1 := h1
  simp only [integral_const, probReal_univ, smul_eq_mul]
  linear_combination (-24 * 8 - 216) * this

theorem robustDev_he3 : ∫ x, he3 x * robustDev x ∂gaussianReal 0 1 = 0 := by
  have hm : (gaussianReal 0 1).map (fun y : ℝ => -y) = gaussianReal 0 1 := by
    have := gaussianReal_map_neg (μ := 0) (v := 1)
    simpa using this
  have h : ∫ x, he3 x * robustDev x ∂gaussianReal 0 1 = ∫ x, he3 (-x) * robustDev (-x) ∂gaussianReal 0 1 := by
    conv_lhs => rw [← hm]
    have hw : Measurable fun x => he3 x * robustDev x := measurable_he3.mul measurable_robustDev
    rw [integral_map (by fun_prop) hw.aestronglyMeasurable]
  have e : ∀ x, he3 (-x) * robustDev (-x) = -(he3 x * robustDev x) := fun x => by
    simp only [he3, robustDev, fourthDev, absDev, abs_neg]
    ring
  simp only [e, integral_neg] at h
  linarith

/-! ### The limit law -/

/-- The law of `X² + c Y²` for independent standard normal `X` and `Y`. -/
noncomputable def weightedSquares (c : ℝ) : Measure ℝ :=
  ((gaussianReal 0 1).prod (gaussianReal 0 1)).map fun p => p.1 ^ 2 + c * p.2 ^ 2

theorem weightedSquares_gaussian (c : ℝ) :
    (stdGaussian (EuclideanSpace ℝ (Fin 2))).map (fun x => x 0 ^ 2 + c * x 1 ^ 2) = weightedSquares c := by
  rw [← map_pi_eq_stdGaussian, Measure.map_map (by fun_prop) (by fun_prop), weightedSquares,
    ← (measurePreserving_finTwoArrow (gaussianReal 0 1)).map_eq, Measure.map_map (by fun_prop) (by fun_prop)]
  rfl

theorem weightedSquares_probability (c : ℝ) : IsProbabilityMeasure (weightedSquares c) :=
  Measure.isProbabilityMeasure_map (by fun_prop)

theorem weightedSquares_one : weightedSquares 1 = chiSquareLaw 2 := by
  rw [← sum_squares_law, ← weightedSquares_gaussian]
  simp only [one_mul]

theorem limitLaw_weighted {st : Statistic ℝ} {P : Measure ℝ} [IsProbabilityMeasure P] {c : ℝ}
    (hm : ∀ n, OutcomeMeas fun x : Fin n → ℝ => st.execute (List.ofFn x)) {T S : ℕ → (ℕ → ℝ) → ℝ}
    (hT : ∀ᵐ ω ∂seqLaw P, ∀ᶠ n in atTop, st.execute (List.ofFn (firsts n ω)) = .ok (T n ω ^ 2 + c * S n ω ^ 2))
    {f g : ℝ → ℝ} (hf : Measurable f) (hg : Measurable g) (hf2 : MemLp f 2 P) (hg2 : MemLp g 2 P)
    (hf0 : ∫ x, f x ∂P = 0) (hg0 : ∫ x, g x ∂P = 0) (hff : ∫ x, f x ^ 2 ∂P = 1) (hgg : ∫ x, g x ^ 2 ∂P = 1)
    (hfg : ∫ x, f x * g x ∂P = 0) (h1 : Near P T (rootAvg f)) (h2 : Near P S (rootAvg g)) :
    LimitLaw st P (weightedSquares c) := by
  have := weightedSquares_probability c
  have hft := tight_rootAvg hf hf2 hf0
  have hgt := tight_rootAvg hg hg2 hg0
  have hn := (h1.mul h1 hft hft).add ((h2.mul h2 hgt hgt).mul (Near.refl fun _ _ => c) (hgt.mul hgt) (Tight.const c))
  have hc := (clt_pair hf hg hf2 hg2 hf0 hg0 hff hgg hfg).continuous_comp
    (g := fun x : EuclideanSpace ℝ (Fin 2) => x 0 ^ 2 + c * x 1 ^ 2) (by fun_prop)
  have hm1 := measurable_rootAvg hf
  have hm2 := measurable_rootAvg hg
  refine limitLaw_of_near hm (T := fun n ω => T n ω * T n ω + S n ω * S n ω * c) ?_ hn ?_
    fun n => ((hm1 n).mul (hm1 n)).add (((hm2 n).mul (hm2 n)).mul_const c)
  · filter_upwards [hT] with ω hω
    filter_upwards [hω] with n hn
    rw [hn, sq, sq, mul_comm c]
  · refine ⟨fun n => ((hm1 n).mul (hm1 n)).add (((hm2 n).mul (hm2 n)).mul_const c) |>.aemeasurable, aemeasurable_id, ?_⟩
    refine Tendsto.congr (fun n => Subtype.ext ?_) (hc.tendsto.mono_right (le_of_eq (congrArg 𝓝 (Subtype.ext ?_))))
    · show (seqLaw P).map _ = (seqLaw P).map _
      congr 1
      funext ω
      simp [pairAvg, sq, mul_comm c]
    · show (stdGaussian (EuclideanSpace ℝ (Fin 2))).map _ = (weightedSquares c).map id
      rw [Measure.map_id, ← weightedSquares_gaussian]
      rfl

theorem weightedSquares_point {c : ℝ} (hc : 0 < c) (t : ℝ) : weightedSquares c {t} = 0 := by
  have hm : Measurable fun p : ℝ × ℝ => p.1 ^ 2 + c * p.2 ^ 2 := by fun_prop
  rw [weightedSquares, Measure.map_apply hm (measurableSet_singleton t),
    Measure.measure_prod_null (hm (measurableSet_singleton t))]
  refine ae_of_all _ fun x => ?_
  have := nullSingletonClass_gaussianReal (μ := 0) (v := 1) one_ne_zero
  refine Set.Finite.measure_zero (Set.Finite.subset (s := {√((t - x ^ 2) / c), -√((t - x ^ 2) / c)}) (by simp) ?_) _
  intro y hy
  have hy' : x ^ 2 + c * y ^ 2 = t := hy
  have e : (t - x ^ 2) / c = y ^ 2 := by
    rw [← hy']
    field_simp
    ring
  rw [e, Real.sqrt_sq_eq_abs]
  rcases abs_choice y with h | h <;> rw [h] <;> simp

/-- With a weight below one, small values are more probable than under the chi-square law. -/
theorem weightedSquares_gt {c t : ℝ} (hc : 0 < c) (h1 : c < 1) (ht : 0 < t) :
    chiSquareLaw 2 (Set.Iic t) < weightedSquares c (Set.Iic t) := by
  have hm : ∀ c : ℝ, Measurable fun p : ℝ × ℝ => p.1 ^ 2 + c * p.2 ^ 2 := fun c => by fun_prop
  rw [← weightedSquares_one, weightedSquares, weightedSquares, Measure.map_apply (hm 1) measurableSet_Iic,
    Measure.map_apply (hm c) measurableSet_Iic]
  have hopen := (gaussianReal_absolutelyContinuous' 0 (v := 1) one_ne_zero).isOpenPosMeasure
  set G := (gaussianReal 0 1).prod (gaussianReal 0 1) with hG
  set A := (fun p : ℝ × ℝ => p.1 ^ 2 + 1 * p.2 ^ 2) ⁻¹' Set.Iic t with hA
  set B := (fun p : ℝ × ℝ => p.1 ^ 2 + c * p.2 ^ 2) ⁻¹' Set.Iic t with hB
  set U := {p : ℝ × ℝ | p.1 ^ 2 + c * p.2 ^ 2 < t} ∩ {p | t < p.1 ^ 2 + 1 * p.2 ^ 2} with hU
  have hUo : IsOpen U := (isOpen_lt (by fun_prop) (by fun_prop)).inter (isOpen_lt (by fun_prop) (by fun_prop))
  have hUn : U.Nonempty := by
    have hpos : 0 < t * (1 + 1 / c) / 2 := by positivity
    refine ⟨(0, √(t * (1 + 1 / c) / 2)), ?_, ?_⟩
    · show (0 : ℝ) ^ 2 + c * √(t * (1 + 1 / c) / 2) ^ 2 < t
      rw [Real.sq_sqrt hpos.le]
      have : c * (t * (1 + 1 / c) / 2) = t * (c + 1) / 2 := by field_simp
      nlinarith
    · show t < (0 : ℝ) ^ 2 + 1 * √(t * (1 + 1 / c) / 2) ^ 2
      rw [Real.sq_sqrt hpos.le]
      have : 1 < 1 / c := by rw [lt_div_iff₀ hc]; linarith
      nlinarith
  have hpos : 0 < G U := hUo.measure_pos G hUn
  have hdisj : Disjoint A U := by
    rw [Set.disjoint_left]
    intro p hp hpU
    exact absurd (show p.1 ^ 2 + 1 * p.2 ^ 2 ≤ t from hp) (not_le.2 hpU.2)
  have hsub : A ∪ U ⊆ B := by
    rintro p (hp | hp)
    · have hp' : p.1 ^ 2 + 1 * p.2 ^ 2 ≤ t := hp
      show p.1 ^ 2 + c * p.2 ^ 2 ≤ t
      nlinarith [sq_nonneg p.2]
    · exact (show p.1 ^ 2 + c * p.2 ^ 2 < t from hp.1).le
  have hle := measure_mono (μ := G) hsub
  rw [measure_union hdisj hUo.measurableSet] at hle
  exact lt_of_lt_of_le (ENNReal.lt_add_right (measure_ne_top _ _) hpos.ne') hle

/-- The weight of the second term in the limit. -/
noncomputable def robustWeight : ℝ := (9 * Real.pi - 21) / 8

theorem robustWeight_pos : 0 < robustWeight := by
  have := Real.pi_gt_three
  rw [robustWeight]
  linarith

theorem robustWeight_lt_one : robustWeight < 1 := by
  have := Real.pi_lt_d2
  rw [robustWeight]
  linarith

section
variable (code : String) (params : Option (List (String × ℝ))) (m : ℝ) {v : ℝ} (hv : 0 < v)

include hv in
theorem robustJarqueBera_limitLaw : LimitLaw (NormStat.robustJarqueBera.statistic scipyNorm code params)
    (gaussianReal m v.toNNReal) (weightedSquares robustWeight) := by
  have hz := measurable_zval m v
  have hτ : 0 < 72 * Real.pi - 168 := by
    have := Real.pi_gt_three
    linarith
  have hr := measurable_robustDev
  have nT := ((near_robustSkew m hv).mul (Near.refl fun _ _ => (√6)⁻¹)
    (tight_zval m hv measurable_he3 memLp_he3 hermite_integrals.1) (Tight.const _)).of_eq fun n ω => (rootAvg_scale _ _ n ω).symm
  have nS := ((near_robust m hv).mul (Near.refl fun _ _ => (√(72 * Real.pi - 168))⁻¹)
    (tight_zval m hv measurable_robustDev memLp_robustDev robustDev_mean) (Tight.const _)).of_eq fun n ω =>
      (rootAvg_scale _ _ n ω).symm
  obtain ⟨i1, -, i2, -, -⟩ := integrals_z m hv
  refine limitLaw_weighted (g := fun x => robustDev (zval m v x) / √(72 * Real.pi - 168)) (normal_meas _ code params) ?_
    (measurable_z3 m v) ((hr.comp hz).div_const √(72 * Real.pi - 168)) (memLp_z3 m hv) ?_ i1 ?_ i2 ?_ ?_ nT nS
  · filter_upwards [zdev_settles m hv] with ω a
    filter_upwards [eventually_gt_atTop 1, a.eventually (lt_mem_nhds one_pos)] with n hn hj
    have hne : List.ofFn (firsts n ω) ≠ [] := ofFn_ne hn _
    obtain ⟨o, ho⟩ := exists_orderStats (List.ofFn (firsts n ω))
    refine normal_value ?_
    rw [C117_robustJarqueBera scipyNorm hne ho rfl, ← median_spec hne ho]
    change Except.ok (some (_ * ((_ / (_ * absDeviation (sampleMedian n ω) _) ^ 3) ^ 2 / 6 +
      (_ / (_ * absDeviation (sampleMedian n ω) _) ^ 4 - 3) ^ 2 / 64))) = _
    rw [absDeviation_zdev m hv, central_zavg m hv (by omega), central_zavg m hv (by omega), List.length_ofFn,
      mul_left_comm √(Real.pi / 2) √v, mul_pow √v, mul_pow √v]
    have hs := Real.sqrt_pos.2 hv
    rw [mul_div_mul_left _ _ (pow_pos hs 3).ne', mul_div_mul_left _ _ (pow_pos hs 4).ne']
    have hn2 : √(n : ℝ) ^ 2 = n := Real.sq_sqrt (Nat.cast_nonneg n)
    have h6 : √6 ^ 2 = (6 : ℝ) := Real.sq_sqrt (by norm_num)
    have ht2 : √(72 * Real.pi - 168) ^ 2 = 72 * Real.pi - 168 := Real.sq_sqrt hτ.le
    simp only [mul_pow, inv_pow, hn2, h6, ht2, robustWeight]
    congr 2
    generalize avg (fun x => (zval m v x - zavg m v 1 n ω) ^ 3) n ω / (√(Real.pi / 2) ^ 3 * zdev m v n ω ^ 3) = A
    generalize (avg (fun x => (zval m v x - zavg m v 1 n ω) ^ 4) n ω / (√(Real.pi / 2) ^ 4 * zdev m v n ω ^ 4) - 3) = B
    have : (9 * Real.pi - 21) / 8 * (n * B ^ 2 * (72 * Real.pi - 168)⁻¹) = n * B ^ 2 / 64 := by
      rw [show (9 * Real.pi - 21) / 8 = (72 * Real.pi - 168) / 64 by ring]
      generalize 72 * Real.pi - 168 = τ at hτ
      field_simp
    rw [this]
    ring
  · have := (memLp_zval m hv memLp_robustDev).const_mul (√(72 * Real.pi - 168))⁻¹
    simpa only [div_eq_inv_mul] using this
  · rw [integral_zval m hv (f := fun x => robustDev x / √(72 * Real.pi - 168)) (by fun_prop), integral_div, robustDev_mean,
      zero_div]
  · rw [integral_zval m hv (f := fun x => (robustDev x / √(72 * Real.pi - 168)) ^ 2) (by fun_prop)]
    simp only [div_pow]
    rw [integral_div, robustDev_sq, Real.sq_sqrt hτ.le, div_self hτ.ne']
  · have h3 := measurable_he3
    rw [integral_zval m hv (f := fun x => he3 x / √6 * (robustDev x / √(72 * Real.pi - 168))) (by fun_prop)]
    simp only [div_mul_div_comm]
    rw [integral_div, robustDev_he3, zero_div]

end

section
variable (code : String) (params : Option (List (String × ℝ))) (classes : List GeneratorClass)
  (hp : classes.Perm generatorClasses) (m : ℝ) {v : ℝ} (hv : 0 < v)

include hp hv in
/-- **C138 is false of robust Jarque-Bera**: for large normal samples the value follows the law of `X² + c Y²` with
`c = (9 π - 21) / 8 = 0.909…`, not the chi-square law with two degrees of freedom.  Values of at most `t` are more frequent
than that law says, for every `t > 0`. -/
theorem C138_refuted_robustJarqueBera : ∃ G, (Gen.Family.normal m v).simulator classes = .ok G ∧
    (∀ n, G.generate n = .ok (iid n (gaussianReal m v.toNNReal))) ∧
    LimitLaw (NormStat.robustJarqueBera.statistic scipyNorm code params) (gaussianReal m v.toNNReal)
      (((gaussianReal 0 1).prod (gaussianReal 0 1)).map fun p => p.1 ^ 2 + (9 * Real.pi - 21) / 8 * p.2 ^ 2) ∧
    (∀ t, 0 < t → ∃ q, Tendsto (fun n => iid n (gaussianReal m v.toNNReal) {x | ∃ d ≤ t,
      (NormStat.robustJarqueBera.statistic scipyNorm code params).execute (List.ofFn x) = .ok d}) atTop (𝓝 q) ∧
      chiSquareLaw 2 (Set.Iic t) < q) ∧
    ¬ LimitLaw (NormStat.robustJarqueBera.statistic scipyNorm code params) (gaussianReal m v.toNNReal) (chiSquareLaw 2) := by
  have h := robustJarqueBera_limitLaw code params m hv
  have h1 : ∀ t : ℝ, 0 < t → _ := fun t ht =>
    And.intro (h t (weightedSquares_point robustWeight_pos t)) (weightedSquares_gt robustWeight_pos robustWeight_lt_one ht)
  refine with_normal hp m hv ⟨h, fun t ht => ⟨_, h1 t ht⟩, fun hl => ?_⟩
  have h0 : chiSquareLaw 2 {1} = 0 := by
    rw [← weightedSquares_one]
    exact weightedSquares_point one_pos 1
  exact (h1 1 one_pos).2.ne (tendsto_nhds_unique (hl 1 h0) (h1 1 one_pos).1)

end

/-- Samples of a concrete normal law: values of at most `1` are more frequent than under the chi-square law. -/
example : ∃ q, Tendsto (fun n => iid n (gaussianReal 2 (Real.toNNReal 5)) {x | ∃ d ≤ 1,
    (NormStat.robustJarqueBera.statistic scipyNorm "RJB" none).execute (List.ofFn x) = .ok d}) atTop (𝓝 q) ∧
    chiSquareLaw 2 (Set.Iic 1) < q := by
  obtain ⟨_, _, _, _, h, _⟩ := C138_refuted_robustJarqueBera "RJB" none _ (List.Perm.refl _) 2 (v := 5) (by norm_num)
  exact h 1 one_pos

end Pysatl.Props
