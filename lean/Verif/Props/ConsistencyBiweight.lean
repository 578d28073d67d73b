import Verif.Spec.Biweight
import Verif.Props.ConsistencyTotalTime
import Verif.Props.ConsistencyRange
import Verif.Props.LimitLawNormal
import Verif.Lemmas.PlotScores

/-! # C137: the criterion of Martinez and Iglewicz -/

namespace Pysatl.Props

open Pysatl.Decision Pysatl.Resolver Pysatl.Spec Pysatl.Edf Pysatl.Graph Pysatl.Gen Pysatl.Normal Pysatl.Exponent
open MeasureTheory ProbabilityTheory Filter Topology

/-! ### Medians settle -/

theorem median_gt {ys : List ℝ} (hne : ys ≠ []) {x : ℝ} (h : fracLe ys x < 1 / 2) : x < median (sort ys) := by
  have hl : 0 < ys.length := List.length_pos_iff.2 hne
  have hl' : (0 : ℝ) < ys.length := by exact_mod_cast hl
  rw [fracLe_eq, div_lt_iff₀ hl'] at h
  have hc : 2 * ys.countP (fun y => decide (y ≤ x)) < ys.length := by
    have : 2 * (ys.countP (fun y => decide (y ≤ x)) : ℝ) < ys.length := by linarith
    exact_mod_cast this
  have hs : (sort ys).length = ys.length := (sort_perm ys).length_eq
  unfold Normal.median
  rw [hs]
  split_ifs with h2
  · have a1 := sort_getD_gt (l := ys) (v := x) (i := ys.length / 2) (by omega) (by omega)
    have a2 := sort_getD_gt (l := ys) (v := x) (i := ys.length / 2 - 1) (by omega) (by omega)
    linarith
  · exact sort_getD_gt (by omega) (by omega)

theorem median_le {ys : List ℝ} (hne : ys ≠ []) {x : ℝ} (h : 1 / 2 < fracLe ys x) : median (sort ys) ≤ x := by
  have hl : 0 < ys.length := List.length_pos_iff.2 hne
  have hl' : (0 : ℝ) < ys.length := by exact_mod_cast hl
  rw [fracLe_eq, lt_div_iff₀ hl'] at h
  have hc : ys.length < 2 * ys.countP (fun y => decide (y ≤ x)) := by
    have : (ys.length : ℝ) < 2 * (ys.countP (fun y => decide (y ≤ x)) : ℝ) := by linarith
    exact_mod_cast this
  have hs : (sort ys).length = ys.length := (sort_perm ys).length_eq
  unfold Normal.median
  rw [hs]
  split_ifs with h2
  · have a1 : at_ (sort ys) (ys.length / 2) ≤ x := Medcouple.sort_getD_le (by omega)
    have a2 : at_ (sort ys) (ys.length / 2 - 1) ≤ x := Medcouple.sort_getD_le (by omega)
    linarith
  · exact Medcouple.sort_getD_le (by omega)

theorem median_tendsto {ys : ℕ → List ℝ} {d : ℝ} (hne : ∀ᶠ n in atTop, ys n ≠ [])
    (h1 : ∀ a < d, ∃ x > a, ∀ᶠ n in atTop, fracLe (ys n) x < 1 / 2)
    (h2 : ∀ a > d, ∃ x < a, ∀ᶠ n in atTop, 1 / 2 < fracLe (ys n) x) :
    Tendsto (fun n => median (sort (ys n))) atTop (𝓝 d) := by
  rw [tendsto_order]
  constructor
  · intro a ha
    obtain ⟨x, hx, hf⟩ := h1 a ha
    filter_upwards [hne, hf] with n h3 h4
    exact lt_trans hx (median_gt h3 h4)
  · intro a ha
    obtain ⟨x, hx, hf⟩ := h2 a ha
    filter_upwards [hne, hf] with n h3 h4
    exact lt_of_le_of_lt (median_le h3 h4) hx

theorem fracLe_mono_of {ys zs : List ℝ} {x y : ℝ} (hl : ys.length = zs.length)
    (h : ys.countP (fun t => decide (t ≤ x)) ≤ zs.countP (fun t => decide (t ≤ y))) : fracLe ys x ≤ fracLe zs y := by
  rw [fracLe_eq, fracLe_eq, hl]
  exact div_le_div_of_nonneg_right (by exact_mod_cast h) (Nat.cast_nonneg _)

section
variable {μ : Measure ℝ} [IsProbabilityMeasure μ]

/-- The empirical distribution function of a function of the observations. -/
theorem empirical_cdf_map {f : ℝ → ℝ} (hf : Measurable f) : ∀ᵐ ω ∂seqLaw μ, ∀ q : ℚ,
    Tendsto (fun n => fracLe ((List.ofFn (firsts n ω)).map f) (q : ℝ)) atTop (𝓝 (cdf (μ.map f) q)) := by
  have := Measure.isProbabilityMeasure_map (μ := μ) hf.aemeasurable
  refine ae_all_iff.2 fun q => ?_
  have hm : Measurable fun x => (Set.Iic (q : ℝ)).indicator (fun _ => (1 : ℝ)) (f x) :=
    (measurable_const.indicator measurableSet_Iic).comp hf
  have hi : Integrable (fun x => (Set.Iic (q : ℝ)).indicator (fun _ => (1 : ℝ)) (f x)) μ :=
    Integrable.comp_measurable (g := (Set.Iic (q : ℝ)).indicator fun _ => (1 : ℝ))
      ((integrable_const 1).indicator measurableSet_Iic) hf
  filter_upwards [law_of_large_numbers hm hi] with ω h
  rw [← integral_map hf.aemeasurable (f := (Set.Iic (q : ℝ)).indicator fun _ => (1 : ℝ))
    (measurable_const.indicator measurableSet_Iic).aestronglyMeasurable, integral_indicator measurableSet_Iic, integral_const,
    smul_eq_mul, mul_one, measureReal_restrict_apply_univ, ← cdf_eq_real] at h
  refine h.congr fun n => ?_
  have e : (List.ofFn (firsts n ω)).map f = List.ofFn (firsts n fun i => f (ω i)) := by
    rw [List.map_ofFn]
    rfl
  rw [e, fracLe_empirical, integral_firsts]

theorem sample_nonempty (ω : ℕ → ℝ) : ∀ᶠ n in atTop, List.ofFn (firsts n ω) ≠ [] := by
  filter_upwards [eventually_gt_atTop 0] with n hn
  simpa using hn.ne'

theorem median_settles {c : ℝ} (hc : IsQuantile μ (1 / 2) c) : ∀ᵐ ω ∂seqLaw μ,
    Tendsto (fun n => median (sort (List.ofFn (firsts n ω)))) atTop (𝓝 c) := by
  filter_upwards [empirical_cdf (μ := μ)] with ω h
  refine median_tendsto (sample_nonempty ω) (fun a ha => ?_) fun a ha => ?_
  · obtain ⟨q, h1, h2⟩ := exists_rat_btwn ha
    exact ⟨q, h1, (h q).eventually (gt_mem_nhds (hc.1 q h2))⟩
  · obtain ⟨q, h1, h2⟩ := exists_rat_btwn ha
    exact ⟨q, h2, (h q).eventually (lt_mem_nhds (hc.2 q h1))⟩

theorem deviation_settles {c d : ℝ} (h : MedianSpread μ c d) : ∀ᵐ ω ∂seqLaw μ,
    Tendsto (fun n => median (sort ((List.ofFn (firsts n ω)).map fun x =>
      |x - median (sort (List.ofFn (firsts n ω)))|))) atTop (𝓝 d) := by
  have hf : Measurable fun x : ℝ => |x - c| := by fun_prop
  filter_upwards [median_settles h.median, empirical_cdf_map hf] with ω hm he
  have near : ∀ δ : ℝ, 0 < δ → ∀ᶠ n in atTop, |median (sort (List.ofFn (firsts n ω))) - c| < δ := fun δ hδ => by
    simpa [Real.dist_eq] using (Metric.tendsto_nhds.1 hm) δ hδ
  have key : ∀ {M x y z : ℝ}, |M - c| < z → |x - c| ≤ |x - M| + z ∧ |x - M| ≤ |x - c| + z := fun {M x y z} hz => by
    have h1 := abs_sub_le x M c
    have h2 := abs_sub_le x c M
    rw [abs_sub_comm c M] at h2
    constructor <;> linarith
  refine median_tendsto ((sample_nonempty ω).mono fun n hn => by simpa using hn) (fun a ha => ?_) fun a ha => ?_
  · obtain ⟨q, h1, h2⟩ := exists_rat_btwn ha
    obtain ⟨x, h3, h4⟩ := exists_between h1
    refine ⟨x, h3, ?_⟩
    filter_upwards [near (q - x) (sub_pos.2 h4), (he q).eventually (gt_mem_nhds (h.deviation.1 q h2))] with n n1 n2
    refine lt_of_le_of_lt (fracLe_mono_of (by simp) ?_) n2
    rw [List.countP_map, List.countP_map]
    refine List.countP_mono_left fun t _ ht => ?_
    simp only [Function.comp_apply, decide_eq_true_eq] at ht ⊢
    linarith [(key (x := t) (y := 0) n1).1]
  · obtain ⟨q, h1, h2⟩ := exists_rat_btwn ha
    obtain ⟨x, h3, h4⟩ := exists_between h2
    refine ⟨x, h4, ?_⟩
    filter_upwards [near (x - q) (sub_pos.2 h3), (he q).eventually (lt_mem_nhds (h.deviation.2 q h1))] with n n1 n2
    refine lt_of_lt_of_le n2 (fracLe_mono_of (by simp) ?_)
    rw [List.countP_map, List.countP_map]
    refine List.countP_mono_left fun t _ ht => ?_
    simp only [Function.comp_apply, decide_eq_true_eq] at ht ⊢
    linarith [(key (x := t) (y := 0) n1).2]

/-- The sample averages of the powers of the distances from a point that settles. -/
theorem settles_around {K : ℕ} (h : Integrable (fun x => |x| ^ K) μ) (c : ℝ) : ∀ᵐ ω ∂seqLaw μ, ∀ M : ℕ → ℝ,
    Tendsto M atTop (𝓝 c) → ∀ k ≤ K, Tendsto (fun n => (∑ i ∈ Finset.range n, (ω i - M n) ^ k) / n) atTop
      (𝓝 (∫ x, (x - c) ^ k ∂μ)) := by
  have hall : ∀ᵐ ω ∂seqLaw μ, ∀ j ∈ Finset.range (K + 1), Tendsto (fun n : ℕ => (∑ i ∈ Finset.range n, (ω i - c) ^ j) / n)
      atTop (𝓝 (∫ x, (x - c) ^ j ∂μ)) := by
    refine (ae_ball_iff (Finset.range (K + 1)).countable_toSet).2 fun j hj => ?_
    exact law_of_large_numbers (f := fun x => (x - c) ^ j) (by fun_prop)
      (integrable_power h (by have := Finset.mem_range.1 hj; omega) _)
  filter_upwards [hall] with ω h2 M hM k hk
  have hd : Tendsto (fun n => c - M n) atTop (𝓝 0) := by simpa using hM.const_sub c
  have hsum : Tendsto (fun n : ℕ => ∑ j ∈ Finset.range (k + 1), ((∑ i ∈ Finset.range n, (ω i - c) ^ j) / n) *
      (c - M n) ^ (k - j) * (k.choose j)) atTop
      (𝓝 (∑ j ∈ Finset.range (k + 1), (∫ x, (x - c) ^ j ∂μ) * 0 ^ (k - j) * (k.choose j))) :=
    tendsto_finsetSum _ fun j hj => ((h2 j (by have := Finset.mem_range.1 hj; exact Finset.mem_range.2 (by omega))).mul
      (hd.pow _)).mul_const _
  have hlim : ∑ j ∈ Finset.range (k + 1), (∫ x, (x - c) ^ j ∂μ) * 0 ^ (k - j) * (k.choose j) = ∫ x, (x - c) ^ k ∂μ := by
    rw [Finset.sum_range_succ, Finset.sum_eq_zero fun j hj => ?_]
    · simp
    · rw [zero_pow (by have := Finset.mem_range.1 hj; omega)]
      simp
  rw [hlim] at hsum
  refine hsum.congr fun n => ?_
  have e : ∀ i ∈ Finset.range n, (ω i - M n) ^ k =
      ∑ j ∈ Finset.range (k + 1), (ω i - c) ^ j * (c - M n) ^ (k - j) * (k.choose j) := fun i _ => by
    rw [← add_pow]
    congr 1
    ring
  rw [Finset.sum_congr rfl e, Finset.sum_comm, Finset.sum_div]
  refine Finset.sum_congr rfl fun j _ => ?_
  rw [← Finset.sum_mul, ← Finset.sum_mul]
  ring

/-! ### The value -/

theorem weight_inner (v a : ℝ) : v ^ 2 * (1 - (v / a) ^ 2) ^ 4 = v ^ 2 - 4 * (a⁻¹ ^ 2 * v ^ 4) + 6 * (a⁻¹ ^ 4 * v ^ 6) -
    4 * (a⁻¹ ^ 6 * v ^ 8) + a⁻¹ ^ 8 * v ^ 10 := by
  rw [div_eq_mul_inv]
  ring

theorem weight_outer (v a : ℝ) : (1 - (v / a) ^ 2) * (1 - 5 * (v / a) ^ 2) = v ^ 0 - 6 * (a⁻¹ ^ 2 * v ^ 2) +
    5 * (a⁻¹ ^ 4 * v ^ 4) := by
  rw [div_eq_mul_inv]
  ring

theorem integral_inner (h : Integrable (fun x => |x| ^ 10) μ) (c a : ℝ) :
    ∫ x, (x - c) ^ 2 * (1 - ((x - c) / a) ^ 2) ^ 4 ∂μ = ∫ x, (x - c) ^ 2 ∂μ - 4 * (a⁻¹ ^ 2 * ∫ x, (x - c) ^ 4 ∂μ) +
      6 * (a⁻¹ ^ 4 * ∫ x, (x - c) ^ 6 ∂μ) - 4 * (a⁻¹ ^ 6 * ∫ x, (x - c) ^ 8 ∂μ) + a⁻¹ ^ 8 * ∫ x, (x - c) ^ 10 ∂μ := by
  have hi : ∀ j ≤ 10, Integrable (fun x => (x - c) ^ j) μ := fun j hj => integrable_power h hj c
  have i2 := hi 2 (by norm_num)
  have i4 := ((hi 4 (by norm_num)).const_mul (a⁻¹ ^ 2)).const_mul 4
  have i6 := ((hi 6 (by norm_num)).const_mul (a⁻¹ ^ 4)).const_mul 6
  have i8 := ((hi 8 (by norm_num)).const_mul (a⁻¹ ^ 6)).const_mul 4
  have i10 := (hi 10 (by norm_num)).const_mul (a⁻¹ ^ 8)
  have j1 : Integrable (fun x => (x - c) ^ 2 - 4 * (a⁻¹ ^ 2 * (x - c) ^ 4)) μ := i2.sub i4
  have j2 : Integrable (fun x => (x - c) ^ 2 - 4 * (a⁻¹ ^ 2 * (x - c) ^ 4) + 6 * (a⁻¹ ^ 4 * (x - c) ^ 6)) μ := j1.add i6
  have j3 : Integrable (fun x => (x - c) ^ 2 - 4 * (a⁻¹ ^ 2 * (x - c) ^ 4) + 6 * (a⁻¹ ^ 4 * (x - c) ^ 6) -
    4 * (a⁻¹ ^ 6 * (x - c) ^ 8)) μ := j2.sub i8
  simp only [weight_inner]
  rw [integral_add j3 i10, integral_sub j2 i8, integral_add j1 i6, integral_sub i2 i4]
  simp only [integral_const_mul]

theorem integral_outer (h : Integrable (fun x => |x| ^ 10) μ) (c a : ℝ) :
    ∫ x, (1 - ((x - c) / a) ^ 2) * (1 - 5 * ((x - c) / a) ^ 2) ∂μ = ∫ x, (x - c) ^ 0 ∂μ -
      6 * (a⁻¹ ^ 2 * ∫ x, (x - c) ^ 2 ∂μ) + 5 * (a⁻¹ ^ 4 * ∫ x, (x - c) ^ 4 ∂μ) := by
  have hi : ∀ j ≤ 10, Integrable (fun x => (x - c) ^ j) μ := fun j hj => integrable_power h hj c
  have i0 := hi 0 (by norm_num)
  have i2 := ((hi 2 (by norm_num)).const_mul (a⁻¹ ^ 2)).const_mul 6
  have i4 := ((hi 4 (by norm_num)).const_mul (a⁻¹ ^ 4)).const_mul 5
  have j1 : Integrable (fun x => (x - c) ^ 0 - 6 * (a⁻¹ ^ 2 * (x - c) ^ 2)) μ := i0.sub i2
  simp only [weight_outer]
  rw [integral_add j1 i4, integral_sub i0 i2]
  simp only [integral_const_mul]

theorem inner_pos {c d : ℝ} (h : MedianSpread μ c d) (h10 : Integrable (fun x => |x| ^ 10) μ) :
    0 < ∫ x, (x - c) ^ 2 * (1 - ((x - c) / (9 * d)) ^ 2) ^ 4 ∂μ := by
  have hd := h.pos
  have hi : Integrable (fun x => (x - c) ^ 2 * (1 - ((x - c) / (9 * d)) ^ 2) ^ 4) μ := by
    have hi : ∀ j ≤ 10, Integrable (fun x => (x - c) ^ j) μ := fun j hj => integrable_power h10 hj c
    simp only [weight_inner]
    exact (((((hi 2 (by norm_num)).sub (((hi 4 (by norm_num)).const_mul _).const_mul 4)).add
      (((hi 6 (by norm_num)).const_mul _).const_mul 6)).sub (((hi 8 (by norm_num)).const_mul _).const_mul 4)).add
      ((hi 10 (by norm_num)).const_mul _))
  have hf : Measurable fun x : ℝ => |x - c| := by fun_prop
  have := Measure.isProbabilityMeasure_map (μ := μ) hf.aemeasurable
  rw [integral_pos_iff_support_of_nonneg (fun x => by positivity) hi]
  have hpos : 0 < (μ.map fun x => |x - c|) (Set.Ioc (d / 2) (2 * d)) := by
    have h1 := h.deviation.1 (d / 2) (by linarith)
    have h2 := h.deviation.2 (2 * d) (by linarith)
    rw [cdf_eq_real] at h1 h2
    rw [pos_iff_ne_zero]
    intro h0
    have h3 : (μ.map fun x => |x - c|).real (Set.Iic (2 * d)) ≤ (μ.map fun x => |x - c|).real (Set.Iic (d / 2)) +
        (μ.map fun x => |x - c|).real (Set.Ioc (d / 2) (2 * d)) := by
      refine (measureReal_mono (fun x hx => ?_)).trans (measureReal_union_le _ _)
      rcases le_or_gt x (d / 2) with hx2 | hx2
      · exact Or.inl hx2
      · exact Or.inr ⟨hx2, hx⟩
    rw [(measureReal_eq_zero_iff).2 h0] at h3
    linarith
  rw [Measure.map_apply hf measurableSet_Ioc] at hpos
  refine hpos.trans_le (measure_mono fun x hx => ?_)
  simp only [Set.mem_preimage, Set.mem_Ioc] at hx
  have hv : x - c ≠ 0 := fun h0 => by
    rw [h0, abs_zero] at hx
    linarith [hx.1]
  have hw : ((x - c) / (9 * d)) ^ 2 < 1 := by
    rw [← sq_abs, abs_div, abs_of_pos (by positivity : 0 < 9 * d), sq_lt_one_iff₀ (by positivity),
      div_lt_one (by positivity)]
    linarith [hx.2]
  exact mul_ne_zero (pow_ne_zero _ hv) (pow_ne_zero _ (by linarith))

theorem biweight_sum_inner (w : ℕ → ℝ) (n : ℕ) (a : ℝ) : (∑ i ∈ Finset.range n, w i ^ 2 * (1 - (w i / a) ^ 2) ^ 4) / n =
    (∑ i ∈ Finset.range n, w i ^ 2) / n - 4 * (a⁻¹ ^ 2 * ((∑ i ∈ Finset.range n, w i ^ 4) / n)) +
      6 * (a⁻¹ ^ 4 * ((∑ i ∈ Finset.range n, w i ^ 6) / n)) - 4 * (a⁻¹ ^ 6 * ((∑ i ∈ Finset.range n, w i ^ 8) / n)) +
      a⁻¹ ^ 8 * ((∑ i ∈ Finset.range n, w i ^ 10) / n) := by
  simp only [weight_inner, Finset.sum_add_distrib, Finset.sum_sub_distrib, ← Finset.mul_sum]
  ring

theorem biweight_sum_outer (w : ℕ → ℝ) (n : ℕ) (a : ℝ) :
    (∑ i ∈ Finset.range n, (1 - (w i / a) ^ 2) * (1 - 5 * (w i / a) ^ 2)) / n =
    (∑ i ∈ Finset.range n, w i ^ 0) / n - 6 * (a⁻¹ ^ 2 * ((∑ i ∈ Finset.range n, w i ^ 2) / n)) +
      5 * (a⁻¹ ^ 4 * ((∑ i ∈ Finset.range n, w i ^ 4) / n)) := by
  simp only [weight_outer, Finset.sum_add_distrib, Finset.sum_sub_distrib, ← Finset.mul_sum]
  ring

theorem martinez_value {n : ℕ} (hn : 1 < n) (ω : ℕ → ℝ) {m a : ℝ} (hm : m = median (sort (List.ofFn (firsts n ω))))
    (ha : a = 9 * median (sort ((List.ofFn (firsts n ω)).map fun x => |x - m|))) :
    martinezIglewicz (List.ofFn (firsts n ω)) = (1 / (((n : ℝ) - 1) / n)) * ((∑ i ∈ Finset.range n, (ω i - m) ^ 2) / n) *
      ((∑ i ∈ Finset.range n, (1 - ((ω i - m) / a) ^ 2) * (1 - 5 * ((ω i - m) / a) ^ 2)) / n) ^ 2 /
      ((∑ i ∈ Finset.range n, (ω i - m) ^ 2 * (1 - ((ω i - m) / a) ^ 2) ^ 4) / n) := by
  have hs : ∀ f : ℝ → ℝ, ((List.ofFn (firsts n ω)).map f).sum = ∑ i ∈ Finset.range n, f (ω i) := fun f => by
    have h := integral_firsts f n ω
    rw [integral_empirical, List.length_ofFn] at h
    have hn0 : (n : ℝ) ≠ 0 := by exact_mod_cast (by omega : n ≠ 0)
    rwa [div_left_inj' hn0] at h
  have hn' : (1 : ℝ) < n := by exact_mod_cast hn
  simp only [martinezIglewicz, ← hm, List.map_map, Function.comp_def, ← ha, hs, List.length_ofFn]
  generalize ∑ i ∈ Finset.range n, (ω i - m) ^ 2 * (1 - ((ω i - m) / a) ^ 2) ^ 4 = A
  generalize ∑ i ∈ Finset.range n, (1 - ((ω i - m) / a) ^ 2) * (1 - 5 * ((ω i - m) / a) ^ 2) = B
  generalize ∑ i ∈ Finset.range n, (ω i - m) ^ 2 = S
  have h1 : (n : ℝ) - 1 ≠ 0 := by linarith
  have h2 : (n : ℝ) ≠ 0 := by linarith
  rcases eq_or_ne A 0 with rfl | hA
  · simp
  rcases eq_or_ne B 0 with rfl | hB
  · simp
  field_simp

theorem martinez_settles (code : String) (params : Option (List (String × ℝ))) {c d : ℝ} (h : MedianSpread μ c d)
    (h10 : Integrable (fun x => |x| ^ 10) μ) : ValueSettles (NormStat.martinezIglewicz.statistic scipyNorm code params)
      (fun _ x => x) μ (biweightIndex μ c d) := by
  filter_upwards [median_settles h.median, deviation_settles h, settles_around h10 c] with ω hm hd hp
  have hk := hp _ hm
  have ha := (hd.const_mul 9).inv₀ (mul_pos (by norm_num : (0 : ℝ) < 9) h.pos).ne'
  have k2 := hk 2 (by norm_num)
  have k4 := hk 4 (by norm_num)
  have hB := ((hk 0 (by norm_num)).sub (((ha.pow 2).mul k2).const_mul 6)).add (((ha.pow 4).mul k4).const_mul 5)
  have hA := (((k2.sub (((ha.pow 2).mul k4).const_mul 4)).add (((ha.pow 4).mul (hk 6 (by norm_num))).const_mul 6)).sub
    (((ha.pow 6).mul (hk 8 (by norm_num))).const_mul 4)).add ((ha.pow 8).mul (hk 10 (by norm_num)))
  rw [← integral_outer h10] at hB
  rw [← integral_inner h10] at hA
  have hr := (tendsto_const_nhds (x := (1 : ℝ))).div ratio_tendsto one_ne_zero
  have hall := ((hr.mul k2).mul (hB.pow 2)).div hA (inner_pos h h10).ne'
  rw [div_one, one_mul] at hall
  refine ⟨_, hall, ?_⟩
  filter_upwards [eventually_gt_atTop 3] with n hn
  have hv : NormStat.martinezIglewicz.value scipyNorm (List.ofFn (firsts n ω)) =
      .ok (some (martinezIglewicz (List.ofFn (firsts n ω)))) := by
    simp [NormStat.value, guarded, Except.map, hn]
  rw [normal_value hv, martinez_value (by omega) ω rfl rfl, biweight_sum_inner (fun i => ω i - _), biweight_sum_outer (fun i => ω i - _)]
  rfl

end

/-! ### The normal laws -/

theorem Phi_zero_half : Phi 0 = 1 / 2 := by
  have := Phi_neg 0
  rw [neg_zero] at this
  linarith

theorem upper_quartile : Phi (PhiInv (3 / 4)) = 3 / 4 ∧ 1 / 4 ≤ PhiInv (3 / 4) := by
  have h : Phi (PhiInv (3 / 4)) = 3 / 4 := Phi_PhiInv (by norm_num) (by norm_num)
  refine ⟨h, ?_⟩
  rw [← Phi_strictMono.le_iff_le, h]
  have := (abs_le.1 (Phi_close (1 / 4) 0)).2
  rw [Phi_zero_half, sub_zero, abs_of_pos (by norm_num : (0 : ℝ) < 1 / 4)] at this
  linarith

theorem gaussian_abs_cdf (m : ℝ) {s : ℝ} (hs : 0 < s) {x : ℝ} (hx : 0 ≤ x) :
    cdf ((gaussianReal m (s ^ 2).toNNReal).map fun y => |y - m|) x = 2 * Phi (x / s) - 1 := by
  have hf : Measurable fun y : ℝ => |y - m| := by fun_prop
  have := Measure.isProbabilityMeasure_map (μ := gaussianReal m (s ^ 2).toNNReal) hf.aemeasurable
  have hna : NullSingletonClass (gaussianReal m (s ^ 2).toNNReal) :=
    nullSingletonClass_gaussianReal (toNNReal_ne (by positivity))
  have e : (fun y : ℝ => |y - m|) ⁻¹' Set.Iic x = Set.Icc (m - x) (m + x) := by
    ext y
    simp only [Set.mem_preimage, Set.mem_Iic, Set.mem_Icc, abs_le]
    constructor <;> rintro ⟨h1, h2⟩ <;> constructor <;> linarith
  have e2 : Set.Ioc (m - x) (m + x) = Set.Iic (m + x) \ Set.Iic (m - x) := by
    ext y
    simp [and_comm]
  rw [cdf_eq_real, map_measureReal_apply hf measurableSet_Iic, e, ← measureReal_congr Ioc_ae_eq_Icc, e2,
    measureReal_sdiff (Set.Iic_subset_Iic.2 (by linarith)) measurableSet_Iic, ← cdf_eq_real, ← cdf_eq_real,
    cdf_gaussian m hs, cdf_gaussian m hs, show (m + x - m) / s = x / s by ring, show (m - x - m) / s = -(x / s) by ring, Phi_neg]
  ring

theorem gaussian_spread (m : ℝ) {v : ℝ} (hv : 0 < v) :
    MedianSpread (gaussianReal m v.toNNReal) m (√v * PhiInv (3 / 4)) := by
  have hs := Real.sqrt_pos.2 hv
  have hv2 : v = √v ^ 2 := (Real.sq_sqrt hv.le).symm
  obtain ⟨hq, hq4⟩ := upper_quartile
  have hz : 0 < PhiInv (3 / 4) := by linarith
  rw [show gaussianReal m v.toNNReal = gaussianReal m (√v ^ 2).toNNReal by rw [← hv2]]
  generalize √v = s at hs
  refine ⟨⟨fun x hx => ?_, fun x hx => ?_⟩, ⟨fun x hx => ?_, fun x hx => ?_⟩, mul_pos hs hz⟩
  · rw [cdf_gaussian m hs, ← Phi_zero_half]
    exact Phi_strictMono (div_neg_of_neg_of_pos (by linarith) hs)
  · rw [cdf_gaussian m hs, ← Phi_zero_half]
    exact Phi_strictMono (div_pos (by linarith) hs)
  · have h1 : x ≤ max x 0 := le_max_left _ _
    refine lt_of_le_of_lt (monotone_cdf _ h1) ?_
    rw [gaussian_abs_cdf m hs (le_max_right _ _)]
    have h2 : Phi (max x 0 / s) < 3 / 4 := by
      rw [← hq]
      refine Phi_strictMono ?_
      rw [div_lt_iff₀ hs, mul_comm]
      exact max_lt hx (mul_pos hs hz)
    linarith
  · have hx0 : 0 ≤ x := (mul_pos hs hz).le.trans hx.le
    rw [gaussian_abs_cdf m hs hx0]
    have h2 : 3 / 4 < Phi (x / s) := by
      rw [← hq]
      refine Phi_strictMono ?_
      rw [lt_div_iff₀ hs, mul_comm]
      exact hx
    linarith

/-- The index of the normal laws is between 0.16 and 1. -/
theorem gaussian_index (m : ℝ) {v : ℝ} (hv : 0 < v) :
    0.16 ≤ biweightIndex (gaussianReal m v.toNNReal) m (√v * PhiInv (3 / 4)) ∧
      biweightIndex (gaussianReal m v.toNNReal) m (√v * PhiInv (3 / 4)) ≤ 1 := by
  obtain ⟨-, hz⟩ := upper_quartile
  have hs := Real.sqrt_pos.2 hv
  have h10 := gaussian_moment_finite m v.toNNReal 10
  have hmom : ∀ k : ℕ, ∫ x, (x - m) ^ k ∂gaussianReal m v.toNNReal = √v ^ k * ∫ x, x ^ k ∂gaussianReal 0 1 := fun k => by
    rw [gaussian_integral m _ (by fun_prop), Real.coe_toNNReal v hv.le]
    simp only [add_sub_cancel_left, mul_pow]
    rw [integral_const_mul]
  obtain ⟨m0, m2, m4, m6, m8⟩ := stdNormal_moments
  have m10 := stdNormal_step 8 (by decide)
  rw [m8] at m10
  rw [biweightIndex, integral_inner h10, integral_outer h10]
  simp only [hmom, m0, m2, m4, m6, m8, m10]
  generalize √v = s at hs
  generalize PhiInv (3 / 4) = z at hz
  have hz0 : 0 < z := by linarith
  set u : ℝ := 1 / (81 * z ^ 2) with hu
  have hu0 : 0 < u := by positivity
  have hu1 : u ≤ 0.2 := by
    rw [hu, div_le_iff₀ (by positivity)]
    nlinarith
  have e : s ^ 2 * 1 * (s ^ 0 * 1 - 6 * ((9 * (s * z))⁻¹ ^ 2 * (s ^ 2 * 1)) + 5 * ((9 * (s * z))⁻¹ ^ 4 * (s ^ 4 * 3))) ^ 2 /
      (s ^ 2 * 1 - 4 * ((9 * (s * z))⁻¹ ^ 2 * (s ^ 4 * 3)) + 6 * ((9 * (s * z))⁻¹ ^ 4 * (s ^ 6 * 15)) -
        4 * ((9 * (s * z))⁻¹ ^ 6 * (s ^ 8 * 105)) + (9 * (s * z))⁻¹ ^ 8 * (s ^ 10 * ((((8 : ℕ) : ℝ) + 1) * 105))) =
      (1 - 6 * u + 15 * u ^ 2) ^ 2 / (1 - 12 * u + 90 * u ^ 2 - 420 * u ^ 3 + 945 * u ^ 4) := by
    have e1 : s ^ 0 * 1 - 6 * ((9 * (s * z))⁻¹ ^ 2 * (s ^ 2 * 1)) + 5 * ((9 * (s * z))⁻¹ ^ 4 * (s ^ 4 * 3)) =
        1 - 6 * u + 15 * u ^ 2 := by
      rw [hu]
      field_simp
      ring
    have e2 : s ^ 2 * 1 - 4 * ((9 * (s * z))⁻¹ ^ 2 * (s ^ 4 * 3)) + 6 * ((9 * (s * z))⁻¹ ^ 4 * (s ^ 6 * 15)) -
        4 * ((9 * (s * z))⁻¹ ^ 6 * (s ^ 8 * 105)) + (9 * (s * z))⁻¹ ^ 8 * (s ^ 10 * ((((8 : ℕ) : ℝ) + 1) * 105)) =
        s ^ 2 * (1 - 12 * u + 90 * u ^ 2 - 420 * u ^ 3 + 945 * u ^ 4) := by
      rw [hu]
      push_cast
      field_simp
      ring
    rw [e1, e2, mul_one, mul_div_mul_left _ _ (by positivity)]
  rw [e]
  clear_value u
  have hb : 0.4 ≤ 1 - 6 * u + 15 * u ^ 2 := by nlinarith [sq_nonneg (u - 0.2)]
  have hb2 : (0.16 : ℝ) ≤ (1 - 6 * u + 15 * u ^ 2) ^ 2 := by nlinarith
  have hab : (1 - 6 * u + 15 * u ^ 2) ^ 2 ≤ 1 - 12 * u + 90 * u ^ 2 - 420 * u ^ 3 + 945 * u ^ 4 := by
    have h1 : 0 ≤ 1 - 10 * u + 30 * u ^ 2 := by nlinarith [sq_nonneg (u - 1 / 6)]
    have h2 : 0 ≤ 24 * u ^ 2 * (1 - 10 * u + 30 * u ^ 2) := by positivity
    linarith
  have ha : 1 - 12 * u + 90 * u ^ 2 - 420 * u ^ 3 + 945 * u ^ 4 ≤ 1 := by
    have h1 : 0 ≤ 4 - 30 * u + 140 * u ^ 2 - 315 * u ^ 3 := by
      have h3 : u ^ 3 ≤ 0.2 * u ^ 2 := by
        rw [pow_succ' u 2]
        exact mul_le_mul_of_nonneg_right hu1 (sq_nonneg u)
      nlinarith [sq_nonneg (u - 0.19)]
    have h2 : 0 ≤ 3 * u * (4 - 30 * u + 140 * u ^ 2 - 315 * u ^ 3) := by positivity
    linarith
  have hpos : 0 < 1 - 12 * u + 90 * u ^ 2 - 420 * u ^ 3 + 945 * u ^ 4 := by linarith
  constructor
  · rw [le_div_iff₀ hpos]
    linarith
  · rw [div_le_one hpos]
    exact hab

section
variable (code : String) (params : Option (List (String × ℝ)))

/-- **C137, Martinez and Iglewicz**, for the laws on one side: a law with a finite moment of order ten, one median and one
median deviation is detected if its biweight index exceeds that of the normal laws.  Missing: laws with a smaller index, which
are not detected (`C137_refuted_martinezIglewicz`): the criterion is judged in the right tail. -/
theorem C137_martinezIglewicz_partial {classes : List GeneratorClass} (hp : classes.Perm generatorClasses) (m : ℝ) {v : ℝ}
    (hv : 0 < v) : ∃ G, (Gen.Family.normal m v).simulator classes = .ok G ∧
    (∀ n, G.generate n = .ok (iid n (gaussianReal m v.toNNReal))) ∧
    ∃ c₀ d₀, MedianSpread (gaussianReal m v.toNNReal) c₀ d₀ ∧
    ∀ Q : Measure ℝ, IsProbabilityMeasure Q → Integrable (fun x => |x| ^ 10) Q → ∀ c d, MedianSpread Q c d →
      (biweightIndex (gaussianReal m v.toNNReal) c₀ d₀ < biweightIndex Q c d →
        Consistent (NormStat.martinezIglewicz.statistic scipyNorm code params) Q (gaussianReal m v.toNNReal)) ∧
      (biweightIndex Q c d < biweightIndex (gaussianReal m v.toNNReal) c₀ d₀ →
        Undetected (NormStat.martinezIglewicz.statistic scipyNorm code params) Q (gaussianReal m v.toNNReal)) := by
  refine with_normal hp m hv ⟨_, _, gaussian_spread m hv, fun Q _ h10 c d h => ?_⟩
  have hg := martinez_settles code params (gaussian_spread m hv) (gaussian_moment_finite m v.toNNReal 10)
  have hQ := martinez_settles code params h h10
  have mono : ∀ᶠ _ : ℕ in atTop, StrictMono fun x : ℝ => x := .of_forall fun _ => strictMono_id
  exact ⟨fun hlt => value_consistent (normal_meas _ code params) mono hQ hg (Or.inl ⟨(fun h => by cases h), hlt⟩),
    fun hlt => value_undetected (normal_meas _ code params) mono hQ hg (Or.inr ⟨rfl, hlt⟩)⟩

end

/-! ### Concrete laws -/

theorem empirical_map (f : ℝ → ℝ) (hf : Measurable f) {xs : List ℝ} (hne : xs ≠ []) (x : ℝ) :
    cdf ((empiricalLaw xs).map f) x = fracLe (xs.map f) x := by
  have hp : IsProbabilityMeasure (empiricalLaw xs) := empirical_probability hne
  have := Measure.isProbabilityMeasure_map (μ := empiricalLaw xs) hf.aemeasurable
  have h := integral_map (μ := empiricalLaw xs) hf.aemeasurable (f := (Set.Iic x).indicator fun _ => (1 : ℝ))
    (measurable_const.indicator measurableSet_Iic).aestronglyMeasurable
  rw [integral_indicator measurableSet_Iic, integral_const, smul_eq_mul, mul_one, measureReal_restrict_apply_univ,
    ← cdf_eq_real] at h
  rw [h, integral_empirical, fracLe_empirical, integral_empirical, List.map_map, List.length_map]
  rfl

theorem spread_of_fractions {xs : List ℝ} (hne : xs ≠ []) {c d : ℝ} (hd : 0 < d)
    (h1 : ∀ x < c, fracLe xs x < 1 / 2) (h2 : ∀ x > c, 1 / 2 < fracLe xs x)
    (h3 : ∀ x < d, fracLe (xs.map fun y => |y - c|) x < 1 / 2) (h4 : ∀ x > d, 1 / 2 < fracLe (xs.map fun y => |y - c|) x) :
    MedianSpread (empiricalLaw xs) c d := by
  have e : ∀ x, cdf (empiricalLaw xs) x = fracLe xs x := fun x => by
    have := empirical_map id measurable_id hne x
    simpa using this
  have hf : Measurable fun y : ℝ => |y - c| := by fun_prop
  refine ⟨⟨fun x hx => ?_, fun x hx => ?_⟩, ⟨fun x hx => ?_, fun x hx => ?_⟩, hd⟩
  · rw [e]; exact h1 x hx
  · rw [e]; exact h2 x hx
  · rw [empirical_map _ hf hne]; exact h3 x hx
  · rw [empirical_map _ hf hne]; exact h4 x hx

/-- One observation in fifteen is a gross error. -/
noncomputable def contaminated : Measure ℝ :=
  empiricalLaw ((List.replicate 7 (-1) ++ 0 :: List.replicate 6 1) ++ [1000])

theorem contaminated_spread : MedianSpread contaminated 0 1 := by
  refine spread_of_fractions (by simp) one_pos (fun x hx => ?_) (fun x hx => ?_) (fun x hx => ?_) fun x hx => ?_
  · have a1 : ¬(0 : ℝ) ≤ x := not_le.2 hx
    have a2 : ¬(1 : ℝ) ≤ x := by linarith
    have a3 : ¬(1000 : ℝ) ≤ x := by linarith
    by_cases h : (-1 : ℝ) ≤ x <;> simp [fracLe_eq, List.countP_append, List.countP_cons, List.countP_replicate, a1, a2, a3, h] <;>
      norm_num
  · have a1 : (0 : ℝ) ≤ x := hx.le
    have a2 : (-1 : ℝ) ≤ x := by linarith
    by_cases h : (1 : ℝ) ≤ x <;> by_cases h' : (1000 : ℝ) ≤ x <;>
      simp [fracLe_eq, List.countP_append, List.countP_cons, List.countP_replicate, a1, a2, h, h'] <;> norm_num
  · have a1 : ¬(1 : ℝ) ≤ x := not_le.2 hx
    have a2 : ¬(1000 : ℝ) ≤ x := by linarith
    by_cases h : (0 : ℝ) ≤ x <;> simp [fracLe_eq, List.countP_append, List.countP_cons, List.countP_replicate, a1, a2, h] <;>
      norm_num
  · have a1 : (1 : ℝ) ≤ x := hx.le
    have a2 : (0 : ℝ) ≤ x := by linarith
    by_cases h : (1000 : ℝ) ≤ x <;>
      simp [fracLe_eq, List.countP_append, List.countP_cons, List.countP_replicate, a1, a2, h] <;> norm_num

/-- **C137, refuted, Martinez and Iglewicz**: the sums run over the observations beyond the cut-off too, so that gross errors
inflate the "robust" scale more than the variance.  A law under which one observation in fifteen is a gross error is never
detected, although its index is not that of the normal laws. -/
theorem C137_refuted_martinezIglewicz (code : String) (params : Option (List (String × ℝ))) (m : ℝ) {v : ℝ} (hv : 0 < v) :
    (∀ m' v', contaminated ≠ gaussianReal m' v') ∧
    Undetected (NormStat.martinezIglewicz.statistic scipyNorm code params) contaminated (gaussianReal m v.toNNReal) := by
  have hne : ((List.replicate 7 (-1) ++ 0 :: List.replicate 6 1) ++ [1000] : List ℝ) ≠ [] := by simp
  have hp : IsProbabilityMeasure contaminated := empirical_probability hne
  have hi : biweightIndex contaminated 0 1 < 0.16 := by
    rw [biweightIndex, contaminated, integral_empirical, integral_empirical, integral_empirical]
    norm_num
  have hcdf : cdf contaminated 0 = 8 / 15 := by
    have := empirical_map id measurable_id hne 0
    rw [Measure.map_id] at this
    rw [contaminated, this]
    norm_num [fracLe_eq, List.countP_replicate]
  have htail : cdf contaminated 1000 = 1 := by
    have := empirical_map id measurable_id hne 1000
    rw [Measure.map_id] at this
    rw [contaminated, this]
    norm_num [fracLe_eq, List.countP_replicate]
  constructor
  · intro m' v' e
    rcases eq_or_ne v' 0 with rfl | h0
    · rw [gaussianReal_zero_var] at e
      rw [e, cdf_eq_real, measureReal_def, Measure.dirac_apply' _ measurableSet_Iic] at hcdf
      by_cases h : m' ≤ 0 <;> norm_num [Set.indicator, h] at hcdf
    · have hac := gaussianReal_absolutelyContinuous' m' h0
      rw [cdf_eq_real] at htail
      have h1 : contaminated (Set.Ioi 1000) = 0 := by
        rw [← Set.compl_Iic, ← measureReal_eq_zero_iff, probReal_compl_eq_one_sub measurableSet_Iic, htail, sub_self]
      rw [e] at h1
      simpa using hac h1
  · have h10 : Integrable (fun x => |x| ^ 10) contaminated := integrable_empirical _ _ hne
    exact value_undetected (normal_meas _ code params) (.of_forall fun _ => strictMono_id)
      (martinez_settles code params contaminated_spread h10)
      (martinez_settles code params (gaussian_spread m hv) (gaussian_moment_finite m v.toNNReal 10))
      (Or.inr ⟨rfl, hi.trans_le (gaussian_index m hv).1⟩)

/-- Two observations in five far from the others are detected. -/
example : Consistent (NormStat.martinezIglewicz.statistic scipyNorm "MI" none) (empiricalLaw [-30, -1, 0, 1, 30])
    (gaussianReal 2 (Real.toNNReal 5)) := by
  have hne : ([-30, -1, 0, 1, 30] : List ℝ) ≠ [] := by simp
  have hp := empirical_probability hne
  have hsp : MedianSpread (empiricalLaw [-30, -1, 0, 1, 30]) 0 1 := by
    refine spread_of_fractions hne one_pos (fun x hx => ?_) (fun x hx => ?_) (fun x hx => ?_) fun x hx => ?_
    · have a1 : ¬(0 : ℝ) ≤ x := not_le.2 hx
      have a2 : ¬(1 : ℝ) ≤ x := by linarith
      have a3 : ¬(30 : ℝ) ≤ x := by linarith
      by_cases h : (-1 : ℝ) ≤ x <;> by_cases h' : (-30 : ℝ) ≤ x <;> norm_num [fracLe_eq, List.countP_cons, a1, a2, a3, h, h']
    · have a1 : (0 : ℝ) ≤ x := hx.le
      have a2 : (-1 : ℝ) ≤ x := by linarith
      have a3 : (-30 : ℝ) ≤ x := by linarith
      by_cases h : (1 : ℝ) ≤ x <;> by_cases h' : (30 : ℝ) ≤ x <;> norm_num [fracLe_eq, List.countP_cons, a1, a2, a3, h, h']
    · have a1 : ¬(1 : ℝ) ≤ x := not_le.2 hx
      have a2 : ¬(30 : ℝ) ≤ x := by linarith
      by_cases h : (0 : ℝ) ≤ x <;> norm_num [fracLe_eq, List.countP_cons, a1, a2, h]
    · have a1 : (1 : ℝ) ≤ x := hx.le
      have a2 : (0 : ℝ) ≤ x := by linarith
      by_cases h : (30 : ℝ) ≤ x <;> norm_num [fracLe_eq, List.countP_cons, a1, a2, h]
  refine value_consistent (normal_meas _ "MI" none) (.of_forall fun _ => strictMono_id)
    (martinez_settles "MI" none hsp (integrable_empirical _ _ hne))
    (martinez_settles "MI" none (gaussian_spread 2 (by norm_num)) (gaussian_moment_finite 2 _ 10))
    (Or.inl ⟨(fun h => by cases h), (gaussian_index 2 (by norm_num)).2.trans_lt ?_⟩)
  rw [biweightIndex, integral_empirical, integral_empirical, integral_empirical]
  norm_num

end Pysatl.Props
