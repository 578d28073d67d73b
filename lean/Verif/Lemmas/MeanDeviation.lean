import Verif.Props.ConsistencyNormal

/-! # Mean absolute deviations from a point and mean differences of samples that grow -/

namespace Pysatl.Props

open Pysatl.Decision Pysatl.Spec Pysatl.Graph Pysatl.Gen
open MeasureTheory ProbabilityTheory Filter Topology

theorem integrable_empirical (f : ℝ → ℝ) (xs : List ℝ) (hxs : xs ≠ []) : Integrable f (empiricalLaw xs) := by
  unfold empiricalLaw
  refine Integrable.smul_measure ?_ (by simpa using hxs)
  clear hxs
  induction xs with
  | nil => simp
  | cons a l ih =>
    rw [List.map_cons, List.sum_cons]
    exact Integrable.add_measure (integrable_dirac (by simp)) ih

theorem empirical_probability {xs : List ℝ} (hxs : xs ≠ []) : IsProbabilityMeasure (empiricalLaw xs) := by
  constructor
  have h : (xs.map fun x => Measure.dirac x).sum Set.univ = xs.length := by
    clear hxs
    induction xs with
    | nil => simp
    | cons a l ih =>
      rw [List.map_cons, List.sum_cons, Measure.add_apply, ih, measure_univ, List.length_cons]
      push_cast
      ring
  rw [empiricalLaw, Measure.smul_apply, h, smul_eq_mul]
  exact ENNReal.inv_mul_cancel (by simpa using hxs) (by simp)

section law
variable {ν : Measure ℝ} [IsProbabilityMeasure ν] (hi : Integrable (fun x => x) ν)
include hi

theorem integrable_dev (c : ℝ) : Integrable (fun x => |x - c|) ν := (hi.sub (integrable_const c)).abs

theorem dev_lipschitz (a b : ℝ) : |(∫ x, |x - a| ∂ν) - ∫ x, |x - b| ∂ν| ≤ |a - b| := by
  rw [← integral_sub (integrable_dev hi a) (integrable_dev hi b)]
  have h := norm_integral_le_of_norm_le_const (μ := ν) (f := fun x => |x - a| - |x - b|) (C := |a - b|)
    (ae_of_all _ fun x => by
      rw [Real.norm_eq_abs]
      refine (abs_abs_sub_abs_le _ _).trans ?_
      rw [show x - a - (x - b) = -(a - b) by ring, abs_neg])
  simpa using h

theorem dev_ge_sub (c : ℝ) : -lawMean ν ≤ (∫ x, |x - c| ∂ν) - c := by
  have : ∫ x, (c - x) ∂ν ≤ ∫ x, |x - c| ∂ν :=
    integral_mono ((integrable_const c).sub hi) (integrable_dev hi c) fun x => by
      show c - x ≤ |x - c|
      rw [abs_sub_comm]; exact le_abs_self _
  rw [integral_sub (integrable_const c) hi] at this
  simp at this
  rw [lawMean]
  linarith

theorem dev_ge_add (c : ℝ) : lawMean ν ≤ (∫ x, |x - c| ∂ν) + c := by
  have : ∫ x, (x - c) ∂ν ≤ ∫ x, |x - c| ∂ν :=
    integral_mono (hi.sub (integrable_const c)) (integrable_dev hi c) fun x => le_abs_self _
  rw [integral_sub hi (integrable_const c)] at this
  simp at this
  rw [lawMean]
  linarith

theorem dev_sub_anti {a b : ℝ} (hab : a ≤ b) : (∫ x, |x - b| ∂ν) - b ≤ (∫ x, |x - a| ∂ν) - a := by
  have := (abs_le.1 (dev_lipschitz hi b a)).2
  rw [abs_of_nonneg (by linarith)] at this
  linarith

theorem dev_add_mono {a b : ℝ} (hab : a ≤ b) : (∫ x, |x - a| ∂ν) + a ≤ (∫ x, |x - b| ∂ν) + b := by
  have := (abs_le.1 (dev_lipschitz hi a b)).2
  rw [abs_of_nonpos (by linarith)] at this
  linarith

theorem dev_atTop : Tendsto (fun c => (∫ x, |x - c| ∂ν) - c) atTop (𝓝 (-lawMean ν)) := by
  have h := tendsto_integral_filter_of_dominated_convergence (μ := ν) (l := atTop) (F := fun (c : ℝ) x => |x - c| - c)
    (f := fun x => -x) (fun x => |x|) (.of_forall fun c => (by fun_prop : Continuous fun x : ℝ => |x - c| - c).aestronglyMeasurable)
    (by
      filter_upwards [eventually_ge_atTop 0] with c hc
      refine ae_of_all _ fun x => ?_
      rw [Real.norm_eq_abs]
      have := abs_abs_sub_abs_le (x - c) (-c)
      rwa [abs_neg, abs_of_nonneg hc, sub_neg_eq_add, sub_add_cancel] at this) hi.abs
    (ae_of_all _ fun x => by
      refine tendsto_const_nhds.congr' ?_
      filter_upwards [eventually_ge_atTop x] with c hc
      rw [abs_of_nonpos (by linarith)]
      ring)
  rw [integral_neg] at h
  refine h.congr fun c => ?_
  rw [integral_sub (integrable_dev hi c) (integrable_const c)]
  simp

theorem dev_atBot : Tendsto (fun c => (∫ x, |x - c| ∂ν) + c) atBot (𝓝 (lawMean ν)) := by
  have h := tendsto_integral_filter_of_dominated_convergence (μ := ν) (l := atBot) (F := fun (c : ℝ) x => |x - c| + c)
    (f := fun x => x) (fun x => |x|) (.of_forall fun c => (by fun_prop : Continuous fun x : ℝ => |x - c| + c).aestronglyMeasurable)
    (by
      filter_upwards [eventually_le_atBot 0] with c hc
      refine ae_of_all _ fun x => ?_
      rw [Real.norm_eq_abs]
      have := abs_abs_sub_abs_le (x - c) (-c)
      rwa [abs_neg, abs_of_nonpos hc, sub_neg_eq_add, sub_neg_eq_add, sub_add_cancel] at this) hi.abs
    (ae_of_all _ fun x => by
      refine tendsto_const_nhds.congr' ?_
      filter_upwards [eventually_le_atBot x] with c hc
      rw [abs_of_nonneg (by linarith)]
      ring)
  refine h.congr fun c => ?_
  rw [integral_add (integrable_dev hi c) (integrable_const c)]
  simp

end law

/-- Laws whose mean absolute deviations tend to those of `μ` at every point do so uniformly. -/
theorem dev_uniform {μ : Measure ℝ} [IsProbabilityMeasure μ] (hi : Integrable (fun x => x) μ) {ν : ℕ → Measure ℝ}
    (hp : ∀ᶠ n in atTop, IsProbabilityMeasure (ν n)) (hν : ∀ᶠ n in atTop, Integrable (fun x => x) (ν n))
    (hm : Tendsto (fun n => lawMean (ν n)) atTop (𝓝 (lawMean μ)))
    (hd : ∀ q : ℚ, Tendsto (fun n => ∫ x, |x - q| ∂ν n) atTop (𝓝 (∫ x, |x - q| ∂μ))) {ε : ℝ} (hε : 0 < ε) :
    ∀ᶠ n in atTop, ∀ c, |(∫ x, |x - c| ∂ν n) - ∫ x, |x - c| ∂μ| ≤ ε := by
  obtain ⟨K, hK⟩ := ((dev_atTop hi).eventually (gt_mem_nhds (show -lawMean μ < -lawMean μ + ε / 4 by linarith))).exists
  obtain ⟨K1, hKK, -⟩ := exists_rat_btwn (lt_add_one K)
  obtain ⟨L, hL⟩ := ((dev_atBot hi).eventually (gt_mem_nhds (show lawMean μ < lawMean μ + ε / 4 by linarith))).exists
  obtain ⟨L1, -, hLL⟩ := exists_rat_btwn (sub_one_lt L)
  have hK1 := (dev_sub_anti hi hKK.le).trans_lt hK
  have hL1 := (dev_add_mono hi hLL.le).trans_lt hL
  have hin : ∀ᶠ n in atTop, ∀ c ∈ Set.Icc (L1 : ℝ) K1, |(∫ x, |x - c| ∂ν n) - ∫ x, |x - c| ∂μ| ≤ ε := by
    have hloc : TendstoLocallyUniformlyOn (fun n c => ∫ x, |x - c| ∂ν n) (fun c => ∫ x, |x - c| ∂μ) atTop
        (Set.Icc (L1 : ℝ) K1) := by
      rw [Metric.tendstoLocallyUniformlyOn_iff]
      intro δ hδ c _
      obtain ⟨q, hq1, hq2⟩ := exists_rat_btwn (show c < c + δ / 8 by linarith)
      refine ⟨Metric.ball c (δ / 8), mem_nhdsWithin_of_mem_nhds (Metric.ball_mem_nhds _ (by linarith)), ?_⟩
      filter_upwards [hp, hν, Metric.tendsto_nhds.1 (hd q) (δ / 4) (by linarith)] with n n1 n2 n3 y hy
      rw [Metric.mem_ball, Real.dist_eq, abs_lt] at hy
      have hyq : |y - q| ≤ δ / 4 := by rw [abs_le]; constructor <;> linarith [hy.1, hy.2]
      have a1 := abs_le.1 ((dev_lipschitz hi y q).trans hyq)
      have a2 := abs_le.1 ((dev_lipschitz n2 y q).trans hyq)
      rw [Real.dist_eq, abs_lt] at n3
      rw [Real.dist_eq, abs_lt]
      constructor <;> linarith [a1.1, a1.2, a2.1, a2.2, n3.1, n3.2]
    have := (tendstoLocallyUniformlyOn_iff_tendstoUniformlyOn_of_compact isCompact_Icc).1 hloc
    filter_upwards [Metric.tendstoUniformlyOn_iff.1 this ε hε] with n hn c hc
    have := (hn c hc).le
    rwa [Real.dist_eq, abs_sub_comm] at this
  filter_upwards [hin, hp, hν, Metric.tendsto_nhds.1 hm (ε / 4) (by linarith),
    Metric.tendsto_nhds.1 (hd K1) (ε / 4) (by linarith), Metric.tendsto_nhds.1 (hd L1) (ε / 4) (by linarith)]
    with n h0 n1 n2 n3 n4 n5 c
  rw [Real.dist_eq, abs_lt] at n3 n4 n5
  rcases lt_or_ge c (L1 : ℝ) with h | h
  · have a1 := dev_add_mono hi h.le
    have a2 := dev_add_mono n2 h.le
    have a3 := dev_ge_add hi c
    have a4 := dev_ge_add n2 c
    rw [abs_le]
    constructor <;> linarith [n3.1, n3.2, n5.1, n5.2]
  · rcases lt_or_ge (K1 : ℝ) c with h' | h'
    · have a1 := dev_sub_anti hi h'.le
      have a2 := dev_sub_anti n2 h'.le
      have a3 := dev_ge_sub hi c
      have a4 := dev_ge_sub n2 c
      rw [abs_le]
      constructor <;> linarith [n3.1, n3.2, n4.1, n4.2]
    · exact h0 c ⟨h, h'⟩

section sequences
variable {μ : Measure ℝ} [IsProbabilityMeasure μ]

/-- Along almost every sequence the mean absolute deviations of the sample tend to those of the law, uniformly. -/
theorem settles_dev (hi : Integrable (fun x => x) μ) : ∀ᵐ ω ∂seqLaw μ, ∀ ε : ℝ, 0 < ε → ∀ᶠ n in atTop, ∀ c,
    |(∫ x, |x - c| ∂empiricalLaw (List.ofFn (firsts n ω))) - ∫ x, |x - c| ∂μ| ≤ ε := by
  have h : ∀ᵐ ω ∂seqLaw μ, ∀ q : ℚ, Tendsto (fun n => ∫ x, |x - q| ∂empiricalLaw (List.ofFn (firsts n ω))) atTop
      (𝓝 (∫ x, |x - q| ∂μ)) :=
    ae_all_iff.2 fun q => settles_integral (f := fun x => |x - q|) (by fun_prop) (integrable_dev hi q)
  filter_upwards [h, settles_mean hi] with ω a b ε hε
  have hne : ∀ᶠ n in atTop, List.ofFn (firsts n ω) ≠ [] := by
    filter_upwards [eventually_gt_atTop 0] with n hn
    simpa using hn.ne'
  exact dev_uniform hi (hne.mono fun n h => empirical_probability h) (hne.mono fun n h => integrable_empirical _ _ h) b a hε

end sequences

end Pysatl.Props
