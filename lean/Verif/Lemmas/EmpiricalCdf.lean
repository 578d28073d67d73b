import Verif.Props.ConsistencyLimit

/-! # Empirical distribution functions along a sequence of observations; uniform convergence -/

namespace Pysatl.Props

open Pysatl.Spec Pysatl.Edf Pysatl.Graph Pysatl.Decision
open MeasureTheory ProbabilityTheory Filter Topology

/-- Monotone functions with values between zero and one that tend pointwise to a continuous distribution function do so
uniformly. -/
theorem polya {G : ℕ → ℝ → ℝ} {F : ℝ → ℝ} (hF : Continuous F) (hFm : Monotone F) (h0 : Tendsto F atBot (𝓝 0))
    (h1 : Tendsto F atTop (𝓝 1)) (hG : ∀ n, Monotone (G n)) (h01 : ∀ n x, 0 ≤ G n x ∧ G n x ≤ 1)
    (hlim : ∀ x, Tendsto (fun n => G n x) atTop (𝓝 (F x))) {ε : ℝ} (hε : 0 < ε) :
    ∀ᶠ n in atTop, ∀ x, |G n x - F x| ≤ ε := by
  have hF0 : ∀ x, 0 ≤ F x := fun x => ge_of_tendsto (hlim x) (.of_forall fun n => (h01 n x).1)
  have hF1 : ∀ x, F x ≤ 1 := fun x => le_of_tendsto (hlim x) (.of_forall fun n => (h01 n x).2)
  obtain ⟨a, ha⟩ := (h0.eventually (gt_mem_nhds (half_pos hε))).exists
  obtain ⟨b, hb⟩ := (h1.eventually (lt_mem_nhds (show 1 - ε / 2 < 1 by linarith))).exists
  have hpt : ∀ x, ∀ᶠ n in atTop, |G n x - F x| < ε / 2 := fun x => by
    have := (hlim x).eventually (Metric.ball_mem_nhds _ (half_pos hε))
    simpa [Real.dist_eq] using this
  have key : ∀ x ∈ Set.Icc a b, ∃ t ∈ 𝓝[Set.Icc a b] x, ∀ᶠ n in atTop, ∀ y ∈ t, |G n y - F y| ≤ ε := by
    intro x _
    obtain ⟨δ, hδ, hc⟩ := Metric.continuous_iff.1 hF x (ε / 4) (by linarith)
    refine ⟨Set.Ioo (x - δ / 2) (x + δ / 2), nhdsWithin_le_nhds (Ioo_mem_nhds (by linarith) (by linarith)), ?_⟩
    have hl := hc (x - δ / 2) (by rw [Real.dist_eq, abs_lt]; constructor <;> linarith)
    have hr := hc (x + δ / 2) (by rw [Real.dist_eq, abs_lt]; constructor <;> linarith)
    rw [Real.dist_eq, abs_lt] at hl hr
    filter_upwards [hpt (x - δ / 2), hpt (x + δ / 2)] with n n1 n2 y hy
    rw [abs_lt] at n1 n2
    have g1 := hG n hy.1.le
    have g2 := hG n hy.2.le
    have f1 := hFm hy.1.le
    have f2 := hFm hy.2.le
    rw [abs_le]
    constructor <;> linarith
  have hcomp : ∀ᶠ n in atTop, ∀ y ∈ Set.Icc a b, |G n y - F y| ≤ ε := by
    refine (isCompact_Icc (a := a) (b := b)).induction_on
      (p := fun s => ∀ᶠ n in atTop, ∀ y ∈ s, |G n y - F y| ≤ ε) (by simp) ?_ ?_ key
    · intro s t hst ht
      exact ht.mono fun n h y hy => h y (hst hy)
    · intro s t hs ht
      filter_upwards [hs, ht] with n h1 h2 y hy
      exact hy.elim (h1 y) (h2 y)
  filter_upwards [hcomp, hpt a, hpt b] with n hn na nb x
  rw [abs_lt] at na nb
  rcases lt_or_ge x a with hx | hx
  · have := hG n hx.le
    have := hFm hx.le
    have := (h01 n x).1
    have := hF0 x
    rw [abs_le]
    constructor <;> linarith
  rcases lt_or_ge b x with hx' | hx'
  · have := hG n hx'.le
    have := hFm hx'.le
    have := (h01 n x).2
    have := hF1 x
    rw [abs_le]
    constructor <;> linarith
  · exact hn x ⟨hx, hx'⟩

theorem fracLe_empirical (xs : List ℝ) (x : ℝ) : fracLe xs x = ∫ y, (Set.Iic x).indicator (fun _ => (1 : ℝ)) y ∂empiricalLaw xs := by
  rw [integral_empirical, fracLe_eq]
  congr 1
  induction xs with
  | nil => simp
  | cons a l ih =>
    rw [List.map_cons, List.sum_cons, ← ih, List.countP_cons]
    by_cases h : a ≤ x <;> simp [h, add_comm]

/-- Along almost every sequence the fraction of observations at or below `q` tends to its probability, for all rational `q`. -/
theorem empirical_cdf {μ : Measure ℝ} [IsProbabilityMeasure μ] :
    ∀ᵐ ω ∂seqLaw μ, ∀ q : ℚ, Tendsto (fun n => fracLe (List.ofFn (firsts n ω)) (q : ℝ)) atTop (𝓝 (cdf μ q)) := by
  refine ae_all_iff.2 fun q => ?_
  have hm : Measurable ((Set.Iic (q : ℝ)).indicator fun _ => (1 : ℝ)) := measurable_const.indicator measurableSet_Iic
  have hi : Integrable ((Set.Iic (q : ℝ)).indicator fun _ => (1 : ℝ)) μ :=
    (integrable_const 1).indicator measurableSet_Iic
  filter_upwards [settles_integral hm hi] with ω h
  simp only [← fracLe_empirical] at h
  rwa [integral_indicator measurableSet_Iic, integral_const, smul_eq_mul, mul_one, measureReal_restrict_apply_univ,
    ← cdf_eq_real] at h

/-- ... and so does the fraction at or below points that tend to a point where the distribution function is continuous. -/
theorem empirical_cdf_at {μ : Measure ℝ} [IsProbabilityMeasure μ] {ω : ℕ → ℝ}
    (hω : ∀ q : ℚ, Tendsto (fun n => fracLe (List.ofFn (firsts n ω)) (q : ℝ)) atTop (𝓝 (cdf μ q))) {y : ℕ → ℝ} {l : ℝ}
    (hy : Tendsto y atTop (𝓝 l)) (hc : ContinuousAt (cdf μ) l) :
    Tendsto (fun n => fracLe (List.ofFn (firsts n ω)) (y n)) atTop (𝓝 (cdf μ l)) := by
  rw [Metric.tendsto_nhds]
  intro ε hε
  obtain ⟨δ, hδ, hcd⟩ := Metric.continuousAt_iff.1 hc (ε / 2) (half_pos hε)
  obtain ⟨p, hp1, hp2⟩ := exists_rat_btwn (show l - δ < l by linarith)
  obtain ⟨r, hr1, hr2⟩ := exists_rat_btwn (show l < l + δ by linarith)
  have e1 := hcd (x := (p : ℝ)) (by rw [Real.dist_eq, abs_lt]; constructor <;> linarith)
  have e2 := hcd (x := (r : ℝ)) (by rw [Real.dist_eq, abs_lt]; constructor <;> linarith)
  rw [Real.dist_eq, abs_lt] at e1 e2
  have t1 := Metric.tendsto_nhds.1 (hω p) (ε / 2) (half_pos hε)
  have t2 := Metric.tendsto_nhds.1 (hω r) (ε / 2) (half_pos hε)
  filter_upwards [t1, t2, hy.eventually (lt_mem_nhds hp2), hy.eventually (gt_mem_nhds hr1)] with n n1 n2 n3 n4
  rw [Real.dist_eq, abs_lt] at n1 n2
  have g1 := fracLe_mono (List.ofFn (firsts n ω)) n3.le
  have g2 := fracLe_mono (List.ofFn (firsts n ω)) n4.le
  rw [Real.dist_eq, abs_lt]
  constructor <;> linarith

/-- The empirical distribution function of an affinely transformed sample. -/
theorem fracLe_map_affine (xs : List ℝ) (M : ℝ) {s : ℝ} (hs : 0 < s) (x : ℝ) :
    fracLe (xs.map fun y => (y - M) / s) x = fracLe xs (M + s * x) := by
  rw [fracLe_eq, fracLe_eq, List.length_map, List.countP_map]
  congr 3
  funext y
  simp only [Function.comp]
  congr 1
  rw [div_le_iff₀ hs, eq_iff_iff]
  constructor <;> intro h <;> linarith

end Pysatl.Props
