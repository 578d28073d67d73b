import Verif.Props.WeibullMeaning
import Verif.Props.NormalPlot
import Verif.Props.ExponentRange
import Mathlib.Analysis.SpecialFunctions.Integrals.Basic

/-! # C80, C124: the plots and the tails of the Weibull criteria -/

namespace Pysatl.Props

open Pysatl.Decision Pysatl.Graph Pysatl.Edf Pysatl.Exponent Pysatl.Normal Pysatl.Spec Pysatl.Weibull

theorem correlation_sq_eq (n : ℕ) (z o : ℕ → ℝ) :
    correlation n z o ^ 2 = devSum (points n z) (points n o) ^ 2 / (devSq (points n z) * devSq (points n o)) := by
  rw [correlation, div_pow, Real.sq_sqrt, devSum_points, devSq_points, devSq_points]
  exact mul_nonneg (by rw [← devSq_points]; exact devSq_nonneg _) (by rw [← devSq_points]; exact devSq_nonneg _)

theorem devSum_comm (a b : List ℝ) : devSum a b = devSum b a := by
  rw [devSum, devSum, List.zipWith_comm]
  simp only [mul_comm]

/-- **C124, Smith-Bain.** `n (1 - r²)`, where `r` is the correlation of the logarithms *in the order of the sample*
with the quantiles of order `i / (n + 1)` of the extreme value law; the order statistics would be needed
(`C61_refuted_rsb`). -/
theorem C124_rsb_partial (min : Minimizer) (p : Weibull.Params) (s : Sample ℝ) :
    WeibullStat.rsb.value min p s = .ok (s.values.length * (1 - correlation s.values.length
      (fun i => extremeQuantile (i / ((s.values.length : ℝ) + 1)))
      (fun i => at_ (s.values.map Real.log) (i - 1)) ^ 2)) := by
  show Except.ok (Weibull.rsb s.values) = _
  have h1 : rsbScores s.values.length =
      points s.values.length fun i => extremeQuantile (i / ((s.values.length : ℝ) + 1)) := by
    unfold rsbScores points extremeQuantile
    refine List.map_congr_left fun i _ => ?_
    push_cast
    rfl
  have h2 : s.values.map Real.log = points s.values.length fun i => at_ (s.values.map Real.log) (i - 1) := by
    conv_lhs => rw [eq_range_map_at (s.values.map Real.log), List.length_map]
    rfl
  rw [rsb_eq, correlation_sq_eq, ← h1, ← h2, devSum_comm, div_div, mul_comm (devSq _)]

theorem sum_dev_mul (y m : List ℝ) (h : y.length = m.length) :
    (List.zipWith (fun v u => (v - mean y) * u) y m).sum = devSum y m := by
  have key : ∀ (l k : List ℝ) (a b : ℝ), l.length = k.length →
      (List.zipWith (fun v u => (v - a) * u) l k).sum =
        (List.zipWith (fun v u => (v - a) * (u - b)) l k).sum + b * (l.sum - l.length * a) := by
    intro l
    induction l with
    | nil => intro k a b _; simp
    | cons x l ih =>
      intro k a b hk
      cases k with
      | nil => simp at hk
      | cons y k =>
        simp only [List.zipWith_cons_cons, List.sum_cons, List.length_cons]
        rw [ih k a b (by simpa using hk)]
        push_cast
        ring
  rw [key y m (mean y) (mean m) h, devSum]
  have : y.sum - y.length * mean y = 0 := by
    by_cases hy : y = []
    · simp [hy]
    · have : (y.length : ℝ) ≠ 0 := by exact_mod_cast (List.length_pos_iff.2 hy).ne'
      rw [mean]
      field_simp
      ring
  rw [this, mul_zero, add_zero]

/-- **C124, REJG.** The fourth power of the correlation of the ordered logarithms with the quantiles of the positions
`(i - 0.3175) / (n + 0.365)` of the extreme value law. -/
theorem C124_rejg (min : Minimizer) (hmin : ∀ y, 0 < min y) (p : Weibull.Params) {s : Sample ℝ} (hne : s.values ≠ [])
    (hpos : ∀ x ∈ s.values, 0 < x) {o : ℕ → ℝ} (ho : OrderStats (s.values.map Real.log) o) :
    WeibullStat.rejg.value min p s = .ok (correlation s.values.length
      (fun i => extremeQuantile (position 0.3175 s.values.length i)) o ^ 4) := by
  rw [weibull_rejg]
  have hml : mlEst min s.values = .ok (_, _) := if_neg (by
    rw [not_le]
    obtain ⟨a, l, hl⟩ := List.exists_cons_of_ne_nil (sort_ne_nil hne)
    rw [hl]
    exact hpos a ((sort_perm s.values).mem_iff.1 (by rw [hl]; simp)))
  simp only [Weibull.rejg, hml, Bind.bind, Except.bind]
  set b := min (sort (s.values.map fun x => -Real.log x)) with hb
  have hb0 : b ≠ 0 := (hmin _).ne'
  have h1 : ((List.range s.values.length).map fun i : ℕ =>
      Real.log (-(Real.log (1 - ((i : ℝ) + 1 - 3175 / 10000) / ((s.values.length : ℝ) + 365 / 1000)))) / b) =
      points s.values.length fun i => extremeQuantile (position 0.3175 s.values.length i) / b := by
    unfold points extremeQuantile position
    refine List.map_congr_left fun i _ => ?_
    have e : (((i + 1 : ℕ) : ℝ) - 0.3175) / ((s.values.length : ℝ) + 1 - 2 * 0.3175) =
        ((i : ℝ) + 1 - 3175 / 10000) / ((s.values.length : ℝ) + 365 / 1000) := by
      push_cast
      norm_num
      congr 1
      ring
    show _ = Real.log (-Real.log (1 - (((i + 1 : ℕ) : ℝ) - 0.3175) / ((s.values.length : ℝ) + 1 - 2 * 0.3175))) / b
    rw [e]
  have hl : logs s.values = points s.values.length o := by
    rw [logs, sort_points ho, List.length_map]
  rw [h1, hl, sum_dev_mul _ _ (by rw [length_points, length_points]), sumSq_eq, sumSq_eq]
  have h4 : correlation s.values.length (fun i => extremeQuantile (position 0.3175 s.values.length i)) o ^ 4 =
      (correlation s.values.length (fun i => extremeQuantile (position 0.3175 s.values.length i) / b) o ^ 2) ^ 2 := by
    rw [correlation_div o hb0 (z := fun i => extremeQuantile (position 0.3175 s.values.length i))]
    ring
  rw [h4, correlation_sq_eq, devSum_comm, mul_comm (devSq _)]
  rfl

example : ([1, Real.exp 1] : List ℝ) ≠ [] ∧ (∀ x ∈ [1, Real.exp 1], 0 < x) ∧
    ∃ o, OrderStats ([1, Real.exp 1].map Real.log) o :=
  ⟨by simp, by simp [Real.exp_pos], exists_orderStats _⟩

/-! ### Mahdi-Doostparast -/

theorem integral_sq_div {a b : ℝ} (ha : 0 < a) (hb : 0 < b) (c : ℝ) :
    ∫ u in a..b, (u - c) ^ 2 / u = (b ^ 2 - a ^ 2) / 2 - 2 * c * (b - a) + c ^ 2 * (Real.log b - Real.log a) := by
  have h : ∀ x ∈ Set.uIcc a b, HasDerivAt (fun u => u ^ 2 / 2 - 2 * c * u + c ^ 2 * Real.log u) ((x - c) ^ 2 / x) x := by
    intro x hx
    have hx0 : 0 < x := lt_of_lt_of_le (lt_min ha hb) hx.1
    have h1 := (((hasDerivAt_pow 2 x).div_const 2).sub ((hasDerivAt_id x).const_mul (2 * c))).add
      ((Real.hasDerivAt_log hx0.ne').const_mul (c ^ 2))
    refine h1.congr_deriv ?_
    field_simp
    ring
  rw [intervalIntegral.integral_eq_sub_of_hasDerivAt h]
  · ring
  · refine ContinuousOn.intervalIntegrable ?_
    refine ContinuousOn.div (by fun_prop) continuousOn_id fun x hx => ?_
    exact (lt_of_lt_of_le (lt_min ha hb) hx.1).ne'

/-- **C124, Mahdi-Doostparast, what it integrates.** With `F i` the hypothetical distribution function at the `i`-th
order statistic, the statistic integrates the squared distance, relative to `u`, of `u` from the empirical *survival*
function `1 - i / n` over `F 1, …, F n`: the comparison of the distribution function with the survival function is
what `C124_refuted_mahdiDoostparast` exhibits. -/
theorem C124_mahdiDoostparast_partial (min : Minimizer) {p : Weibull.Params} (hp : 0 < p.a) {s : Sample ℝ}
    (hne : s.values ≠ []) (hpos : ∀ x ∈ s.values, 0 < x) {o : ℕ → ℝ} (ho : OrderStats s.values o) {n : ℕ}
    (hn : n = s.values.length) {F : ℕ → ℝ} (hF : F = fun i => Weibull.cdf p.a p.k (o i)) :
    WeibullStat.mahdiDoostparast.value min p s = .ok (n * ((∑ i ∈ Finset.Ico 1 n,
      ∫ u in F i..F (i + 1), (u - (1 - (i : ℝ) / n)) ^ 2 / u) + (1 - (F n ^ 2 - F 1 ^ 2)) / 2)) := by
  show Except.ok (Weibull.mahdiDoostparast (vals p s.values)) = _
  have hn1 : 1 ≤ n := hn ▸ List.length_pos_iff.2 hne
  have hFpos : ∀ i, 1 ≤ i → i ≤ n → 0 < F i := by
    intro i h1 h2
    have hm : o i ∈ s.values := (ho i h1 (hn ▸ h2)).1
    have h0 := hpos _ hm
    rw [hF]
    simp only [Weibull.cdf, if_neg (not_le.2 h0)]
    refine Real.rpow_pos_of_pos ?_ _
    have : Real.exp (-(o i) ^ p.k) < 1 := Real.exp_lt_one_iff.2 (neg_neg_of_pos (Real.rpow_pos_of_pos h0 _))
    linarith
  have hv : vals p s.values = points n F := by
    rw [vals, sort_points ho, points, points, List.map_map, ← hn, hF]
    rfl
  have hat : ∀ (G : ℕ → ℝ) (i : ℕ), i + 1 < n → at_ (npDiff (points n G)) i = G (i + 2) - G (i + 1) := by
    intro G i hi
    rw [at_npDiff _ _ (by rw [length_points]; exact hi), points, at_range_map, at_range_map, if_pos hi,
      if_pos (by omega)]
  have hlog : (points n F).map Real.log = points n fun i => Real.log (F i) := by
    rw [points, points, List.map_map]; rfl
  have hnpos : (0 : ℝ) < n := by exact_mod_cast hn1
  have hI : ∑ i ∈ Finset.Ico 1 n, ∫ u in F i..F (i + 1), (u - (1 - (i : ℝ) / n)) ^ 2 / u =
      ∑ i ∈ Finset.range (n - 1), ((F (i + 2) ^ 2 - F (i + 1) ^ 2) / 2 -
        2 * (1 - ((i : ℝ) + 1) / n) * (F (i + 2) - F (i + 1)) +
        (1 - ((i : ℝ) + 1) / n) ^ 2 * (Real.log (F (i + 2)) - Real.log (F (i + 1)))) := by
    rw [Finset.sum_Ico_eq_sum_range]
    refine Finset.sum_congr rfl fun i hi => ?_
    have hi := Finset.mem_range.1 hi
    rw [integral_sq_div (hFpos _ (by omega) (by omega)) (hFpos _ (by omega) (by omega))]
    push_cast
    rw [show 1 + i = i + 1 by omega, show i + 1 + 1 = i + 2 by omega]
    ring
  have htel : ∑ i ∈ Finset.range (n - 1), (F (i + 2) ^ 2 - F (i + 1) ^ 2) = F n ^ 2 - F 1 ^ 2 := by
    have := Finset.sum_range_sub (fun i => F (i + 1) ^ 2) (n - 1)
    rw [Nat.sub_add_cancel hn1] at this
    exact this
  rw [hI, ← htel]
  simp only [Weibull.mahdiDoostparast]
  rw [hv, hlog, length_points, sum_mapIdx_at, sum_mapIdx_at, length_npDiff, length_npDiff, length_points, length_points]
  have e1 : ∀ (c : ℕ → ℝ) (G : ℕ → ℝ), ∑ i ∈ Finset.range (n - 1), c i * at_ (npDiff (points n G)) i =
      ∑ i ∈ Finset.range (n - 1), c i * (G (i + 2) - G (i + 1)) := fun c G =>
    Finset.sum_congr rfl fun i hi => by
      have hi := Finset.mem_range.1 hi
      rw [hat G i (by omega)]
  rw [e1 (fun i => (((i : ℝ) + 1) / n - 1) ^ 2), e1 (fun i => ((i : ℝ) + 1) / n - 1)]
  congr 2
  rw [sub_div, add_sub, Finset.sum_div, Finset.mul_sum, ← Finset.sum_add_distrib, add_sub_right_comm,
    ← Finset.sum_sub_distrib]
  congr 1
  refine Finset.sum_congr rfl fun i _ => ?_
  ring

example : ([1, Real.exp 1] : List ℝ) ≠ [] ∧ (∀ x ∈ [1, Real.exp 1], 0 < x) ∧ ∃ o, OrderStats [1, Real.exp 1] o :=
  ⟨by simp, by simp [Real.exp_pos], exists_orderStats _⟩

/-! ### The criteria of the Laplace transform -/

/-- **C124, Laplace transform.** `n` times the sum over the grid `-1, …, -1/m` (`LT2`) or the grid of `m` equidistant
points from `-2.5` to `0.49` (`LT3`) of the weighted squared distances of the empirical Laplace transform of the
sample itself from `Γ (1 - t)` (`C124_laplace_of_log`, `C124_refuted_laplace`). -/
theorem C124_laplace_partial (m : ℕ) (a : ℝ) (xs : List ℝ) :
    laplaceTransform "LT2_WEIBULL" m a xs = .ok (xs.length * ∑ j ∈ Finset.Icc 1 m,
      laplaceWeight a (-(j / m)) * (Real.Gamma (1 + j / m) - meanOf (fun x => Real.exp (x * (j / m))) xs) ^ 2) ∧
    ∀ h : ℝ, (-2.5 : ℝ) + ((m : ℝ) - 1) * h = 0.49 → 2 ≤ m →
      laplaceTransform "LT3_WEIBULL" m a xs = .ok (xs.length * ∑ j ∈ Finset.range m,
        laplaceWeight a (-2.5 + j * h) * (Real.Gamma (1 - (-2.5 + j * h)) -
          meanOf (fun x => Real.exp (-(x * (-2.5 + j * h)))) xs) ^ 2) := by
  constructor
  · simp only [laplaceTransform, if_true]
    congr 2
    rw [List.map_map, sum_list_range, sum_Icc_range, ← Finset.sum_range_reflect]
    refine Finset.sum_congr rfl fun i hi => ?_
    have hi := Finset.mem_range.1 hi
    have hm : (0 : ℝ) < m := by exact_mod_cast (by omega : 0 < m)
    have e : (-(m : ℝ) + ((m - 1 - i : ℕ) : ℝ)) / m = -(((i + 1 : ℕ) : ℝ) / m) := by
      rw [Nat.cast_sub (by omega), Nat.cast_sub (by omega)]
      push_cast
      field_simp
      ring
    simp only [Function.comp, e, laplaceWeight, meanOf]
    congr 3
    · ring_nf
    · congr 2
      refine List.map_congr_left fun x _ => ?_
      congr 1
      ring
  · intro h hh hm
    have hm' : (0 : ℝ) < (m : ℝ) - 1 := by
      have : (2 : ℝ) ≤ m := by exact_mod_cast hm
      linarith
    have e : h = (49 / 100 + 25 / 10) / ((m : ℝ) - 1) := by
      rw [eq_div_iff hm'.ne']
      norm_num at hh ⊢
      linarith
    simp only [laplaceTransform]
    rw [if_neg (by decide), if_pos trivial]
    congr 2
    rw [List.map_map, sum_list_range]
    refine Finset.sum_congr rfl fun i _ => ?_
    have e' : (-25 / 10 : ℝ) + i * ((49 / 100 + 25 / 10) / ((m : ℝ) - 1)) = -2.5 + i * h := by
      rw [e]; norm_num
    simp only [Function.comp, e', laplaceWeight, meanOf]

example : (-2.5 : ℝ) + (((3 : ℕ) : ℝ) - 1) * 1.495 = 0.49 := by norm_num

/-! ### C80: the tails -/

/-- Of two samples of one size, if the one with the smaller value of a right-tailed statistic is rejected so is the other;
for a left-tailed one the other way round. -/
theorem weibull_monotone {σ : Type} {min : Minimizer} {p : Weibull.Params} {s : WeibullStat} {code : String}
    {xs ys : List ℝ} (hlen : xs.length = ys.length) {α : ℝ} {m : DecisionMethod σ ℝ} {w w₁ w₂ : σ}
    {res res' : TestResult ℝ} {d d' : ℝ}
    (hne : ∀ r L w', (m = .pValue r ∨ m = .criticalValue r) →
      (r (s.statistic min p code) xs.length).exec w = (.ok (some L), w') → L ≠ [])
    (hd : s.value min p (.ndarray xs) = .ok d) (hd' : s.value min p (.ndarray ys) = .ok d') (hdd : d ≤ d')
    (h : (gofTest (s.statistic min p code) xs α m).exec w = (.ok res, w₁))
    (h' : (gofTest (s.statistic min p code) ys α m).exec w = (.ok res', w₂)) :
    (s.alternative = .right → res.rejected = true → res'.rejected = true) ∧
    (s.alternative = .left → res'.rejected = true → res.rejected = true) := by
  obtain ⟨v, hv, h⟩ := gofTest_ok h
  obtain ⟨v', hv', h'⟩ := gofTest_ok h'
  have e := hv.symm.trans hd
  cases e
  have e := hv'.symm.trans hd'
  cases e
  rw [← hlen] at h'
  exact decide_monotone hne h h' hdd

/-- The criteria of the Weibull family that measure a distance from the hypothesis and are judged in the right tail. -/
inductive WeibullDistance : WeibullStat → Prop
  | chi2 : WeibullDistance .chi2
  | cvm : WeibullDistance .cvm
  | watson : WeibullDistance .watson
  | st1 : WeibullDistance .st1
  | st2 : WeibullDistance .st2
  | rsb : WeibullDistance .rsb
  | los : WeibullDistance .los
  | liaoShimokawa : WeibullDistance .liaoShimokawa
  | kl (m) : WeibullDistance (.kl m)

/-- The criteria that measure a correlation with the hypothesis. -/
inductive WeibullCorrelation : WeibullStat → Prop
  | sb : WeibullCorrelation .sb
  | sbSmall : WeibullCorrelation .sbSmall
  | rejg : WeibullCorrelation .rejg

/-- **C80 (partial), Weibull.** Distances are judged in the right tail and correlations in the left one. -/
theorem C80_weibull_partial {σ : Type} (min : Minimizer) (p : Weibull.Params) (s : WeibullStat) (code : String)
    (xs ys : List ℝ) (hlen : xs.length = ys.length) (α : ℝ) (m : DecisionMethod σ ℝ) (w w₁ w₂ : σ)
    (res res' : TestResult ℝ) (d d' : ℝ)
    (hne : ∀ r L w', (m = .pValue r ∨ m = .criticalValue r) →
      (r (s.statistic min p code) xs.length).exec w = (.ok (some L), w') → L ≠ [])
    (hd : s.value min p (.ndarray xs) = .ok d) (hd' : s.value min p (.ndarray ys) = .ok d') (hdd : d ≤ d')
    (h : (gofTest (s.statistic min p code) xs α m).exec w = (.ok res, w₁))
    (h' : (gofTest (s.statistic min p code) ys α m).exec w = (.ok res', w₂)) :
    (WeibullDistance s → res.rejected = true → res'.rejected = true) ∧
    (WeibullCorrelation s → res'.rejected = true → res.rejected = true) := by
  have key := weibull_monotone hlen hne hd hd' hdd h h'
  exact ⟨fun hs => key.1 (by cases hs <;> rfl), fun hs => key.2 (by cases hs <;> rfl)⟩

/-- **C80 refuted for SPP**: the statistic is the largest distance on a probability plot, and it is judged in the left
tail: whenever a sample is rejected, so is every sample of the same size with a smaller distance. -/
theorem C80_refuted_spp {σ : Type} (min : Minimizer) (p : Weibull.Params) (code : String)
    (xs ys : List ℝ) (hlen : xs.length = ys.length) (α : ℝ) (m : DecisionMethod σ ℝ) (w w₁ w₂ : σ)
    (res res' : TestResult ℝ) (d d' : ℝ)
    (hne : ∀ r L w', (m = .pValue r ∨ m = .criticalValue r) →
      (r (WeibullStat.spp.statistic min p code) xs.length).exec w = (.ok (some L), w') → L ≠ [])
    (hd : WeibullStat.spp.value min p (.ndarray xs) = .ok d) (hd' : WeibullStat.spp.value min p (.ndarray ys) = .ok d')
    (hdd : d ≤ d')
    (h : (gofTest (WeibullStat.spp.statistic min p code) xs α m).exec w = (.ok res, w₁))
    (h' : (gofTest (WeibullStat.spp.statistic min p code) ys α m).exec w = (.ok res', w₂))
    (hrej : res'.rejected = true) : res.rejected = true :=
  (weibull_monotone hlen hne hd hd' hdd h h').2 rfl hrej

end Pysatl.Props
