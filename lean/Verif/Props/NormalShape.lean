import Verif.Spec.NormalShape
import Verif.Props.NormalPlot
import Verif.Props.NormalMirror
import Verif.Props.ExponentMeaning
import Verif.Props.ShapiroWilk
import Verif.Props.NormalZhang
import Verif.Props.LMoments
import Verif.Lemmas.Likelihood
import Mathlib.Analysis.Real.Pi.Bounds

/-! # C117: the normality criteria as measures of shape -/

namespace Pysatl.Props

open Pysatl.Decision Pysatl.Graph Pysatl.Edf Pysatl.Normal Pysatl.Spec
open Pysatl.Exponent (at_ pairSum pairSum_congr pairSum_perm sum_at mean_perm)

theorem mean_spec (xs : List ℝ) : mean xs = meanOf id xs := by
  simp [mean, meanOf]

theorem moment_spec (k : ℕ) (xs : List ℝ) : moment k xs = Spec.centralMoment k xs := by
  simp [moment, Spec.centralMoment, meanOf, mean]

theorem centralMoment_two_nonneg (xs : List ℝ) : 0 ≤ Spec.centralMoment 2 xs := by
  unfold Spec.centralMoment meanOf
  refine div_nonneg (List.sum_nonneg ?_) (Nat.cast_nonneg _)
  intro v hv
  obtain ⟨x, -, rfl⟩ := List.mem_map.mp hv
  positivity

theorem stdDev_sq (xs : List ℝ) : stdDev xs ^ 2 = Spec.centralMoment 2 xs :=
  Real.sq_sqrt (centralMoment_two_nonneg xs)

theorem skew_spec (xs : List ℝ) : skew xs = skewness xs := by
  unfold skew skewness stdDev
  rw [moment_spec, moment_spec, Real.sqrt_eq_rpow, ← Real.rpow_natCast (_ ^ (1 / 2 : ℝ)),
    ← Real.rpow_mul (centralMoment_two_nonneg xs)]
  norm_num

theorem kurt_spec (xs : List ℝ) : kurt xs = kurtosis xs := by
  unfold kurt kurtosis
  rw [moment_spec, moment_spec, ← stdDev_sq, ← pow_mul]

theorem stdDev_pos {xs : List ℝ} (h : Varies xs) : 0 < stdDev xs := by
  refine Real.sqrt_pos.2 ?_
  unfold Spec.centralMoment
  exact variance_pos h _

theorem sum_sq_expand (m : ℝ) : ∀ xs : List ℝ, (xs.map fun x => (x - m) ^ 2).sum =
    (xs.map (· ^ 2)).sum - 2 * m * xs.sum + xs.length * m ^ 2
  | [] => by simp
  | a :: l => by
    simp only [List.map_cons, List.sum_cons, List.length_cons, Nat.cast_add, Nat.cast_one,
      sum_sq_expand m l]
    ring

theorem variance_raw (xs : List ℝ) : meanOf (· ^ 2) xs - meanOf id xs ^ 2 = Spec.centralMoment 2 xs := by
  rcases eq_or_ne xs [] with rfl | h
  · simp [meanOf, Spec.centralMoment]
  have hn : (xs.length : ℝ) ≠ 0 := by
    have := List.length_pos_iff.2 h
    positivity
  unfold Spec.centralMoment
  set m := meanOf id xs with hm
  have hs : xs.sum = xs.length * m := by
    rw [hm, meanOf, List.map_id]; field_simp
  have := sum_sq_expand m xs
  unfold meanOf
  rw [this, hs]
  field_simp
  ring

/-! ### Jarque-Bera -/

theorem skew_centred {xs : List ℝ} (h : xs ≠ []) (k : ℕ) :
    moment k (xs.map fun x => x - mean xs) = moment k xs := by
  have h1 := moment_aff (k := k) (-mean xs) 1 h
  have e : (fun x => x - mean xs) = aff (-mean xs) 1 := by
    funext x; simp [aff]; ring
  rw [e, h1]; simp

/-- **C117**: the Jarque-Bera statistic. -/
theorem C117_jarqueBera (lib : NormLib) {xs : List ℝ} (h : xs ≠ []) :
    NormStat.value lib .jarqueBera xs =
      .ok (some (xs.length * (skewness xs ^ 2 / 6 + (kurtosis xs - 3) ^ 2 / 24))) := by
  have hl : xs.length ≠ 0 := by simpa using h
  simp only [NormStat.value, jarqueBera, if_neg hl, Except.map, ← skew_spec, ← kurt_spec, skew, kurt,
    skew_centred h]
  congr 2
  ring

example : [(1 : ℝ), 2] ≠ [] := by simp

/-! ### D'Agostino -/

theorem dot_cons (c : ℕ → ℝ) (a : ℝ) (l : List ℝ) :
    dot c (a :: l) = c 0 * a + dot (fun i => c (i + 1)) l := by
  unfold dot
  rw [List.mapIdx_cons, List.sum_cons]

theorem rank_sum : ∀ l : List ℝ, dot (fun i => (i : ℝ) + 1 - 0.5 * (l.length + 1)) l =
    pairSum (fun x y => y - x) l / 2
  | [] => by simp [dot, pairSum]
  | a :: l => by
    have h1 : (l.map fun y => y - a).sum = l.sum - l.length * a := by
      induction l with
      | nil => simp
      | cons b l ih =>
        simp only [List.map_cons, List.sum_cons, List.length_cons, ih]
        push_cast
        ring
    have h2 : dot (fun i => ((i + 1 : ℕ) : ℝ) + 1 - 0.5 * (((a :: l).length : ℕ) + 1)) l =
        1 * dot (fun i => (i : ℝ) + 1 - 0.5 * (l.length + 1)) l + 0.5 * dot (fun _ => 1) l := by
      rw [← dot_lin]
      refine dot_congr fun i _ => ?_
      push_cast [List.length_cons]
      ring
    rw [dot_cons, h2, rank_sum l, dot_one, pairSum, h1]
    push_cast [List.length_cons]
    ring

theorem dagostino_gini (xs : List ℝ) :
    dot (fun i => (i : ℝ) + 1 - 0.5 * (xs.length + 1)) (sort xs) =
      (xs.map fun x => (xs.map fun y => |x - y|).sum).sum / 4 := by
  have h := rank_sum (sort xs)
  rw [length_sort] at h
  rw [h, pairSum_congr (R := (· ≤ ·)) (g' := fun x y => |x - y|) (fun a b h => by
      rw [abs_sub_comm, abs_of_nonneg (sub_nonneg.2 h)]) (sort_pairwise xs),
    pairSum_perm (fun a b => abs_sub_comm a b) (sort_perm xs),
    double_sum (fun a b => abs_sub_comm a b)]
  have : (xs.map fun x => |x - x|).sum = 0 := by simp
  rw [this]
  ring

theorem sum_rank_sq (n : ℕ) : ∑ i ∈ Finset.range n, ((i : ℝ) + 1 - 0.5 * (n + 1)) ^ 2 =
    n * ((n : ℝ) ^ 2 - 1) / 12 := by
  have key : ∀ (m : ℕ) (c : ℝ), ∑ i ∈ Finset.range m, ((i : ℝ) + 1 - c) ^ 2 =
      m * (m + 1) * (2 * m + 1) / 6 - c * m * (m + 1) + m * c ^ 2 := by
    intro m c
    induction m with
    | zero => simp
    | succ m ih => rw [Finset.sum_range_succ, ih]; push_cast; ring
  rw [key]
  ring

theorem sum_rank (n : ℕ) : ∑ i ∈ Finset.range n, ((i : ℝ) + 1 - 0.5 * (n + 1)) = 0 := by
  have key : ∀ (m : ℕ) (c : ℝ), ∑ i ∈ Finset.range m, ((i : ℝ) + 1 - c) =
      m * (m + 1) / 2 - m * c := by
    intro m c
    induction m with
    | zero => simp
    | succ m ih => rw [Finset.sum_range_succ, ih]; push_cast; ring
  rw [key]
  ring

/-- The ratio of D'Agostino's statistic, `D`. -/
theorem dagostino_ratio {xs : List ℝ} (hv : Varies xs) (hn : 3 < xs.length) :
    0 < ((xs.length : ℝ) - 1) * meanDifference xs / (4 * xs.length * stdDev xs) ∧
    ((xs.length : ℝ) - 1) * meanDifference xs / (4 * xs.length * stdDev xs) ≤
      √((1 - 1 / (xs.length : ℝ) ^ 2) / 12) := by
  have hs := stdDev_pos hv
  have hn' : (4 : ℝ) ≤ xs.length := by exact_mod_cast hn
  have hG := dagostino_gini xs
  have e : ((xs.length : ℝ) - 1) * meanDifference xs / (4 * xs.length * stdDev xs) =
      dot (fun i => (i : ℝ) + 1 - 0.5 * (xs.length + 1)) (sort xs) / (xs.length ^ 2 * stdDev xs) := by
    rw [hG, meanDifference]
    have h1 : (xs.length : ℝ) - 1 ≠ 0 := by linarith
    have h2 : (xs.length : ℝ) ≠ 0 := by linarith
    field_simp
  rw [e]
  constructor
  · rw [hG]
    refine div_pos (div_pos ?_ (by norm_num)) (by positivity)
    obtain ⟨x, hx, y, hy, hxy⟩ := hv
    have hnn : ∀ z, 0 ≤ (xs.map fun y => |z - y|).sum := fun z =>
      List.sum_nonneg fun v hv => by
        obtain ⟨w, -, rfl⟩ := List.mem_map.mp hv; positivity
    have h1 : (xs.map fun y => |x - y|).sum ≤ (xs.map fun x => (xs.map fun y => |x - y|).sum).sum :=
      List.single_le_sum (fun v hv => by
        obtain ⟨w, -, rfl⟩ := List.mem_map.mp hv; exact hnn w) _ (List.mem_map.2 ⟨x, hx, rfl⟩)
    have h2 : |x - y| ≤ (xs.map fun y => |x - y|).sum :=
      List.single_le_sum (fun v hv => by
        obtain ⟨w, -, rfl⟩ := List.mem_map.mp hv; positivity) _ (List.mem_map.2 ⟨y, hy, rfl⟩)
    have h3 : 0 < |x - y| := abs_pos.2 (sub_ne_zero.2 hxy)
    linarith
  · refine Real.le_sqrt_of_sq_le ?_
    have hcs := Finset.sum_mul_sq_le_sq_mul_sq (Finset.range xs.length)
      (fun i => (i : ℝ) + 1 - 0.5 * (xs.length + 1)) (fun i => at_ (sort xs) i - meanOf id xs)
    rw [sum_rank_sq] at hcs
    have e1 : ∑ i ∈ Finset.range xs.length, ((i : ℝ) + 1 - 0.5 * (xs.length + 1)) *
        (at_ (sort xs) i - meanOf id xs) = dot (fun i => (i : ℝ) + 1 - 0.5 * (xs.length + 1)) (sort xs) := by
      simp only [mul_sub]
      rw [Finset.sum_sub_distrib, ← Finset.sum_mul, sum_rank, zero_mul, sub_zero, dot_at, length_sort]
      exact Finset.sum_congr rfl fun i _ => mul_comm _ _
    have e2 : ∑ i ∈ Finset.range xs.length, (at_ (sort xs) i - meanOf id xs) ^ 2 =
        xs.length * stdDev xs ^ 2 := by
      have := sum_at (fun x => (x - meanOf id xs) ^ 2) (sort xs)
      rw [length_sort] at this
      rw [this, ((sort_perm xs).map _).sum_eq, stdDev_sq, Spec.centralMoment]
      conv_rhs => rw [meanOf]
      field_simp
    rw [e1, e2] at hcs
    rw [div_pow, div_le_iff₀ (by positivity)]
    refine hcs.trans (le_of_eq ?_)
    field_simp

/-- **C117**: D'Agostino's statistic standardises the ratio `D` of Gini's mean difference to the
standard deviation; `D` is positive and at most `√((1 - 1/n²) / 12)`. -/
theorem C117_dagostino (lib : NormLib) {xs : List ℝ} (hv : Varies xs) (hn : 3 < xs.length) {D : ℝ}
    (hD : D = ((xs.length : ℝ) - 1) * meanDifference xs / (4 * xs.length * stdDev xs)) :
    NormStat.value lib .dagostino xs = .ok (some (√xs.length * (D - 0.28209479) / 0.02998598)) ∧
    0 < D ∧ D ≤ √((1 - 1 / (xs.length : ℝ) ^ 2) / 12) := by
  have hr := dagostino_ratio hv hn
  rw [← hD] at hr
  refine ⟨?_, hr⟩
  simp only [NormStat.value, guarded, if_pos hn, Except.map, Normal.dagostino, dagostino_gini]
  congr 5
  have hvar : ((sort xs).map (· ^ 2)).sum / xs.length - mean (sort xs) ^ 2 = Spec.centralMoment 2 xs := by
    rw [← variance_raw, mean_perm (sort_perm xs), mean_spec, ((sort_perm xs).map _).sum_eq]
    rfl
  rw [hvar, hD, meanDifference]
  have hn' : (4 : ℝ) ≤ xs.length := by exact_mod_cast hn
  have h1 : (xs.length : ℝ) - 1 ≠ 0 := by linarith
  have h2 : (xs.length : ℝ) ≠ 0 := by linarith
  have h3 : stdDev xs ≠ 0 := (stdDev_pos hv).ne'
  change _ / (_ * stdDev xs) = _
  field_simp

/-- **C117**: the constants are the mean `1 / (2 √π)` and the standard deviation
`√((12 √3 - 27 + 2 π) / (24 π))` of D'Agostino's asymptotic normal law, to eight decimals. -/
theorem C117_dagostino_constants :
    |(0.28209479 : ℝ) - 1 / (2 * √Real.pi)| < 1 / 10 ^ 8 ∧
    |(0.02998598 : ℝ) - √((12 * √3 - 27 + 2 * Real.pi) / (24 * Real.pi))| < 1 / 10 ^ 8 := by
  have h1 := Real.pi_gt_d20
  have h2 := Real.pi_lt_d20
  constructor
  · have hp : 0 < √Real.pi := Real.sqrt_pos.2 Real.pi_pos
    have a1 : (1.7724538509 : ℝ) < √Real.pi := by
      refine Real.lt_sqrt_of_sq_lt ?_
      norm_num at h1 ⊢; linarith
    have a2 : √Real.pi < 1.7724538510 := by
      rw [Real.sqrt_lt' (by norm_num)]
      norm_num at h2 ⊢; linarith
    rw [abs_lt]
    constructor
    · have : 1 / (2 * √Real.pi) < 0.28209479 + 1 / 10 ^ 8 := by
        rw [div_lt_iff₀ (by positivity)]; norm_num at a1 ⊢; linarith
      linarith
    · have : (0.28209479 : ℝ) - 1 / 10 ^ 8 < 1 / (2 * √Real.pi) := by
        rw [lt_div_iff₀ (by positivity)]; norm_num at a2 ⊢; linarith
      linarith
  · have b1 : (1.73205080756887 : ℝ) < √3 := by
      refine Real.lt_sqrt_of_sq_lt ?_
      norm_num
    have b2 : √3 < (1.73205080756888 : ℝ) := by
      rw [Real.sqrt_lt' (by norm_num)]
      norm_num
    have hp := Real.pi_pos
    rw [abs_lt]
    constructor
    · have : √((12 * √3 - 27 + 2 * Real.pi) / (24 * Real.pi)) < 0.02998598 + 1 / 10 ^ 8 := by
        rw [Real.sqrt_lt' (by norm_num), div_lt_iff₀ (by positivity)]
        norm_num at b2 h1 h2 ⊢
        linarith
      linarith
    · have : (0.02998598 : ℝ) - 1 / 10 ^ 8 < √((12 * √3 - 27 + 2 * Real.pi) / (24 * Real.pi)) := by
        refine Real.lt_sqrt_of_sq_lt ?_
        rw [lt_div_iff₀ (by positivity)]
        norm_num at b1 h1 h2 ⊢
        linarith
      linarith

/-! ### Mean absolute deviations -/

theorem absDeviation_nonneg (c : ℝ) (xs : List ℝ) : 0 ≤ absDeviation c xs := by
  unfold absDeviation meanOf
  refine div_nonneg (List.sum_nonneg fun v hv => ?_) (Nat.cast_nonneg _)
  obtain ⟨w, -, rfl⟩ := List.mem_map.mp hv; positivity

theorem absDeviation_pos {xs : List ℝ} (hv : Varies xs) (c : ℝ) : 0 < absDeviation c xs := by
  have hl : (0 : ℝ) < xs.length := by exact_mod_cast List.length_pos_iff.2 hv.ne_nil
  refine div_pos ?_ hl
  have hnn : ∀ v ∈ xs.map fun x => |x - c|, 0 ≤ v := fun v hv => by
    obtain ⟨w, -, rfl⟩ := List.mem_map.mp hv; positivity
  obtain ⟨x, hx, y, hy, hxy⟩ := hv
  have h1 := List.single_le_sum hnn _ (List.mem_map.2 ⟨x, hx, rfl⟩)
  have h2 := List.single_le_sum hnn _ (List.mem_map.2 ⟨y, hy, rfl⟩)
  by_contra h
  have h3 : |x - c| = 0 := le_antisymm (by linarith) (abs_nonneg _)
  have h4 : |y - c| = 0 := le_antisymm (by linarith) (abs_nonneg _)
  rw [abs_eq_zero] at h3 h4
  exact hxy (by linarith)

/-- The mean absolute deviation from the mean is at most the standard deviation. -/
theorem absDeviation_le {xs : List ℝ} (h : xs ≠ []) : absDeviation (meanOf id xs) xs ≤ stdDev xs := by
  refine Real.le_sqrt_of_sq_le ?_
  unfold absDeviation Spec.centralMoment
  set m := meanOf id xs
  have hl : (0 : ℝ) < xs.length := by exact_mod_cast List.length_pos_iff.2 h
  unfold meanOf
  have hcs := Finset.sum_mul_sq_le_sq_mul_sq (Finset.range xs.length) (fun _ => (1 : ℝ))
    (fun i => |at_ xs i - m|)
  simp only [one_mul, one_pow, Finset.sum_const, Finset.card_range, nsmul_eq_mul, mul_one, sq_abs] at hcs
  rw [sum_at (fun x => |x - m|), sum_at (fun x => (x - m) ^ 2)] at hcs
  rw [div_pow, div_le_div_iff₀ (by positivity) hl]
  nlinarith

/-- **C117**: the statistic of Bonett and Seier standardises `ω = 13.29 log (σ / τ)`, `σ` the standard
deviation and `τ` the mean absolute deviation from the mean; `ω` is not negative. -/
theorem C117_bonettSeier (lib : NormLib) {xs : List ℝ} (hv : Varies xs) (hn : 3 < xs.length) {ω : ℝ}
    (hω : ω = 13.29 * Real.log (stdDev xs / absDeviation (meanOf id xs) xs)) :
    NormStat.value lib .bonettSeier xs = .ok (some (√(xs.length + 2) * (ω - 3) / 3.54)) ∧ 0 ≤ ω := by
  have hs := stdDev_pos hv
  have ha := absDeviation_pos hv (meanOf id xs)
  constructor
  · simp only [NormStat.value, guarded, if_pos hn, Except.map, Normal.bonettSeier, mean_spec]
    rw [hω, Real.log_div hs.ne' ha.ne']
    rfl
  · rw [hω]
    refine mul_nonneg (by norm_num) (Real.log_nonneg ?_)
    rw [le_div_iff₀ ha, one_mul]
    exact absDeviation_le hv.ne_nil

theorem median_spec {xs : List ℝ} (h : xs ≠ []) {o : ℕ → ℝ} (ho : OrderStats xs o) :
    median (sort xs) = medianOf xs.length o := by
  have hl := List.length_pos_iff.2 h
  unfold median medianOf
  rw [length_sort]
  split
  · rw [at_sort_orderStats ho (by omega), at_sort_orderStats ho (by omega), Nat.sub_add_cancel (by omega),
      show (xs.length + 1) / 2 = xs.length / 2 by omega]
    ring
  · rw [at_sort_orderStats ho (by omega), show (xs.length + 1) / 2 = xs.length / 2 + 1 by omega]
    ring

theorem median_least {xs : List ℝ} (h : xs ≠ []) {o : ℕ → ℝ} (ho : OrderStats xs o) (c : ℝ) :
    absDeviation (medianOf xs.length o) xs ≤ absDeviation c xs := by
  have e : Likelihood.median xs = medianOf xs.length o := by
    have hl := List.length_pos_iff.2 h
    have h1 := at_sort_orderStats ho (i := (xs.length - 1) / 2) (by omega)
    have h2 := at_sort_orderStats ho (i := xs.length / 2) (by omega)
    unfold at_ at h1 h2
    simp only [Likelihood.median, length_sort, at', h1, h2, medianOf]
    rw [show (xs.length - 1) / 2 + 1 = (xs.length + 1) / 2 by omega]
  have := Likelihood.median_min h c
  rw [e] at this
  unfold absDeviation meanOf
  gcongr

/-- **C117**: the statistic of Gel, Miao and Gastwirth is the ratio of the standard deviation to
`√(π/2)` times the mean absolute deviation from the median; that deviation is the smallest one from any
point, and the ratio is at least `√(2/π)`. -/
theorem C117_gmg (lib : NormLib) {xs : List ℝ} (hv : Varies xs) (hn : 3 < xs.length) {o : ℕ → ℝ}
    (ho : OrderStats xs o) {d : ℝ} (hd : d = absDeviation (medianOf xs.length o) xs) :
    NormStat.value lib .gmg xs = .ok (some (stdDev xs / (√(Real.pi / 2) * d))) ∧
    (∀ c, d ≤ absDeviation c xs) ∧ √(2 / Real.pi) ≤ stdDev xs / (√(Real.pi / 2) * d) := by
  have hpi := Real.pi_pos
  have hd0 : 0 < d := hd ▸ absDeviation_pos hv _
  have hmin : ∀ c, d ≤ absDeviation c xs := fun c => hd ▸ median_least hv.ne_nil ho c
  refine ⟨?_, hmin, ?_⟩
  · simp only [NormStat.value, guarded, if_pos hn, Except.map, Normal.gmg, mean_spec,
      median_spec hv.ne_nil ho]
    rw [hd, mul_div_assoc]
    rfl
  · have h1 := (hmin (meanOf id xs)).trans (absDeviation_le hv.ne_nil)
    have hp : 0 < √(Real.pi / 2) := Real.sqrt_pos.2 (by positivity)
    rw [le_div_iff₀ (by positivity), ← mul_assoc, ← Real.sqrt_mul (by positivity),
      show 2 / Real.pi * (Real.pi / 2) = 1 by field_simp, Real.sqrt_one, one_mul]
    exact h1

/-- **C117**: the robust Jarque-Bera statistic: central moments over powers of `√(π/2)` times the mean
absolute deviation from the median. -/
theorem C117_robustJarqueBera (lib : NormLib) {xs : List ℝ} (h : xs ≠ []) {o : ℕ → ℝ}
    (ho : OrderStats xs o) {J : ℝ} (hJ : J = √(Real.pi / 2) * absDeviation (medianOf xs.length o) xs) :
    NormStat.value lib .robustJarqueBera xs = .ok (some (xs.length *
      ((Spec.centralMoment 3 xs / J ^ 3) ^ 2 / 6 + (Spec.centralMoment 4 xs / J ^ 4 - 3) ^ 2 / 64))) := by
  have e : √(Real.pi / 2) / xs.length * (xs.map fun x => |x - medianOf xs.length o|).sum = J := by
    rw [hJ, absDeviation, meanOf]; ring
  simp only [NormStat.value, Normal.robustJarqueBera, median_spec h ho, moment_perm (sort_perm xs),
    moment_spec, e]
  congr 2
  ring

theorem desgagne_form (n r₁ r₂ r₃ : ℝ) :
    n * ((r₁ * 1259.04213344 - r₂ * 32040.69569026 + r₃ * 85065.77739473) * r₁ +
      (-r₁ * 32040.6956903 + r₂ * 918649.9005906 - r₃ * 2425883.3443201) * r₂ +
      (r₁ * 85065.7773947 - r₂ * 2425883.3443201 + r₃ * 6407749.8211208) * r₃) =
    n * ((3934506667 / 3125000 : ℝ) * (r₁ + (-801017392257 / 31476053336 : ℝ) * r₂ + (1308704267611 / 19369878976 : ℝ) * r₃) ^ 2 +
      (81257969004315983951991 / 786901333400000000 : ℝ) * (r₂ + (-1643613270740890316626369 / 650063752034527871615928 : ℝ) * r₃) ^ 2 +
      (6240562940235865085358865712069327 / 26002550081381114864637120000000 : ℝ) * r₃ ^ 2) := by
  ring

/-- **C117**: the statistic of Desgagné and Lafaye de Micheaux is a positive definite quadratic form: it
is never negative, and zero only if its three score components are. -/
theorem C117_desgagne (lib : NormLib) {xs : List ℝ} (hn : 3 < xs.length) {r₁ r₂ r₃ : ℝ}
    (h₁ : r₁ = 0.18240929 - meanOf (fun x => ((x - meanOf id xs) / stdDev xs) ^ 2 *
      Real.log |(x - meanOf id xs) / stdDev xs|) xs / 2)
    (h₂ : r₂ = 0.5348223 - meanOf (fun x => Real.log (1 + |(x - meanOf id xs) / stdDev xs|)) xs)
    (h₃ : r₃ = 0.20981558 - meanOf (fun x =>
      Real.log (Real.log (2.71828182846 + |(x - meanOf id xs) / stdDev xs|))) xs) :
    ∃ v, NormStat.value lib .desgagneLafaye xs = .ok (some v) ∧
      v = xs.length * ∑ i, ∑ j, desgagneMatrix i j * ![r₁, r₂, r₃] i * ![r₁, r₂, r₃] j ∧ 0 ≤ v ∧
      (v = 0 ↔ r₁ = 0 ∧ r₂ = 0 ∧ r₃ = 0) := by
  have hn' : (4 : ℝ) ≤ xs.length := by exact_mod_cast hn
  have hvar : (xs.map (· ^ 2)).sum / xs.length - mean xs ^ 2 = Spec.centralMoment 2 xs := by
    rw [← variance_raw, mean_spec]; rfl
  have e1 : 0.18240929 - 0.5 * ((xs.map fun x => (x - mean xs) / √((xs.map (· ^ 2)).sum / xs.length -
      mean xs ^ 2)).map fun t => t ^ 2 * Real.log |t|).sum / xs.length = r₁ := by
    rw [hvar, h₁, List.map_map, meanOf, mean_spec]
    simp only [Function.comp_def, stdDev]
    ring
  have e2 : 0.5348223 - ((xs.map fun x => (x - mean xs) / √((xs.map (· ^ 2)).sum / xs.length -
      mean xs ^ 2)).map fun t => Real.log (1 + |t|)).sum / xs.length = r₂ := by
    rw [hvar, h₂, List.map_map, meanOf, mean_spec]; rfl
  have e3 : 0.20981558 - ((xs.map fun x => (x - mean xs) / √((xs.map (· ^ 2)).sum / xs.length -
      mean xs ^ 2)).map fun t => Real.log (Real.log (2.71828182846 + |t|))).sum / xs.length = r₃ := by
    rw [hvar, h₃, List.map_map, meanOf, mean_spec]; rfl
  refine ⟨_, by simp only [NormStat.value, guarded, if_pos hn, Except.map, Normal.desgagneLafaye,
    e1, e2, e3]; rfl, ?_, ?_, ?_⟩
  · simp [Fin.sum_univ_three, desgagneMatrix]
    ring_nf
    simp
  · rw [desgagne_form]
    have hx : (0 : ℝ) ≤ xs.length := by linarith
    exact mul_nonneg hx (by positivity)
  · rw [desgagne_form, mul_eq_zero]
    constructor
    · rintro (h | h)
      · linarith
      · have q1 := sq_nonneg (r₁ + (-801017392257 / 31476053336 : ℝ) * r₂ + (1308704267611 / 19369878976 : ℝ) * r₃)
        have q2 := sq_nonneg (r₂ + (-1643613270740890316626369 / 650063752034527871615928 : ℝ) * r₃)
        have q3 := sq_nonneg r₃
        have z3 : r₃ = 0 := pow_eq_zero_iff two_ne_zero |>.1 (le_antisymm (by linarith) q3)
        have z2 : r₂ + (-1643613270740890316626369 / 650063752034527871615928 : ℝ) * r₃ = 0 :=
          pow_eq_zero_iff two_ne_zero |>.1 (le_antisymm (by linarith) q2)
        have z1 : r₁ + (-801017392257 / 31476053336 : ℝ) * r₂ + (1308704267611 / 19369878976 : ℝ) * r₃ = 0 :=
          pow_eq_zero_iff two_ne_zero |>.1 (le_antisymm (by linarith) q1)
        have y2 : r₂ = 0 := by rw [z3] at z2; linarith
        refine ⟨?_, y2, z3⟩
        rw [z3, y2] at z1; linarith
    · rintro ⟨h1, h2, h3⟩
      right
      rw [h1, h2, h3]
      norm_num

/-! ### Slopes of the normal plot -/

theorem ppf_blom_scores {n : ℕ} {z : ℕ → ℝ} (hz : NormalScores n (position (3 / 8) n) z) {i : ℕ}
    (hi : i < n) : scipyNorm.ppf (blom n i) = z (i + 1) := by
  have : blom n i = position (3 / 8) n (i + 1) := by
    rw [blom, position]
    push_cast
    congr 1
    ring
  rw [this]
  exact ppf_scores hz (by omega) hi

theorem at_npDiff : ∀ (l : List ℝ) (i : ℕ), i + 1 < l.length →
    at_ (npDiff l) i = at_ l (i + 1) - at_ l i
  | [], _, h => by simp at h
  | [_], _, h => by simp at h
  | x :: y :: l, 0, _ => by simp [npDiff, at_]
  | x :: y :: l, i + 1, h => by
    have := at_npDiff (y :: l) i (by simpa using h)
    simpa [npDiff, at_] using this

/-- **C117**: the Chen-Shapiro statistic compares the average slope between neighbours on the plot against
the normal scores with the standard deviation. -/
theorem C117_chenShapiro {xs : List ℝ} (hn : 3 < xs.length) {o z : ℕ → ℝ} (ho : OrderStats xs o)
    (hz : NormalScores xs.length (position (3 / 8) xs.length) z) :
    NormStat.value scipyNorm .chenShapiro xs = .ok (some (√xs.length * (1 -
      (∑ i ∈ Finset.Icc 1 (xs.length - 1), plotSlope z o i (i + 1)) / ((xs.length : ℝ) - 1) /
        stdDev1 xs))) := by
  have e : ((npDiff (sort xs)).mapIdx fun i d => d / (scipyNorm.ppf (blom xs.length (i + 1)) -
      scipyNorm.ppf (blom xs.length i))).sum =
      ∑ i ∈ Finset.Icc 1 (xs.length - 1), plotSlope z o i (i + 1) := by
    rw [sum_mapIdx_at, length_npDiff, length_sort, sum_range_Icc]
    refine Finset.sum_congr rfl fun i hi => ?_
    obtain ⟨h1, h2⟩ := Finset.mem_Icc.1 hi
    have hi' : i - 1 + 1 = i := by omega
    rw [at_npDiff _ _ (by rw [length_sort]; omega), at_sort_orderStats ho (by omega),
      at_sort_orderStats ho (by omega), ppf_blom_scores hz (by omega), ppf_blom_scores hz (by omega),
      hi', plotSlope]
  simp only [NormStat.value, guarded, if_pos hn, Except.map, Normal.chenShapiro, e, var1, mean_spec]
  rw [div_div]
  rfl

theorem zqA_dot (u : ℕ → ℝ) {l : List ℝ} {n : ℕ} (hn : l.length = n) (h : 2 ≤ n) : dot (zqA u n) l =
    (∑ i ∈ Finset.range (n - 1), (at_ l (i + 1) - at_ l 0) / (u (i + 1) - u 0)) / ((n : ℝ) - 1) := by
  obtain ⟨k, rfl⟩ : ∃ k, n = k + 1 := ⟨n - 1, by omega⟩
  rw [dot_at, hn, Finset.sum_range_succ']
  simp only [zqA, Nat.add_one_ne_zero, if_false, if_true, Nat.add_sub_cancel]
  rw [mul_neg, Finset.mul_sum, ← sub_eq_add_neg, ← Finset.sum_sub_distrib, Finset.sum_div]
  refine Finset.sum_congr rfl fun i _ => ?_
  rw [div_div, mul_comm (u (i + 1) - u 0)]
  ring

theorem zqB_dot {u : ℕ → ℝ} {l : List ℝ} {n : ℕ} (hn : l.length = n) (h : 8 ≤ n)
    (hu : ∀ i < n, u (n - 1 - i) = -u i) : dot (zqB u n) l =
    (∑ i ∈ Finset.range (n - 4), (at_ l (i + 4) - at_ l i) / (u (i + 4) - u i)) / ((n : ℝ) - 4) := by
  set d : ℕ → ℝ := fun i => 1 / (((n : ℝ) - 4) * (u i - u (i + 4))) with hd
  have e : ∀ i ∈ Finset.range n, at_ l i * zqB u n i = (if i + 4 < n then at_ l i * d i else 0) -
      (if 4 ≤ i then at_ l i * d (i - 4) else 0) := by
    intro i hi
    have hi := Finset.mem_range.1 hi
    unfold zqB
    by_cases h1 : i < 4
    · rw [if_pos h1, if_pos (by omega), if_neg (by omega), sub_zero]
    · rw [if_neg h1, if_pos (show 4 ≤ i by omega)]
      by_cases h2 : n ≤ i + 4
      · have h3 : n - 1 - i + 4 = n - 1 - (i - 4) := by omega
        rw [if_pos h2, if_neg (by omega), h3, hu _ hi, hu _ (by omega), zero_sub, ← mul_neg]
        simp only [hd]
        rw [show i - 4 + 4 = i by omega]
        congr 2
        rw [← neg_sub_neg]
        ring_nf
      · rw [if_neg h2, if_pos (by omega), ← mul_sub]
        simp only [hd]
        rw [show i - 4 + 4 = i by omega, sub_div, div_div, div_div, mul_comm (u i - u (i + 4)),
          mul_comm (u (i - 4) - u i)]
  obtain ⟨k, rfl⟩ : ∃ k, n = k + 4 := ⟨n - 4, by omega⟩
  rw [dot_at, hn, Finset.sum_congr rfl e, Finset.sum_sub_distrib]
  have e1 : ∑ i ∈ Finset.range (k + 4), (if i + 4 < k + 4 then at_ l i * d i else 0) =
      ∑ i ∈ Finset.range k, at_ l i * d i := by
    rw [Finset.sum_range_succ, Finset.sum_range_succ, Finset.sum_range_succ, Finset.sum_range_succ]
    simp only [show ¬(k + 3 + 4 < k + 4) by omega, show ¬(k + 2 + 4 < k + 4) by omega,
      show ¬(k + 1 + 4 < k + 4) by omega, show ¬(k + 4 < k + 4) by omega, if_false, add_zero]
    exact Finset.sum_congr rfl fun i hi => if_pos (by have := Finset.mem_range.1 hi; omega)
  have e2 : ∑ i ∈ Finset.range (k + 4), (if 4 ≤ i then at_ l i * d (i - 4) else 0) =
      ∑ i ∈ Finset.range k, at_ l (i + 4) * d i := by
    rw [Finset.sum_range_succ', Finset.sum_range_succ', Finset.sum_range_succ', Finset.sum_range_succ']
    simp
  rw [e1, e2, ← Finset.sum_sub_distrib, Nat.add_sub_cancel, Finset.sum_div]
  refine Finset.sum_congr rfl fun i _ => ?_
  simp only [hd]
  rw [← sub_mul, mul_one_div, ← neg_sub (u (i + 4)), mul_neg, div_neg, div_div, ← neg_div, neg_sub,
    mul_comm (u (i + 4) - u i)]

/-- **C117**: Zhang's `Q` is the logarithm of the ratio of two average slopes of the plot against the
normal scores: of the chords from the smallest observation, and of the chords that skip four places. -/
theorem C117_zhangQ {xs : List ℝ} (hn : 8 ≤ xs.length) {o z : ℕ → ℝ} (ho : OrderStats xs o)
    (hz : NormalScores xs.length (position (3 / 8) xs.length) z) :
    NormStat.value scipyNorm .zhangQ xs = .ok (some (Real.log
      (((∑ i ∈ Finset.Icc 2 xs.length, plotSlope z o 1 i) / ((xs.length : ℝ) - 1)) /
        ((∑ i ∈ Finset.Icc 1 (xs.length - 4), plotSlope z o i (i + 4)) / ((xs.length : ℝ) - 4))))) := by
  have hl := length_sort xs
  simp only [NormStat.value, guarded, if_pos (show xs.length > 3 by omega), Except.map, Normal.zhangQ,
    if_neg (show ¬xs.length < 8 by omega)]
  rw [zqA_dot _ hl (by omega), zqB_dot hl hn fun i hi => ppf_blom scipyNorm_symmetric hi]
  congr 5
  · rw [sum_range_Icc, show Finset.Icc 2 xs.length = Finset.Icc (1 + 1) (xs.length - 1 + 1) by
      congr 1; omega, ← Finset.map_add_right_Icc, Finset.sum_map]
    refine Finset.sum_congr rfl fun i hi => ?_
    obtain ⟨h1, h2⟩ := Finset.mem_Icc.1 hi
    have hi' : i - 1 + 1 = i := by omega
    rw [at_sort_orderStats ho (by omega), at_sort_orderStats ho (by omega),
      ppf_blom_scores hz (by omega), ppf_blom_scores hz (by omega), hi']
    rfl
  · rw [sum_range_Icc]
    refine Finset.sum_congr rfl fun i hi => ?_
    obtain ⟨h1, h2⟩ := Finset.mem_Icc.1 hi
    have hi' : i - 1 + 4 + 1 = i + 4 := by omega
    rw [at_sort_orderStats ho (by omega), at_sort_orderStats ho (by omega),
      ppf_blom_scores hz (by omega), ppf_blom_scores hz (by omega), hi', show i - 1 + 1 = i by omega]
    rfl

end Pysatl.Props
