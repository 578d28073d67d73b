import Verif.Model.LogNormal
import Verif.Spec.LogNormal
import Verif.Props.Normal
import Verif.Props.KsEvidence

/-! # C65, C61 and related properties of the log-normality statistics -/

namespace Pysatl.Props

open Pysatl.Decision Pysatl.Graph Pysatl.Edf Pysatl.Exponent Pysatl.Normal Pysatl.LogNormal
open Pysatl.Spec

theorem any_nonpos {xs : List ℝ} :
    xs.any (fun x => decide (x ≤ 0)) = true ↔ ∃ x ∈ xs, x ≤ 0 := by
  simp

theorem any_nonpos_false {xs : List ℝ} (h : ∀ x ∈ xs, 0 < x) :
    xs.any (fun x => decide (x ≤ 0)) = false := by
  rw [Bool.eq_false_iff, ne_eq, any_nonpos]
  rintro ⟨x, hx, h'⟩
  exact absurd (h x hx) (not_lt.2 h')

theorem wrapped_pos (lib : NormLib) (cls : NormStat) (s scale : ℝ) {xs : List ℝ}
    (h : ∀ x ∈ xs, 0 < x) :
    wrapped lib cls s scale xs =
      embed (cls.value lib (standardLogs s scale xs)) := by
  unfold wrapped
  rw [any_nonpos_false h]
  simp [standardLogs, List.map_map, Function.comp_def]

/-! ### C65 -/

/-- **C65**, the value: for positive observations a derived log-normal statistic is the normality
statistic of the standardised logarithms, and otherwise it is infinite; it is never infinite for
positive observations; and the tail is the one of the normality statistic. -/
theorem C65_wrapped (lib : NormLib) (cls : NormStat) (s scale : ℝ) (xs : List ℝ) :
    ((∀ x ∈ xs, 0 < x) → wrapped lib cls s scale xs =
      embed (cls.value lib (standardLogs s scale xs))) ∧
    (wrapped lib cls s scale xs = .ok (some ⊤) ↔ ∃ x ∈ xs, x ≤ 0) ∧
    wrappedAlternative cls = alternative cls := by
  refine ⟨wrapped_pos lib cls s scale, ⟨fun h => ?_, fun h => ?_⟩, rfl⟩
  · by_contra hne
    push Not at hne
    rw [wrapped_pos lib cls s scale hne] at h
    rcases hv : cls.value lib (standardLogs s scale xs) with e | o
    · rw [hv] at h; simp [embed, Except.map] at h
    · rw [hv] at h
      rcases o with _ | r
      · simp [embed, Except.map] at h
      · simp [embed, Except.map] at h
  · unfold wrapped
    rw [if_pos (any_nonpos.2 h)]

/-- **C65**, simulated samples: on the log-normal sample made from a standard normal sample, the
derived statistic is the normality statistic of that normal sample. -/
theorem C65_simulated (lib : NormLib) (cls : NormStat) {s scale : ℝ} (hs : 0 < s) (hscale : 0 < scale)
    (zs : List ℝ) :
    wrapped lib cls s scale (fromNormal s scale zs) =
      embed (cls.value lib zs) := by
  have hpos : ∀ x ∈ fromNormal s scale zs, 0 < x := by
    intro x hx
    obtain ⟨z, -, rfl⟩ := List.mem_map.1 hx
    positivity
  rw [wrapped_pos lib cls s scale hpos]
  congr 2
  unfold standardLogs fromNormal
  rw [List.map_map]
  conv_rhs => rw [← List.map_id zs]
  refine List.map_congr_left fun z _ => ?_
  simp only [Function.comp, id]
  rw [Real.log_mul hscale.ne' (Real.exp_pos _).ne', Real.log_exp]
  field_simp
  ring

/-- The statistic is the one of a log-normal sample of four observations. -/
example : wrapped scipyNorm .eppsPulley 2 3 (fromNormal 2 3 [-1, 0, 1, 5]) =
    .ok (some ((Normal.eppsPulley [-1, 0, 1, 5] : ℝ) : WithTop ℝ)) :=
  C65_simulated scipyNorm .eppsPulley (by norm_num) (by norm_num) _

theorem standardLogs_aff {s scale : ℝ} (hs : 0 < s) (xs : List ℝ) :
    standardLogs s scale xs =
      (xs.map Real.log).map fun x => -(Real.log scale / s) + 1 / s * x := by
  unfold standardLogs
  rw [List.map_map]
  refine List.map_congr_left fun x _ => ?_
  simp only [Function.comp]
  field_simp
  ring

theorem wrapped_free {cls : NormStat} (h : Wrapped cls) : LocationScaleFree cls := by
  cases cls <;> first | trivial | exact h

/-- **C65**, the parameters: the value of a derived statistic does not depend on the parameters of
the hypothesis, and is unchanged by replacing every observation `x` by `c x ^ b`, which turns
one log-normal distribution into another. -/
theorem C65_parameter_free {lib : NormLib} (hlib : lib.Symmetric) {cls : NormStat} (hc : Wrapped cls)
    {s scale s' scale' : ℝ} (hs : 0 < s) (hs' : 0 < s') {c b : ℝ} (hc0 : 0 < c) (hb : 0 < b)
    {xs : List ℝ} (hx : ∀ x ∈ xs, 0 < x) :
    wrapped lib cls s' scale' (xs.map fun x => c * x ^ b) = wrapped lib cls s scale xs := by
  have hpos : ∀ x ∈ xs.map fun x => c * x ^ b, 0 < x := by
    intro y hy
    obtain ⟨x, hm, rfl⟩ := List.mem_map.1 hy
    exact mul_pos hc0 (Real.rpow_pos_of_pos (hx x hm) b)
  rw [wrapped_pos _ _ _ _ hpos, wrapped_pos _ _ _ _ hx, standardLogs_aff hs', standardLogs_aff hs,
    C63_location_scale hlib (wrapped_free hc) _ _ (by positivity),
    C63_location_scale hlib (wrapped_free hc) _ _ (by positivity)]
  have : (xs.map fun x => c * x ^ b).map Real.log =
      (xs.map Real.log).map fun x => Real.log c + b * x := by
    rw [List.map_map, List.map_map]
    refine List.map_congr_left fun x hm => ?_
    simp only [Function.comp]
    rw [Real.log_mul hc0.ne' (Real.rpow_pos_of_pos (hx x hm) b).ne', Real.log_rpow (hx x hm)]
  rw [this, C63_location_scale hlib (wrapped_free hc) _ _ hb]

example : wrapped scipyNorm .shapiroWilk 1 1 ([1, 2, 3, 7].map fun x => 5 * x ^ (1 / 2 : ℝ)) =
    wrapped scipyNorm .shapiroWilk 4 9 [1, 2, 3, 7] :=
  C65_parameter_free (cls := .shapiroWilk) scipyNorm_symmetric trivial (by norm_num) (by norm_num) (by norm_num)
    (by norm_num) (by simp)

theorem standardLogs_sort {s scale : ℝ} (hs : 0 < s) {xs : List ℝ} (hx : ∀ x ∈ xs, 0 < x) :
    sort (standardLogs s scale xs) = (sort xs).map fun x => (Real.log x - Real.log scale) / s := by
  refine List.Perm.eq_of_pairwise (le := (· ≤ ·)) (fun a b _ _ h h' => le_antisymm h h')
    (sort_pairwise _) ?_ ?_
  · rw [List.pairwise_map]
    refine (sort_pairwise xs).imp_of_mem ?_
    intro a b ha hb hab
    have ha' := hx a ((sort_perm xs).mem_iff.1 ha)
    have := Real.log_le_log ha' hab
    gcongr
  · exact (sort_perm _).trans ((sort_perm xs).map _).symm

/-- **C65**, the explicit classes: with positive parameters and observations the log-normal
Kolmogorov-Smirnov and Cramer-von Mises statistics are the normality statistics of the standardised
logarithms. -/
theorem C65_explicit (lib : NormLib) (t : AlternativeType) {s scale : ℝ} (hs : 0 < s)
    (hscale : 0 < scale) {xs : List ℝ} (hx : ∀ x ∈ xs, 0 < x) :
    ksLogNormal lib t s scale xs = ksOf t lib.cdf (standardLogs s scale xs) ∧
    cvmLogNormal lib s scale xs = cvmOf lib.cdf (standardLogs s scale xs) := by
  have : (sort xs).map (lognormCdf lib s scale) =
      (sort (standardLogs s scale xs)).map lib.cdf := by
    rw [standardLogs_sort hs hx, List.map_map]
    refine List.map_congr_left fun x hm => ?_
    have hpos := hx x ((sort_perm xs).mem_iff.1 hm)
    simp only [Function.comp, lognormCdf]
    rw [if_neg (not_le.2 hpos), Real.log_div hpos.ne' hscale.ne']
  exact ⟨by unfold ksLogNormal ksOf; rw [this], by unfold cvmLogNormal cvmOf; rw [this]⟩

example : cvmLogNormal scipyNorm 2 3 [5, 1, 2] = cvmOf Phi (standardLogs 2 3 [5, 1, 2]) :=
  (C65_explicit scipyNorm .right (by norm_num) (by norm_num) (by simp)).2

/-! ### C61 -/

theorem wrapped_perm (lib : NormLib) (cls : NormStat) (s scale : ℝ) {xs ys : List ℝ}
    (h : xs.Perm ys) : wrapped lib cls s scale xs = wrapped lib cls s scale ys := by
  unfold wrapped
  rw [h.any_eq]
  split
  · rfl
  · simp only
    rw [C61_normal lib cls ((h.map _).map _)]

theorem klY_perm {xs ys : List ℝ} (h : xs.Perm ys) : (klY xs).Perm (klY ys) := by
  unfold klY
  have : moment 2 (xs.map Real.log) = moment 2 (ys.map Real.log) := by
    unfold moment
    rw [mean_perm (h.map _)]
    exact mean_perm ((h.map _).map _)
  rw [this]
  exact h.map _

theorem klC_perm {Y Z : List ℝ} (h : Y.Perm Z) : klC Y = klC Z := by
  unfold klC
  simp only
  rw [mean_perm (h.map _), mean_perm ((h.map Real.log).map (· ^ 2)),
    mean_perm ((h.map Real.log).map (· ^ 3))]

theorem klD_perm {Y Z : List ℝ} (h : Y.Perm Z) (r : ℝ) : klD Y r = klD Z r := by
  unfold klD
  rw [klC_perm h]
  simp only
  rw [mean_perm (h.map Real.log), mean_perm (h.map fun y => y ^ r),
    mean_perm (h.map fun y => y ^ r * Real.log y)]

/-- **C61** for the log-normality statistics. -/
theorem C61_lognormal (lib : NormLib) (cls : NormStat) (t : AlternativeType)
    (quad : (ℝ → ℝ) → ℝ) (s scale : ℝ) {xs ys : List ℝ} (h : xs.Perm ys) :
    wrapped lib cls s scale xs = wrapped lib cls s scale ys ∧
    ksLogNormal lib t s scale xs = ksLogNormal lib t s scale ys ∧
    cvmLogNormal lib s scale xs = cvmLogNormal lib s scale ys ∧
    quesenberryMillerLogNormal (lognormCdf lib s scale) xs =
      quesenberryMillerLogNormal (lognormCdf lib s scale) ys ∧
    klSupremum xs = klSupremum ys ∧ klIntegral quad xs = klIntegral quad ys := by
  have hD : klD (klY xs) = klD (klY ys) := funext fun r => klD_perm (klY_perm h) r
  refine ⟨wrapped_perm lib cls s scale h, ?_, ?_, ?_, ?_, ?_⟩
  · unfold ksLogNormal; rw [sort_eq_of_perm h]
  · unfold cvmLogNormal; rw [sort_eq_of_perm h]
  · unfold quesenberryMillerLogNormal; rw [sort_eq_of_perm (h.map _)]
  · unfold klSupremum
    simp only
    rw [h.any_eq, hD, h.length_eq]
  · unfold klIntegral
    have : klIntegrand (klY xs) = klIntegrand (klY ys) := by
      funext r; unfold klIntegrand; rw [hD, klC_perm (klY_perm h)]
    rw [h.any_eq, this, h.length_eq]

example : klSupremum [1, 2, 3] = klSupremum [3, 1, 2] :=
  (C61_lognormal scipyNorm .skew .right (fun _ => 0) 1 1 (List.Perm.trans (.cons 1 (.swap 3 2 [])) (.swap 3 1 [2]))).2.2.2.2.1

end Pysatl.Props
