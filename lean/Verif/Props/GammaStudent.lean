import Mathlib.Algebra.Order.Chebyshev
import Verif.Lemmas.Correlation
import Verif.Props.ExponentRange
import Verif.Props.Mirror

/-! # C92, C93, C95, C80 for the gamma and Student families -/

namespace Pysatl.Props

open Pysatl.Decision Pysatl.Graph Pysatl.Edf Pysatl.Exponent Pysatl.Normal Pysatl.Uniform
open Pysatl.Student (StudentLib StudentStat histogramInf quantileEdges equalExpected)
open Pysatl.Gamma (GammaLib GammaStat)

/-! ### C92: units -/

/-- **C92 (partial)**: if the observations are measured in another unit and the location and scale of the
hypothesis are expressed in that unit, no Student statistic changes.  Missing: Lilliefors, for which it is false
(`C92_refuted_lilliefors`). -/
theorem C92_student_partial (lib : StudentLib) (df loc scale c : ℝ) {d : ℝ} (hd : 0 < d)
    (s : StudentStat) (hs : s ≠ .lilliefors) (xs : List ℝ) :
    s.value lib ⟨df, c + d * loc, d * scale⟩ (xs.map (fun x => c + d * x)) =
      s.value lib ⟨df, loc, scale⟩ xs := by
  have h1 : ∀ x : ℝ, (c + d * x - (c + d * loc)) / (d * scale) = (x - loc) / scale := by
    intro x
    rw [show c + d * x - (c + d * loc) = d * (x - loc) by ring, mul_div_mul_left _ _ hd.ne']
  have h2 : Student.standardized ⟨df, c + d * loc, d * scale⟩ (xs.map (fun x => c + d * x)) =
      Student.standardized ⟨df, loc, scale⟩ xs := by
    unfold Student.standardized
    have := sort_aff c hd xs
    unfold aff at this
    rw [this, List.map_map]
    exact List.map_congr_left fun x _ => h1 x
  have h3 : (xs.map (fun x => c + d * x)).map (fun x => (x - (c + d * loc)) / (d * scale)) =
      xs.map fun x => (x - loc) / scale := by
    rw [List.map_map]
    exact List.map_congr_left fun x _ => h1 x
  cases s with
  | lilliefors => exact absurd rfl hs
  | chi2 k => simp only [StudentStat.value, Student.chi2, h3, List.length_map]
  | _ => simp only [StudentStat.value, h2]

example (lib : StudentLib) :
    StudentStat.value lib ⟨4, 32 + 9 / 5 * 20, 9 / 5 * 2⟩ .zhangZa ([18, 21, 25].map fun x => 32 + 9 / 5 * x) =
      StudentStat.value lib ⟨4, 20, 2⟩ .zhangZa [18, 21, 25] :=
  C92_student_partial lib 4 20 2 32 (by norm_num) _ (by simp) _

/-- **C92 is false** of the Student Lilliefors statistic, which does not estimate the location: moving the single
observation of a sample away from the median changes it. -/
theorem C92_refuted_lilliefors {lib : StudentLib} {df c : ℝ} (h0 : lib.cdf df 0 = 1 / 2)
    (hc : lib.cdf df c ≠ 1 / 2) (p : Student.Params) (hp : p.df = df) :
    StudentStat.value lib p .lilliefors ([0].map (fun x => c + 1 * x)) ≠
      StudentStat.value lib p .lilliefors [0] := by
  have key : ∀ x, StudentStat.value lib p .lilliefors [x] =
      .ok (max (1 - lib.cdf df x) (lib.cdf df x)) := by
    intro x
    simp [StudentStat.value, hp, sort, ks, dPlus, dMinus, plusGaps, minusGaps, npMax, bind, Except.bind,
      pure, Except.pure]
    rw [max_def]
    split_ifs <;> linarith
  simp only [List.map_cons, List.map_nil, mul_zero, add_zero, key, h0, ne_eq, Except.ok.injEq]
  intro h
  rcases lt_or_gt_of_ne hc with h' | h'
  · have := le_max_left (1 - lib.cdf df c) (lib.cdf df c)
    rw [h] at this
    norm_num at this
    linarith
  · have := le_max_right (1 - lib.cdf df c) (lib.cdf df c)
    rw [h] at this
    norm_num at this
    linarith

example : toyStudent.cdf 3 0 = 1 / 2 ∧ toyStudent.cdf 3 1 ≠ 1 / 2 := by norm_num [toyStudent]

/-- What a scale family satisfies, for `scipy_stats.gamma`. -/
structure _root_.Pysatl.Gamma.GammaLib.ScaleFamily (lib : GammaLib) : Prop where
  cdf : ∀ a s x c, 0 < c → lib.cdf a (c * s) (c * x) = lib.cdf a s x
  logcdf : ∀ a s x c, 0 < c → lib.logcdf a (c * s) (c * x) = lib.logcdf a s x
  logsf : ∀ a s x c, 0 < c → lib.logsf a (c * s) (c * x) = lib.logsf a s x
  ppf : ∀ a s q c, 0 < c → lib.ppf a (c * s) q = c * lib.ppf a s q

theorem histogramInf_scale {c : ℝ} (hc : 0 < c) : ∀ es xs : List ℝ,
    histogramInf (es.map (c * ·)) (xs.map (c * ·)) = histogramInf es xs
  | [], xs => by simp [histogramInf]
  | e :: es, xs => by
    simp only [List.map_cons, histogramInf, List.countP_map, List.filter_map]
    rw [show ((fun x => decide (x < c * e)) ∘ fun x => c * x) = fun x => decide (x < e) by
        funext x; simp [hc], show ((fun x => decide (c * e ≤ x)) ∘ fun x => c * x) =
        fun x => decide (e ≤ x) by funext x; simp [hc], histogramInf_scale hc es]

/-- The quantiles the probability plot compares the sample with. -/
noncomputable def plotQuantiles (lib : GammaLib) (p : Gamma.Params) (n : ℕ) : List ℝ :=
  (List.range n).map fun i : ℕ => lib.ppf p.alpha (1 / p.beta) (((i : ℝ) + 1 - 3 / 8) / (n + 1 / 4))

@[simp] theorem length_plotQuantiles (lib : GammaLib) (p : Gamma.Params) (n : ℕ) :
    (plotQuantiles lib p n).length = n := by simp [plotQuantiles]

theorem ppcc_eq (lib : GammaLib) (p : Gamma.Params) (xs : List ℝ) :
    Gamma.ppcc lib p xs =
      if xs.length < 2 then .error .valueError
      else if √(devSq (sort xs) * devSq (plotQuantiles lib p xs.length)) = 0 then .error .valueError
      else .ok (1 - devSum (sort xs) (plotQuantiles lib p xs.length) /
        √(devSq (sort xs) * devSq (plotQuantiles lib p xs.length))) := by
  simp only [Gamma.ppcc, devSq, devSum, plotQuantiles, blom]
  rfl

theorem aff_zero (d : ℝ) : aff 0 d = (d * ·) := by funext x; simp [aff]

/-- The probability plot statistic when the sample and the quantiles are transformed. -/
theorem ppcc_transform {lib : GammaLib} {p q : Gamma.Params} {c d e : ℝ} (hd : 0 < d) (he : 0 < e)
    {xs : List ℝ} (hq : ∀ n, plotQuantiles lib q n = (plotQuantiles lib p n).map (e * ·)) :
    Gamma.ppcc lib q (xs.map (aff c d)) = Gamma.ppcc lib p xs := by
  rw [ppcc_eq, ppcc_eq, List.length_map]
  split_ifs with h1 h2 h3 h4
  · rfl
  · rfl
  all_goals
    have hx : sort xs ≠ [] := by
      intro h0
      have := congrArg List.length h0
      simp only [length_sort, List.length_nil] at this
      omega
    have hqn : plotQuantiles lib p xs.length ≠ [] := by
      intro h0
      have := congrArg List.length h0
      simp only [length_plotQuantiles, List.length_nil] at this
      omega
    have e1 : devSq (sort (xs.map (aff c d))) * devSq (plotQuantiles lib q xs.length) =
        (d * e) ^ 2 * (devSq (sort xs) * devSq (plotQuantiles lib p xs.length)) := by
      rw [sort_aff c hd, devSq_aff c d hx, hq, ← aff_zero, devSq_aff 0 e hqn]
      ring
    have e2 : devSum (sort (xs.map (aff c d))) (plotQuantiles lib q xs.length) =
        (d * e) * devSum (sort xs) (plotQuantiles lib p xs.length) := by
      rw [sort_aff c hd, devSum_aff c d hx, hq, ← aff_zero, devSum_comm, devSum_aff 0 e hqn, devSum_comm]
      ring
    have e3 : √(devSq (sort (xs.map (aff c d))) * devSq (plotQuantiles lib q xs.length)) =
        (d * e) * √(devSq (sort xs) * devSq (plotQuantiles lib p xs.length)) := by
      rw [e1, Real.sqrt_mul (by positivity), Real.sqrt_sq (by positivity)]
  · rw [e3] at h2
    exact absurd h2 (mul_ne_zero (by positivity) h3)
  · rw [e3, h4, mul_zero] at h2
    exact absurd rfl h2
  · rw [e2, e3, mul_div_mul_left _ _ (by positivity)]

/-- **C92** for the gamma family: measuring in another unit, with the rate expressed in that unit, changes no gamma
statistic. -/
theorem C92_gamma {lib : GammaLib} (hl : lib.ScaleFamily) (alpha beta : ℝ) {c : ℝ} (hc : 0 < c)
    (s : GammaStat) (xs : List ℝ) :
    s.value lib ⟨alpha, beta / c⟩ (xs.map (c * ·)) = s.value lib ⟨alpha, beta⟩ xs := by
  have hs : 1 / (beta / c) = c * (1 / beta) := by rw [one_div_div]; ring
  have hv : Gamma.vals lib ⟨alpha, beta / c⟩ (xs.map (c * ·)) = Gamma.vals lib ⟨alpha, beta⟩ xs := by
    unfold Gamma.vals
    simp only [sort_scale hc, hs, List.map_map]
    exact List.map_congr_left fun x _ => hl.cdf _ _ _ _ hc
  have hpp : ∀ q, lib.ppf alpha (c * (1 / beta)) q = c * lib.ppf alpha (1 / beta) q :=
    fun q => hl.ppf _ _ _ _ hc
  cases s with
  | andersonDarling =>
    simp only [GammaStat.value, adOf, sort_scale hc, hs, List.map_map]
    congr 2 <;> exact List.map_congr_left fun x _ => by first | exact hl.logcdf _ _ _ _ hc | exact hl.logsf _ _ _ _ hc
  | binned d k =>
    have he : quantileEdges (lib.ppf alpha (c * (1 / beta))) k =
        (quantileEdges (lib.ppf alpha (1 / beta)) k).map (c * ·) := by
      simp only [quantileEdges, List.map_map]
      exact List.map_congr_left fun i _ => hpp _
    simp only [GammaStat.value, Gamma.binned, List.length_map, hs, he, histogramInf_scale hc]
  | lilliefors =>
    have hcc : c ≠ 0 := hc.ne'
    simp only [GammaStat.value, Gamma.lilliefors, List.length_map, mean_scale, sort_scale hc]
    by_cases h0 : xs.length = 0
    · rw [if_pos h0, if_pos h0]
    have hne : xs ≠ [] := fun h => h0 (by simp [h])
    have hvar : var1 (xs.map (c * ·)) = c ^ 2 * var1 xs := by rw [← aff_zero, var1_aff 0 c hne]
    rw [hvar, if_neg h0, if_neg h0]
    have hiff : (c * mean xs ≤ 0 ∨ c ^ 2 * var1 xs ≤ 0) ↔ (mean xs ≤ 0 ∨ var1 xs ≤ 0) := by
      have h1 : c * mean xs ≤ 0 ↔ mean xs ≤ 0 := by
        constructor <;> intro h <;> nlinarith
      have h2 : c ^ 2 * var1 xs ≤ 0 ↔ var1 xs ≤ 0 := by
        have : 0 < c ^ 2 := by positivity
        constructor <;> intro h <;> nlinarith
      rw [h1, h2]
    simp only [hiff]
    split_ifs with h
    · rfl
    · have e1 : (c * mean xs) ^ 2 / (c ^ 2 * var1 xs) = mean xs ^ 2 / var1 xs := by
        rw [mul_pow, mul_div_mul_left _ _ (by positivity)]
      have e2 : c ^ 2 * var1 xs / (c * mean xs) = c * (var1 xs / mean xs) := by
        rw [sq, mul_assoc, mul_div_mul_left _ _ hcc, mul_div_assoc]
      rw [e1, e2, List.map_map]
      congr 1
      exact List.map_congr_left fun x _ => hl.cdf _ _ _ _ hc
  | ppcc =>
    simp only [GammaStat.value, ← aff_zero]
    refine ppcc_transform hc hc fun n => ?_
    simp only [plotQuantiles, hs, List.map_map]
    exact List.map_congr_left fun i _ => hpp _
  | _ => simp only [GammaStat.value, hv]

/-- The Lilliefors statistic of the gamma family needs no hypothesised rate: it is unchanged when only the
observations are measured in another unit. -/
theorem C92_gamma_lilliefors {lib : GammaLib} (hl : lib.ScaleFamily) (p q : Gamma.Params) {c : ℝ} (hc : 0 < c)
    (xs : List ℝ) :
    GammaStat.lilliefors.value lib q (xs.map (c * ·)) = GammaStat.lilliefors.value lib p xs :=
  C92_gamma hl p.alpha p.beta hc .lilliefors xs

/-- A library for which the scale law holds: the exponential distribution (`alpha` ignored). -/
noncomputable def toyGamma : GammaLib where
  cdf := fun _ s x => 1 - Real.exp (-(x / s))
  logcdf := fun _ s x => Real.log (1 - Real.exp (-(x / s)))
  logsf := fun _ s x => -(x / s)
  ppf := fun _ s q => -s * Real.log (1 - q)

theorem toyGamma_scale : toyGamma.ScaleFamily where
  cdf := fun a s x c hc => by simp only [toyGamma, mul_div_mul_left _ _ hc.ne']
  logcdf := fun a s x c hc => by simp only [toyGamma, mul_div_mul_left _ _ hc.ne']
  logsf := fun a s x c hc => by simp only [toyGamma, mul_div_mul_left _ _ hc.ne']
  ppf := fun a s q c hc => by simp only [toyGamma]; ring

example (s : GammaStat) : s.value toyGamma ⟨1, 2 / 60⟩ ([1, 3, 4].map (60 * ·)) =
    s.value toyGamma ⟨1, 2⟩ [1, 3, 4] := C92_gamma toyGamma_scale 1 2 (by norm_num) s _

/-! ### C95: the probability plot -/

/-- Chebyshev's inequality for ordered lists: their deviations are not negatively correlated. -/
theorem devSum_nonneg {a b : List ℝ} (hl : a.length = b.length) (ha : a.Pairwise (· ≤ ·))
    (hb : b.Pairwise (· ≤ ·)) : 0 ≤ devSum a b := by
  rcases Nat.eq_zero_or_pos a.length with h0 | h0
  · rw [List.length_eq_zero_iff] at h0
    subst h0
    simp [devSum]
  have hn : (0 : ℝ) < a.length := by exact_mod_cast h0
  let f : Fin a.length → ℝ := fun i => a[i]
  let g : Fin a.length → ℝ := fun i => b[i.cast hl]
  have hf : Monotone f := fun i j hij => by
    rcases eq_or_lt_of_le hij with rfl | h
    · exact le_rfl
    · exact List.pairwise_iff_getElem.1 ha i j i.2 j.2 h
  have hg : Monotone g := fun i j hij => by
    rcases eq_or_lt_of_le hij with rfl | h
    · exact le_rfl
    · exact List.pairwise_iff_getElem.1 hb i j (hl ▸ i.2) (hl ▸ j.2) h
  have hch := Monovary.sum_mul_sum_le_card_mul_sum (hf.monovary hg)
  have sa : a.sum = ∑ i, f i := sum_eq_fin a
  have sb : b.sum = ∑ i, g i := by
    rw [sum_eq_fin b]
    exact (Fintype.sum_equiv (finCongr hl) _ _ fun i => rfl).symm
  have sab : devSum a b = ∑ i, (f i - mean a) * (g i - mean b) := by
    unfold devSum
    generalize mean a = m
    generalize mean b = m'
    rw [sum_eq_fin]
    have hl' : a.length = (List.zipWith (fun x y => (x - m) * (y - m')) a b).length := by
      simp [hl]
    refine (Fintype.sum_equiv (finCongr hl') _ _ fun i => ?_).symm
    simp [f, g]
  have hma : mean a = (∑ i, f i) / a.length := by rw [mean, sa]
  have hmb : mean b = (∑ i, g i) / a.length := by rw [mean, sb, ← hl]
  have : devSum a b = ∑ i, f i * g i - (∑ i, f i) * (∑ i, g i) / a.length := by
    rw [sab, hma, hmb]
    generalize hF : ∑ i, f i = F
    generalize hG : ∑ i, g i = G
    have : ∀ i, (f i - F / a.length) * (g i - G / a.length) =
        f i * g i - f i * (G / a.length) - (F / a.length) * g i + F / a.length * (G / a.length) :=
      fun i => by ring
    simp only [this, Finset.sum_add_distrib, Finset.sum_sub_distrib, ← Finset.sum_mul, ← Finset.mul_sum, hF, hG,
      Finset.sum_const, Finset.card_univ, Fintype.card_fin, nsmul_eq_mul]
    field_simp
    ring
  rw [this, sub_nonneg, div_le_iff₀ hn, mul_comm _ (a.length : ℝ)]
  simpa using hch

theorem plotQuantiles_sorted {lib : GammaLib} {p : Gamma.Params}
    (hm : ∀ q r, 0 < q → q ≤ r → r < 1 → lib.ppf p.alpha (1 / p.beta) q ≤ lib.ppf p.alpha (1 / p.beta) r)
    (n : ℕ) : (plotQuantiles lib p n).Pairwise (· ≤ ·) := by
  rw [plotQuantiles, List.pairwise_map]
  refine (List.pairwise_lt_range (n := n)).imp_of_mem fun {i j} hi hj hij => ?_
  have hj' : (j : ℝ) + 1 ≤ n := by exact_mod_cast List.mem_range.1 hj
  have hij' : (i : ℝ) ≤ j := by exact_mod_cast hij.le
  have h0 : (0 : ℝ) ≤ i := by positivity
  have hn : (0 : ℝ) < n + 1 / 4 := by positivity
  refine hm _ _ (div_pos (by linarith) hn) ?_ ?_
  · gcongr
  · rw [div_lt_one hn]; linarith

/-- **C95** (range): the probability plot statistic lies in `[0, 1]`. -/
theorem C95_range {lib : GammaLib} {p : Gamma.Params}
    (hm : ∀ q r, 0 < q → q ≤ r → r < 1 → lib.ppf p.alpha (1 / p.beta) q ≤ lib.ppf p.alpha (1 / p.beta) r)
    {xs : List ℝ} {v : ℝ} (h : GammaStat.ppcc.value lib p xs = .ok v) : 0 ≤ v ∧ v ≤ 1 := by
  simp only [GammaStat.value, ppcc_eq] at h
  split_ifs at h with h1 h2
  cases h
  have hpos := lt_of_le_of_ne (Real.sqrt_nonneg _) (Ne.symm h2)
  have h3 := devSum_nonneg (a := sort xs) (by simp [length_sort]) (sort_pairwise xs)
    (plotQuantiles_sorted hm xs.length)
  have h4 := (le_abs_self _).trans (abs_devSum_le (sort xs) (plotQuantiles lib p xs.length))
  constructor
  · rw [sub_nonneg, div_le_one hpos]; exact h4
  · rw [sub_le_self_iff]; exact div_nonneg h3 hpos.le

/-- **C95** (zero): the statistic is `0` exactly when the ordered sample is an increasing affine function of the
quantiles it is plotted against. -/
theorem C95_zero {lib : GammaLib} {p : Gamma.Params} {xs : List ℝ} {v : ℝ}
    (h : GammaStat.ppcc.value lib p xs = .ok v) :
    v = 0 ↔ ∃ c d, 0 < d ∧ sort xs = (plotQuantiles lib p xs.length).map fun q => c + d * q := by
  simp only [GammaStat.value, ppcc_eq] at h
  split_ifs at h with h1 h2
  cases h
  have hpos := lt_of_le_of_ne (Real.sqrt_nonneg _) (Ne.symm h2)
  have hprod := Real.sqrt_pos.1 hpos
  have ha : 0 < devSq (sort xs) := by
    refine lt_of_le_of_ne (devSq_nonneg _) fun h0 => ?_
    rw [← h0, zero_mul] at hprod; exact lt_irrefl _ hprod
  have hb : 0 < devSq (plotQuantiles lib p xs.length) := by
    refine lt_of_le_of_ne (devSq_nonneg _) fun h0 => ?_
    rw [← h0, mul_zero] at hprod; exact lt_irrefl _ hprod
  rw [sub_eq_zero, eq_comm, div_eq_one_iff_eq hpos.ne']
  constructor
  · intro he
    exact exists_aff_of_devSum (by simp [length_sort]) hb ha he
  · rintro ⟨c, d, hd, he⟩
    have hne : plotQuantiles lib p xs.length ≠ [] := by
      intro h0
      rw [h0] at hb
      simp [devSq] at hb
    change sort xs = (plotQuantiles lib p xs.length).map (aff c d) at he
    rw [he, devSum_aff c d hne, devSq_aff c d hne, devSum_self]
    generalize devSq (plotQuantiles lib p xs.length) = D at hb ⊢
    rw [show d ^ 2 * D * D = (d * D) ^ 2 by ring, Real.sqrt_sq (by positivity)]

/-- **C95** (invariance). -/
theorem C95_affine (lib : GammaLib) (p : Gamma.Params) (c : ℝ) {d : ℝ} (hd : 0 < d) (xs : List ℝ) :
    GammaStat.ppcc.value lib p (xs.map fun x => c + d * x) = GammaStat.ppcc.value lib p xs :=
  ppcc_transform (p := p) (q := p) (c := c) hd one_pos fun n => by simp

/-- The statistic has a value whenever there are two different observations and two different quantiles. -/
theorem C95_value {lib : GammaLib} {p : Gamma.Params} {xs : List ℝ}
    (hx : ∃ x ∈ xs, ∃ y ∈ xs, x ≠ y)
    (hq : ∃ x ∈ plotQuantiles lib p xs.length, ∃ y ∈ plotQuantiles lib p xs.length, x ≠ y) :
    ∃ v, GammaStat.ppcc.value lib p xs = .ok v := by
  have key : ∀ {l : List ℝ}, (∃ x ∈ l, ∃ y ∈ l, x ≠ y) → 0 < devSq l := by
    rintro l ⟨x, hx, y, hy, hne⟩
    refine lt_of_le_of_ne (devSq_nonneg _) fun h0 => hne ?_
    have : ∀ z ∈ l, z = mean l := by
      intro z hz
      have h1 : (z - mean l) ^ 2 ≤ devSq l :=
        List.single_le_sum (by simp only [List.mem_map]; rintro _ ⟨w, _, rfl⟩; positivity) _
          (List.mem_map.2 ⟨z, hz, rfl⟩)
      have h2 : (z - mean l) ^ 2 = 0 := le_antisymm (h0 ▸ h1) (sq_nonneg _)
      have := pow_eq_zero_iff (two_ne_zero) |>.1 h2
      linarith
    rw [this x hx, this y hy]
  have h2 : ¬ xs.length < 2 := by
    obtain ⟨x, hx, y, hy, hne⟩ := hx
    intro h
    match xs, h with
    | [], _ => simp at hx
    | [z], _ => simp at hx hy; exact hne (hx.trans hy.symm)
  have hs : ∃ x ∈ sort xs, ∃ y ∈ sort xs, x ≠ y := by
    obtain ⟨x, hx, y, hy, hne⟩ := hx
    exact ⟨x, (sort_perm xs).mem_iff.2 hx, y, (sort_perm xs).mem_iff.2 hy, hne⟩
  simp only [GammaStat.value, ppcc_eq, if_neg h2]
  rw [if_neg (Real.sqrt_pos.2 (mul_pos (key hs) (key hq))).ne']
  exact ⟨_, rfl⟩

theorem toyGamma_mono (p : Gamma.Params) (hp : 0 < p.beta) (q r : ℝ) (_ : 0 < q) (h : q ≤ r) (hr : r < 1) :
    toyGamma.ppf p.alpha (1 / p.beta) q ≤ toyGamma.ppf p.alpha (1 / p.beta) r := by
  simp only [toyGamma]
  have : Real.log (1 - r) ≤ Real.log (1 - q) := Real.log_le_log (by linarith) (by linarith)
  have hb : 0 < 1 / p.beta := by positivity
  nlinarith

theorem toyGamma_quantiles : ∃ x ∈ plotQuantiles toyGamma ⟨1, 1⟩ 2,
    ∃ y ∈ plotQuantiles toyGamma ⟨1, 1⟩ 2, x ≠ y := by
  refine ⟨_, List.mem_map.2 ⟨0, by simp, rfl⟩, _, List.mem_map.2 ⟨1, by simp, rfl⟩, ?_⟩
  simp only [toyGamma]
  norm_num
  intro h
  have : Real.log (13 / 18) = Real.log (5 / 18) := by linarith
  have := Real.log_injOn_pos (by norm_num : (0 : ℝ) < 13 / 18) (by norm_num : (0 : ℝ) < 5 / 18) this
  norm_num at this

example : ∃ v, GammaStat.ppcc.value toyGamma ⟨1, 1⟩ [3, 5] = .ok v ∧ 0 ≤ v ∧ v ≤ 1 := by
  obtain ⟨v, hv⟩ := C95_value (xs := [3, 5]) ⟨3, by simp, 5, by simp, by norm_num⟩ toyGamma_quantiles
  exact ⟨v, hv, C95_range (toyGamma_mono ⟨1, 1⟩ one_pos) hv⟩

/-- **C80 is false for the gamma probability plot.**  The statistic measures how far the plot is from a straight line, but the
criterion is left-tailed: whenever any sample of size `n` is rejected (by p-value or by critical value, whatever the level
and the limit distribution), the sample that sits exactly on the quantiles is rejected too. -/
theorem C80_refuted_ppcc {σ : Type} (lib : GammaLib) (p : Gamma.Params)
    (hm : ∀ q r, 0 < q → q ≤ r → r < 1 → lib.ppf p.alpha (1 / p.beta) q ≤ lib.ppf p.alpha (1 / p.beta) r)
    (xs : List ℝ) (α : ℝ) (m : DecisionMethod σ ℝ) (w w₁ w₂ : σ) (res res' : TestResult ℝ)
    (hne : ∀ r L w', (m = .pValue r ∨ m = .criticalValue r) →
      (r (GammaStat.ppcc.statistic lib p) xs.length).exec w = (.ok (some L), w') → L ≠ [])
    (h : (gofTest (GammaStat.ppcc.statistic lib p) (plotQuantiles lib p xs.length) α m).exec w = (.ok res, w₁))
    (h' : (gofTest (GammaStat.ppcc.statistic lib p) xs α m).exec w = (.ok res', w₂))
    (hrej : res'.rejected = true) : res.rejected = true := by
  obtain ⟨v, hv, h⟩ := gofTest_ok h
  obtain ⟨v', hv', h'⟩ := gofTest_ok h'
  rw [length_plotQuantiles] at h
  have hle : v ≤ v' := by
    have h0 : v = 0 := by
      refine (C95_zero hv).2 ⟨0, 1, one_pos, ?_⟩
      rw [length_plotQuantiles]
      simp only [one_mul, zero_add, List.map_id']
      exact List.Perm.eq_of_pairwise (le := (· ≤ ·)) (fun a b _ _ h1 h2 => le_antisymm h1 h2)
        (sort_pairwise _) (plotQuantiles_sorted hm _) (sort_perm _)
    rw [h0]
    exact (C95_range hm hv').1
  exact (decide_monotone hne h h' hle).2 rfl hrej

/-! ### C93: calibration keys -/

/-- The options of a gamma criterion have the values the constructors give them. -/
def _root_.Pysatl.Gamma.GammaStat.DefaultOptions : GammaStat → Prop
  | .ks t => t = .twoTailed
  | .binned (.cressieRead power) bins => power = 2 / 3 ∧ bins = 8
  | .binned _ bins => bins = 8
  | _ => True

/-- The options of a Student criterion have the values the constructors give them. -/
def _root_.Pysatl.Student.StudentStat.DefaultOptions : StudentStat → Prop
  | .ks t => t = .twoTailed
  | .chi2 bins => bins = 10
  | _ => True

theorem append_right_inj' {a b c : String} (h : a ++ c = b ++ c) : a = b := by
  have := congrArg String.toList h
  simp only [String.toList_append, List.append_cancel_right_eq] at this
  exact String.ext this

/-- **C93 (partial)** for the gamma family: criteria with default options and the same code and parameters compute the same
statistic.  Missing: criteria with other options, for which the claim is false (`C93_refuted_ks`,
`C93_refuted_cressieRead`). -/
theorem C93_gamma_partial (lib : GammaLib) (p q : Gamma.Params) (s t : GammaStat)
    (hs : s.DefaultOptions) (ht : t.DefaultOptions)
    (hc : (s.statistic lib p).code = (t.statistic lib q).code)
    (hp : (s.statistic lib p).params = (t.statistic lib q).params) (xs : List ℝ) :
    (s.statistic lib p).execute xs = (t.statistic lib q).execute xs := by
  have hpq : p = q := by
    obtain ⟨a, b⟩ := p
    obtain ⟨a', b'⟩ := q
    simp only [GammaStat.statistic, Gamma.hypothesis, Option.some.injEq, List.cons.injEq, Prod.mk.injEq,
      true_and, and_true] at hp
    rw [hp.1, hp.2]
  subst hpq
  have hc : s.short = t.short := append_right_inj' (append_right_inj' hc)
  have : s = t := by
    rcases s with _ | _ | _ | _ | _ | _ | _ | _ | _ | ⟨d, k⟩ | _ <;>
      rcases t with _ | _ | _ | _ | _ | _ | _ | _ | _ | ⟨d', k'⟩ | _ <;>
      (try rcases d) <;> (try rcases d') <;>
      simp_all [GammaStat.short, GammaStat.DefaultOptions]
  rw [this]

/-- **C93 (partial)** for the Student family, where also location and scale must have their default values, because the
parameters do not contain them (`C93_refuted_student`). -/
theorem C93_student_partial (lib : StudentLib) (p q : Student.Params) (s t : StudentStat)
    (hs : s.DefaultOptions) (ht : t.DefaultOptions) (hp0 : p.loc = 0 ∧ p.scale = 1) (hq0 : q.loc = 0 ∧ q.scale = 1)
    (hc : (s.statistic lib p).code = (t.statistic lib q).code)
    (hp : (s.statistic lib p).params = (t.statistic lib q).params) (xs : List ℝ) :
    (s.statistic lib p).execute xs = (t.statistic lib q).execute xs := by
  have hpq : p = q := by
    obtain ⟨a, b, c⟩ := p
    obtain ⟨a', b', c'⟩ := q
    simp only [StudentStat.statistic, Student.hypothesis, Option.some.injEq, List.cons.injEq, Prod.mk.injEq,
      true_and, and_true] at hp hp0 hq0
    rw [hp, hp0.1, hp0.2, hq0.1, hq0.2]
  subst hpq
  have hc : s.short = t.short := append_right_inj' (append_right_inj' hc)
  have : s = t := by
    cases s <;> cases t <;> simp_all [StudentStat.short, StudentStat.DefaultOptions]
  rw [this]

/-- **C93 is false** of Kolmogorov-Smirnov criteria that differ in their alternative: they share code and parameters, but for a
single observation that is not the median the one-sided statistics differ. -/
theorem C93_refuted_ks (lib : GammaLib) (p : Gamma.Params) (x : ℝ)
    (hx : lib.cdf p.alpha (1 / p.beta) x ≠ 1 / 2) :
    ((GammaStat.ks .left).statistic lib p).code = ((GammaStat.ks .right).statistic lib p).code ∧
    ((GammaStat.ks .left).statistic lib p).params = ((GammaStat.ks .right).statistic lib p).params ∧
    ((GammaStat.ks .left).statistic lib p).execute [x] ≠ ((GammaStat.ks .right).statistic lib p).execute [x] := by
  refine ⟨rfl, rfl, ?_⟩
  simp only [GammaStat.statistic, GammaStat.value, Gamma.vals]
  generalize hv : lib.cdf p.alpha (1 / p.beta) x = v at hx
  simp only [sort, List.insertionSort_cons, List.insertionSort_nil, List.orderedInsert_nil, List.map_cons,
    List.map_nil, hv]
  simp [ks, dPlus, dMinus, plusGaps, minusGaps, npMax, bind, Except.bind]
  intro h
  apply hx
  linarith

example : toyGamma.cdf 1 (1 / 1) 0 ≠ 1 / 2 := by norm_num [toyGamma]

/-- **C93 is false** of Cressie-Read criteria with different powers. -/
theorem C93_refuted_cressieRead (lib : GammaLib) (p : Gamma.Params) :
    ((GammaStat.binned (.cressieRead 1) 2).statistic lib p).code =
      ((GammaStat.binned (.cressieRead 0) 2).statistic lib p).code ∧
    ((GammaStat.binned (.cressieRead 1) 2).statistic lib p).params =
      ((GammaStat.binned (.cressieRead 0) 2).statistic lib p).params ∧
    ∃ x, ((GammaStat.binned (.cressieRead 1) 2).statistic lib p).execute [x] ≠
      ((GammaStat.binned (.cressieRead 0) 2).statistic lib p).execute [x] := by
  refine ⟨rfl, rfl, lib.ppf p.alpha (1 / p.beta) (1 / 2) - 1, ?_⟩
  simp only [GammaStat.statistic, GammaStat.value, Gamma.binned, Gamma.Divergence.lam]
  have hq : quantileEdges (lib.ppf p.alpha (1 / p.beta)) 2 = [lib.ppf p.alpha (1 / p.beta) (1 / 2)] := by
    simp [quantileEdges, List.range_succ]
  rw [hq]
  generalize lib.ppf p.alpha (1 / p.beta) (1 / 2) = e
  have hh : histogramInf [e] [e - 1] = [1, 0] := by
    simp [histogramInf]
  have he : equalExpected 1 2 = [1 / 2, 1 / 2] := by simp [equalExpected, List.replicate]
  simp only [List.length_cons, List.length_nil, zero_add, hh, he]
  norm_num [powerDivergence, pearson, xlogy]
  intro h
  have h2 := Real.log_two_gt_d9
  linarith

/-- **C93 is false** of Student criteria with different locations. -/
theorem C93_refuted_student (lib : StudentLib) (df loc : ℝ) (h0 : lib.cdf df 0 = 1 / 2)
    (h1 : lib.cdf df (0 - loc) ≠ 1 / 2) :
    (StudentStat.cvm.statistic lib ⟨df, 0, 1⟩).code = (StudentStat.cvm.statistic lib ⟨df, loc, 1⟩).code ∧
    (StudentStat.cvm.statistic lib ⟨df, 0, 1⟩).params = (StudentStat.cvm.statistic lib ⟨df, loc, 1⟩).params ∧
    (StudentStat.cvm.statistic lib ⟨df, 0, 1⟩).execute [0] ≠
      (StudentStat.cvm.statistic lib ⟨df, loc, 1⟩).execute [0] := by
  refine ⟨rfl, rfl, ?_⟩
  simp only [StudentStat.statistic, StudentStat.value, Student.standardized]
  simp only [zero_sub] at h1
  simp [sort, cvm, h0]
  norm_num
  intro h
  apply h1
  have := pow_eq_zero_iff two_ne_zero |>.1 h.symm
  linarith

example : toyStudent.cdf 3 0 = 1 / 2 ∧ toyStudent.cdf 3 (0 - 1) ≠ 1 / 2 := by norm_num [toyStudent]

end Pysatl.Props
