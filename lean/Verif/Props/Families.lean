import Verif.Model.LogNormal
import Verif.Model.Gamma
import Verif.Model.Beta
import Verif.Props.Uniform

/-! # C61, C64 for the beta, gamma and Student families -/

namespace Pysatl.Props

open Pysatl.Decision Pysatl.Graph Pysatl.Edf Pysatl.Exponent Pysatl.Normal Pysatl.Uniform
open Pysatl.Student (StudentLib StudentStat histogramInf quantileEdges equalExpected)
open Pysatl.Gamma (GammaLib GammaStat)
open Pysatl.Beta (BetaLib BetaStat)

/-! ### C61 -/

theorem histogramInf_perm : ∀ (e : List ℝ) {xs ys : List ℝ}, xs.Perm ys →
    histogramInf e xs = histogramInf e ys
  | [], _, _, h => by simp [histogramInf, h.length_eq]
  | e :: es, _, _, h => by
    rw [histogramInf, histogramInf, h.countP_eq, histogramInf_perm es (h.filter _)]

theorem skew_perm {xs ys : List ℝ} (h : xs.Perm ys) : skew xs = skew ys := by
  simp only [skew, moment_perm h]

theorem kurt_perm {xs ys : List ℝ} (h : xs.Perm ys) : kurt xs = kurt ys := by
  simp only [kurt, moment_perm h]

/-- **C61** for Student's distribution: no statistic depends on the order of the sample. -/
theorem C61_student (lib : StudentLib) (p : Student.Params) (s : StudentStat) {xs ys : List ℝ}
    (h : xs.Perm ys) : s.value lib p xs = s.value lib p ys := by
  have hsort := sort_eq_of_perm h
  cases s with
  | chi2 k =>
    simp only [StudentStat.value, Student.chi2, h.length_eq, histogramInf_perm _ (h.map _)]
  | _ => simp only [StudentStat.value, Student.standardized, hsort]

/-- **C61** for the gamma distribution. -/
theorem C61_gamma (lib : GammaLib) (p : Gamma.Params) (s : GammaStat) {xs ys : List ℝ}
    (h : xs.Perm ys) : s.value lib p xs = s.value lib p ys := by
  have hsort := sort_eq_of_perm h
  cases s with
  | binned d k =>
    simp only [GammaStat.value, Gamma.binned, h.length_eq, histogramInf_perm _ h]
  | lilliefors =>
    simp only [GammaStat.value, Gamma.lilliefors, h.length_eq, mean_perm h, var1_perm h, hsort]
  | ppcc => simp only [GammaStat.value, Gamma.ppcc, h.length_eq, hsort]
  | _ => simp only [GammaStat.value, Gamma.vals, adOf, hsort]

theorem beta_validate_ok {xs : List ℝ} (h : ∀ x ∈ xs, 0 ≤ x ∧ x ≤ 1) :
    Beta.validate xs = .ok xs := by
  unfold Beta.validate
  rw [if_neg]
  simpa using h

theorem beta_validate_error {xs : List ℝ} (h : ∃ x ∈ xs, x < 0 ∨ 1 < x) :
    Beta.validate xs = .error .valueError := by
  unfold Beta.validate
  rw [if_pos]
  simpa using h

/-- **C61** for the beta distribution. -/
theorem C61_beta (lib : BetaLib) (p : Beta.Params) (s : BetaStat) {xs ys : List ℝ}
    (h : xs.Perm ys) : s.value lib p xs = s.value lib p ys := by
  have hsort := sort_eq_of_perm h
  by_cases hx : ∃ x ∈ xs, x < 0 ∨ 1 < x
  · have hy : ∃ x ∈ ys, x < 0 ∨ 1 < x := by
      obtain ⟨x, h1, h2⟩ := hx
      exact ⟨x, h.mem_iff.1 h1, h2⟩
    simp [BetaStat.value, beta_validate_error hx, beta_validate_error hy, bind, Except.bind]
  · push Not at hx
    have hy : ∀ x ∈ ys, 0 ≤ x ∧ x ≤ 1 := fun x m => hx x (h.mem_iff.2 m)
    simp only [BetaStat.value, beta_validate_ok hx, beta_validate_ok hy, bind, Except.bind]
    cases s with
    | chi2 lam => simp only [Beta.chi2, h.length_eq, histogram_perm h]
    | momentBased => simp only [Beta.momentBased, h.length_eq, mean_perm h, var1_perm h]
    | skewnessKurtosis =>
      simp only [Beta.skewnessKurtosis, Beta.skewUnbiased, Beta.kurtUnbiased, h.length_eq,
        skew_perm h, kurt_perm h]
    | ratio =>
      have ha : xs.any (fun x => decide (x = 0)) = ys.any (fun x => decide (x = 0)) := h.any_eq
      simp only [Beta.ratio, Beta.geometricMean, h.length_eq, mean_perm h, mean_perm (h.map Real.log), ha]
    | entropy m => simp only [Beta.entropy, Beta.vasicek, h.length_eq, hsort]
    | mode =>
      have hk : Beta.kde xs = Beta.kde ys := by
        funext x
        simp only [Beta.kde, var1_perm h, h.length_eq, (h.map _).sum_eq]
      simp only [Beta.mode, h.length_eq, var1_perm h, hk]
    | _ => simp only [Beta.vals, adOf, hsort]

example (lib : BetaLib) : BetaStat.value lib ⟨2, 3⟩ .ratio [1 / 2, 1 / 3, 1] =
    BetaStat.value lib ⟨2, 3⟩ .ratio [1, 1 / 2, 1 / 3] :=
  C61_beta lib _ _ (by
    have : ([1 / 2, 1 / 3, 1] : List ℝ) = [1 / 2, 1 / 3] ++ [1] := rfl
    rw [this]; exact List.perm_append_singleton _ _)

/-! ### C64 -/

/-- **C64** for the beta family: an observation outside `[0,1]` makes every statistic raise
`ValueError`. -/
theorem C64_beta_outside (lib : BetaLib) (p : Beta.Params) (s : BetaStat) {xs : List ℝ}
    (h : ∃ x ∈ xs, x < 0 ∨ 1 < x) : s.value lib p xs = .error .valueError := by
  simp [BetaStat.value, beta_validate_error h, bind, Except.bind]

/-- **C64 (partial)** for the beta family: a non-empty sample of `[0,1]` has a value, except for
the ratio statistic of a sample of zeros and the mode statistic of a sample without spread.
Missing: these two exceptions, for which `C64_refuted_beta` shows that the claim is false. -/
theorem C64_beta_inside_partial (lib : BetaLib) (p : Beta.Params) (s : BetaStat) {xs : List ℝ}
    (hne : xs ≠ []) (h : ∀ x ∈ xs, 0 ≤ x ∧ x ≤ 1)
    (hr : s = .ratio → ∃ x ∈ xs, x ≠ 0) (hm : s = .mode → ∃ x ∈ xs, ∃ y ∈ xs, x ≠ y) :
    ∃ v, s.value lib p xs = .ok v := by
  have hl : xs.length ≠ 0 := by simpa using hne
  have hv : Beta.vals lib p xs ≠ [] := by
    simpa [Beta.vals] using sort_ne_nil hne
  simp only [BetaStat.value, beta_validate_ok h, bind, Except.bind]
  cases s with
  | ks t =>
    obtain ⟨a, ha⟩ := dPlus_exists hv
    obtain ⟨b, hb⟩ := dMinus_exists hv
    cases t <;> simp [Edf.ks, ha, hb, bind, Except.bind, pure, Except.pure]
  | lilliefors =>
    obtain ⟨a, ha⟩ := dPlus_exists hv
    obtain ⟨b, hb⟩ := dMinus_exists hv
    simp [Edf.ks, ha, hb, bind, Except.bind, pure, Except.pure]
  | kuiper =>
    obtain ⟨a, ha⟩ := dPlus_exists hv
    obtain ⟨b, hb⟩ := dMinus_exists hv
    exact ⟨_, kuiper_eq ha hb⟩
  | chi2 lam => exact ⟨_, by simp [Beta.chi2, hne]; rfl⟩
  | ratio =>
    obtain ⟨x, hx, h0⟩ := hr rfl
    have hsum : 0 < xs.sum := by
      refine lt_of_lt_of_le (lt_of_le_of_ne (h x hx).1 (Ne.symm h0))
        (List.single_le_sum (fun y hy => (h y hy).1) x hx)
    have : mean xs ≠ 0 := by
      unfold mean
      have : (0 : ℝ) < xs.length := by positivity
      positivity
    exact ⟨_, by rw [Beta.ratio, if_neg this]⟩
  | entropy m => exact ⟨_, by simp [Beta.entropy, hne]; rfl⟩
  | mode =>
    obtain ⟨x, hx, y, hy, hxy⟩ := hm rfl
    have h2 : 2 ≤ xs.length := by
      rcases xs with _ | ⟨a, _ | ⟨b, l⟩⟩
      · simp at hx
      · simp only [List.mem_singleton] at hx hy
        exact absurd (hx.trans hy.symm) hxy
      · simp
    have hv : var1 xs ≠ 0 := by
      intro h0
      have h1 : ((xs.map fun x => (x - mean xs) ^ 2)).sum = 0 := by
        have h3 : ((xs.length : ℝ) - 1) ≠ 0 := by
          have : (2 : ℝ) ≤ xs.length := by exact_mod_cast h2
          linarith
        exact (div_eq_zero_iff.1 h0).resolve_right h3
      have h4 : ∀ z ∈ xs, z = mean xs := by
        intro z hz
        have h5 := List.single_le_sum (l := xs.map fun x => (x - mean xs) ^ 2)
          (by simp only [List.mem_map]; rintro _ ⟨w, _, rfl⟩; positivity) _
          (List.mem_map_of_mem (f := fun x => (x - mean xs) ^ 2) hz)
        rw [h1] at h5
        have h6 : (z - mean xs) ^ 2 = 0 := le_antisymm h5 (sq_nonneg _)
        exact sub_eq_zero.1 (pow_eq_zero_iff (two_ne_zero) |>.1 h6)
      exact hxy ((h4 x hx).trans (h4 y hy).symm)
    exact ⟨_, by rw [Beta.mode, if_neg]; push Not; exact ⟨h2, hv⟩⟩
  | _ => exact ⟨_, rfl⟩

example (lib : BetaLib) (s : BetaStat) : ∃ v, s.value lib ⟨2, 3⟩ [1 / 2, 1 / 3, 1] = .ok v :=
  C64_beta_inside_partial lib _ s (by simp) (by norm_num)
    (fun _ => ⟨1, by simp, by norm_num⟩) fun _ => ⟨1, by simp, 1 / 2, by simp, by norm_num⟩

/-- **C64 is false** of the beta family: samples inside the support raise `ValueError` too, one
observation at `0` for the ratio statistic and any repeated observation for the mode statistic. -/
theorem C64_refuted_beta (lib : BetaLib) (p : Beta.Params) (n : ℕ) {x : ℝ} (hx : 0 ≤ x ∧ x ≤ 1) :
    BetaStat.value lib p .ratio (List.replicate n 0) = .error .valueError ∧
    BetaStat.value lib p .mode (List.replicate n x) = .error .valueError := by
  have hmean : ∀ c : ℝ, n ≠ 0 → mean (List.replicate n c) = c := by
    intro c hn
    have : (n : ℝ) ≠ 0 := by exact_mod_cast hn
    unfold mean
    simp only [List.sum_replicate, List.length_replicate, nsmul_eq_mul]
    field_simp
  constructor
  · rw [BetaStat.value, beta_validate_ok (by intro y hy; rw [List.eq_of_mem_replicate hy]; norm_num)]
    simp only [bind, Except.bind, Beta.ratio]
    rw [if_pos]
    simp [mean]
  · rw [BetaStat.value, beta_validate_ok (by intro y hy; rw [List.eq_of_mem_replicate hy]; exact hx)]
    simp only [bind, Except.bind, Beta.mode]
    rw [if_pos]
    rcases Nat.eq_zero_or_pos n with h0 | h0
    · left; simp [h0]
    · right
      unfold var1
      rw [hmean x h0.ne']
      simp

/-- **C64**: the constructor of the log-normal statistics raises `ValueError` exactly when the shape or
the scale is not positive, and keeps them otherwise. -/
theorem C64_lognormal_init (s scale : ℝ) :
    (LogNormal.init s scale = .error .valueError ↔ ¬ (0 < s ∧ 0 < scale)) ∧
    (0 < s → 0 < scale → LogNormal.init s scale = .ok (s, scale)) := by
  refine ⟨?_, fun h1 h2 => by simp [LogNormal.init, not_le.2 h1, not_le.2 h2]⟩
  unfold LogNormal.init
  split
  · simp; intro h; linarith
  · split
    · simp; intro; assumption
    · simp; constructor <;> linarith

/-- **C64**: the constructor of the beta statistics raises `ValueError` exactly for parameters that
are not positive (the mode statistic: not above `1`, where the mode is not defined), and keeps the
parameters otherwise. -/
theorem C64_beta_init (a b : ℝ) :
    (Beta.init a b = .error .valueError ↔ ¬ (0 < a ∧ 0 < b)) ∧
    (0 < a → 0 < b → Beta.init a b = .ok ⟨a, b⟩) ∧
    (Beta.initMode a b = .error .valueError ↔ ¬ (1 < a ∧ 1 < b)) ∧
    (1 < a → 1 < b → Beta.initMode a b = .ok ⟨a, b⟩) := by
  refine ⟨?_, ?_, ?_, ?_⟩
  · unfold Beta.init
    split
    · simp; intro h; linarith
    · split
      · simp; intro; assumption
      · simp; constructor <;> linarith
  · intro h1 h2
    simp [Beta.init, not_le.2 h1, not_le.2 h2]
  · unfold Beta.initMode Beta.init
    split
    · simp; intro h; linarith
    · split
      · simp; intro; assumption
      · rename_i h1 h2
        rw [not_le] at h1 h2
        rw [if_neg (by linarith), if_neg (by linarith)]
        simp [h1, h2]
  · intro h1 h2
    simp [Beta.initMode, Beta.init, not_le.2 h1, not_le.2 h2, not_le.2 (zero_lt_one.trans h1),
      not_le.2 (zero_lt_one.trans h2)]

/-- **C64**: the constructors of the gamma statistics raise `ValueError` exactly for parameters that
are not positive and, for the binned statistics, fewer than two bins. -/
theorem C64_gamma_init (a b : ℝ) (k : ℤ) :
    (Gamma.init a b = .error .valueError ↔ ¬ (0 < a ∧ 0 < b)) ∧
    (0 < a → 0 < b → Gamma.init a b = .ok ⟨a, b⟩) ∧
    (Gamma.initBinned k a b = .error .valueError ↔ ¬ (2 ≤ k ∧ 0 < a ∧ 0 < b)) ∧
    (2 ≤ k → 0 < a → 0 < b → Gamma.initBinned k a b = .ok (k, ⟨a, b⟩)) := by
  have h1 : Gamma.init a b = .error .valueError ↔ ¬ (0 < a ∧ 0 < b) := by
    unfold Gamma.init
    split
    · simp; intro h; linarith
    · split
      · simp; intro; assumption
      · simp; constructor <;> linarith
  have h2 : 0 < a → 0 < b → Gamma.init a b = .ok ⟨a, b⟩ := by
    intro h1 h2
    simp [Gamma.init, not_le.2 h1, not_le.2 h2]
  refine ⟨h1, h2, ?_, ?_⟩
  · unfold Gamma.initBinned
    split
    · simp; intro h; omega
    · rename_i hk
      have hk : 2 ≤ k := by omega
      by_cases hab : 0 < a ∧ 0 < b
      · simp [h2 hab.1 hab.2, Except.map, hk, hab]
      · simp [h1.2 hab, Except.map, hk]
        push Not at hab
        exact hab
  · intro hk ha hb
    rw [Gamma.initBinned, if_neg (by omega), h2 ha hb]
    rfl

/-- **C64**: the constructor of the Student statistics raises `ValueError` exactly for degrees of
freedom or a scale that are not positive. -/
theorem C64_student_init (df loc scale : ℝ) :
    (Student.init df loc scale = .error .valueError ↔ ¬ (0 < df ∧ 0 < scale)) ∧
    (0 < df → 0 < scale → Student.init df loc scale = .ok ⟨df, loc, scale⟩) := by
  constructor
  · unfold Student.init
    split
    · simp; intro h; linarith
    · split
      · simp; intro; assumption
      · simp; constructor <;> linarith
  · intro h1 h2
    simp [Student.init, not_le.2 h1, not_le.2 h2]

example : Student.init 3 1 (-2) = .error .valueError := (C64_student_init 3 1 (-2)).1.2 (by norm_num)

/-! ### The entropy statistic of small samples -/

/-- **C96 is false** of the beta entropy statistic.  With fewer than four observations the default window of the beta entropy statistic is `0`: every
window is a point, the estimated entropy is `0`, and the statistic does not depend on the sample. -/
theorem C96_refuted_betaEntropy (lib : BetaLib) (p : Beta.Params) {xs : List ℝ}
    (hne : xs ≠ []) (h4 : xs.length < 4) (h : ∀ x ∈ xs, 0 ≤ x ∧ x ≤ 1) :
    BetaStat.value lib p (.entropy none) xs =
      .ok (√(xs.length : ℝ) * |Beta.theoreticalEntropy lib p|) := by
  have hl : xs.length ≠ 0 := by simpa using hne
  have hw : xs.length / 4 = 0 := by omega
  have hv : Beta.vasicek 0 xs = 0 := by
    simp only [Beta.vasicek]
    rw [List.map_congr_left (g := fun _ => (0 : ℝ))]
    · simp
    · intro i hi
      have hi : i < xs.length := List.mem_range.1 hi
      have : min (xs.length - 1) (i + 0) = i - 0 := by omega
      simp only [this, sub_self, lt_irrefl, if_false]
  simp only [BetaStat.value, beta_validate_ok h, bind, Except.bind, Beta.entropy, if_neg hl,
    Option.getD_none, hw, hv, zero_sub, abs_neg]

end Pysatl.Props
