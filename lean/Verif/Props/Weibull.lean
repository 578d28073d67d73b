import Verif.Model.Weibull
import Verif.Spec.Weibull
import Verif.Lemmas.Correlation
import Verif.Props.Families
import Verif.Props.GammaStudent
import Verif.Props.NullLaw

/-! # C61, C64, C66, C92, C97, C98, C99 for the Weibull family -/

namespace Pysatl.Props

open Pysatl.Decision Pysatl.Graph Pysatl.Edf Pysatl.Exponent Pysatl.Normal Pysatl.Uniform
open Pysatl.Weibull (WeibullStat Minimizer)

theorem headD_pos {xs : List ℝ} (hne : xs ≠ []) (h : ∀ x ∈ xs, 0 < x) : 0 < (sort xs).headD 0 := by
  have hs := sort_ne_nil hne
  obtain ⟨a, l, hal⟩ := List.exists_cons_of_ne_nil hs
  rw [hal, List.headD_cons]
  exact h a ((sort_perm xs).mem_iff.1 (by rw [hal]; simp))

theorem sort_of_sorted {l : List ℝ} (h : l.Pairwise (· ≤ ·)) : sort l = l :=
  List.Perm.eq_of_pairwise (le := (· ≤ ·)) (fun a b _ _ h1 h2 => le_antisymm h1 h2) (sort_pairwise l) h (sort_perm l)

/-! ### What each class computes -/

theorem weibull_ts (min : Minimizer) (p : Weibull.Params) (x : Sample ℝ) :
    WeibullStat.tikuSingh.value min p x = .ok (2 * (((Weibull.spacingsG x.values).take (x.values.length - 2)).mapIdx
      fun i g => ((x.values.length : ℝ) - 1 - ((i : ℝ) + 1)) * g).sum /
        (((x.values.length : ℝ) - 2) * (Weibull.spacingsG x.values).sum)) := rfl

theorem weibull_los (min : Minimizer) (p : Weibull.Params) (x : Sample ℝ) :
    WeibullStat.los.value min p x =
    if x.values.length = 2 then .error .zeroDivisionError
    else .ok (-((x.values.length : ℝ) - 2) - 1 / ((x.values.length : ℝ) - 2) *
        (((sort ((List.range (x.values.length - 2)).map fun i =>
          ((Weibull.spacingsG x.values).take (i + 1)).sum / (Weibull.spacingsG x.values).sum)).zip
          (sort ((List.range (x.values.length - 2)).map fun i =>
          ((Weibull.spacingsG x.values).take (i + 1)).sum / (Weibull.spacingsG x.values).sum)).reverse).mapIdx fun i p =>
          (2 * ((i : ℝ) + 1) - 1) * (Real.log p.1 + Real.log (1 - p.2))).sum) := by
  simp only [WeibullStat.value, Weibull.normalizeSpace]
  rw [if_neg (by decide : Weibull.code "LOS" ≠ Weibull.code "TS")]
  simp

theorem weibull_msf (min : Minimizer) (p : Weibull.Params) (x : Sample ℝ) :
    WeibullStat.msf.value min p x = .ok (((Weibull.spacingsG x.values).drop (x.values.length / 2)).sum /
      (Weibull.spacingsG x.values).sum) := by
  simp only [WeibullStat.value, Weibull.normalizeSpace]
  rw [if_neg (by decide : Weibull.code "MSF" ≠ Weibull.code "TS"),
    if_neg (by decide : Weibull.code "MSF" ≠ Weibull.code "LOS")]
  simp

theorem weibull_ok (min : Minimizer) (p : Weibull.Params) (x : Sample ℝ) :
    WeibullStat.ok.value min p x = .ok (Weibull.ok x.values) := by
  simp only [WeibullStat.value, Weibull.wpp, if_true]

theorem weibull_sb (min : Minimizer) (p : Weibull.Params) (x : Sample ℝ) :
    WeibullStat.sb.value min p x = .ok (Weibull.sb x.values) := by
  simp only [WeibullStat.value, Weibull.wpp]
  rw [if_neg (by decide : Weibull.code "SB" ≠ Weibull.code "OK")]
  simp

theorem weibull_rejg (min : Minimizer) (p : Weibull.Params) (x : Sample ℝ) :
    WeibullStat.rejg.value min p x = Weibull.rejg min x.values := by
  simp only [WeibullStat.value, Weibull.wpp]
  rw [if_neg (by decide : Weibull.code "REJG" ≠ Weibull.code "OK"),
    if_neg (by decide : Weibull.code "REJG" ≠ Weibull.code "SB")]
  simp

theorem weibull_spp (min : Minimizer) (p : Weibull.Params) (x : Sample ℝ) :
    WeibullStat.spp.value min p x = Weibull.spp min x.values := by
  simp only [WeibullStat.value, Weibull.wpp]
  rw [if_neg (by decide : Weibull.code "SPP" ≠ Weibull.code "OK"),
    if_neg (by decide : Weibull.code "SPP" ≠ Weibull.code "SB"),
    if_neg (by decide : Weibull.code "SPP" ≠ Weibull.code "REJG")]
  simp

theorem mlEst_pos (min : Minimizer) {xs : List ℝ} (hne : xs ≠ []) (h : ∀ x ∈ xs, 0 < x) :
    ∃ k, Weibull.mlEst min xs = .ok (min (sort (xs.map fun x => -Real.log x)),
      (sort (xs.map fun x => -Real.log x)).map fun v =>
        -(v - k) * min (sort (xs.map fun x => -Real.log x))) := by
  simp only [Weibull.mlEst, if_neg (not_le.2 (headD_pos hne h))]
  exact ⟨_, rfl⟩

/-! ### C66 -/

/-- The criteria that cannot be evaluated on every sample. -/
def _root_.Pysatl.Weibull.WeibullStat.Broken : WeibullStat → Prop
  | .andersonDarling | .lt2 _ _ | .lt3 _ _ | .cabanaQuiroz => True
  | .kl (some m) => m = 0
  | _ => False

/-- **C66 (partial)**: on every positive sample of at least three observations, list or array, the other Weibull criteria
return a value.  Missing: the Anderson-Darling, Laplace transform and Cabana-Quiroz criteria and
smaller samples, for which the claim is false (`C66_refuted_*`). -/
theorem C66_partial (min : Minimizer) (p : Weibull.Params) (s : WeibullStat) (hs : ¬ s.Broken) (x : Sample ℝ)
    (hn : 3 ≤ x.values.length) (hpos : ∀ v ∈ x.values, 0 < v) : ∃ v, s.value min p x = .ok v := by
  have hne : x.values ≠ [] := by rintro h; simp [h] at hn
  have hv : Weibull.vals p x.values ≠ [] := by simpa [Weibull.vals] using sort_ne_nil hne
  have hks : ∀ t, ∃ v, ks t (Weibull.vals p x.values) = .ok v := fun t => ks_ne_error t hv
  cases s with
  | andersonDarling => exact absurd trivial hs
  | lt2 => exact absurd trivial hs
  | lt3 => exact absurd trivial hs
  | cabanaQuiroz => exact absurd trivial hs
  | ks t => exact hks t
  | lilliefors => exact hks _
  | tikuSingh => exact ⟨_, weibull_ts min p x⟩
  | los => exact ⟨_, by rw [weibull_los, if_neg (by omega)]⟩
  | msf => exact ⟨_, weibull_msf min p x⟩
  | ok => exact ⟨_, weibull_ok min p x⟩
  | sb => exact ⟨_, weibull_sb min p x⟩
  | rejg =>
    obtain ⟨k, hk⟩ := mlEst_pos min hne hpos
    exact ⟨_, by rw [weibull_rejg]; simp only [Weibull.rejg, hk, bind, Except.bind]; rfl⟩
  | spp =>
    obtain ⟨k, hk⟩ := mlEst_pos min hne hpos
    rw [weibull_spp]
    simp only [Weibull.spp, hk, bind, Except.bind]
    refine npMax_exists ?_
    simpa using sort_ne_nil (l := x.values.map fun x => -Real.log x) (by simpa using hne)
  | kl m =>
    have hm : m.getD (x.values.length / 2) ≠ 0 := by
      cases m with
      | none => simp only [Option.getD_none]; omega
      | some m => exact hs
    simp only [WeibullStat.value, Weibull.kl, hm, false_and, if_false]
    exact ⟨_, rfl⟩
  | _ => exact ⟨_, rfl⟩

example : ∃ v, WeibullStat.spp.value (fun _ => 1) ⟨1, 1⟩ (.list [1, 2, 3]) = .ok v :=
  C66_partial _ _ _ (by simp [WeibullStat.Broken]) _ (by simp [Sample.values]) (by simp [Sample.values])

/-- **C66 is false** of the Anderson-Darling criterion: it raises `TypeError` on every sample. -/
theorem C66_refuted_ad (min : Minimizer) (p : Weibull.Params) (x : Sample ℝ) :
    WeibullStat.andersonDarling.value min p x = .error .typeError := rfl

/-- **C66 is false** of the two Laplace transform criteria: they raise `ValueError` on every sample and for every option,
because the code they pass on is not one of the two names the computation knows. -/
theorem C66_refuted_laplace (min : Minimizer) (p : Weibull.Params) (m : ℕ) (a : ℝ) (x : Sample ℝ) :
    (WeibullStat.lt2 m a).value min p x = .error .valueError ∧
    (WeibullStat.lt3 m a).value min p x = .error .valueError := by
  simp only [WeibullStat.value, Weibull.laplaceTransform]
  rw [if_neg (by decide : Weibull.code "LT2" ≠ "LT2_WEIBULL"), if_neg (by decide : Weibull.code "LT2" ≠ "LT3_WEIBULL"),
    if_neg (by decide : Weibull.code "LT3" ≠ "LT2_WEIBULL"), if_neg (by decide : Weibull.code "LT3" ≠ "LT3_WEIBULL")]
  exact ⟨rfl, rfl⟩

/-- **C66 is false** of the Cabana-Quiroz criterion on lists; on arrays it returns a value. -/
theorem C66_refuted_cabanaQuiroz (min : Minimizer) (p : Weibull.Params) (xs : List ℝ) :
    WeibullStat.cabanaQuiroz.value min p (.list xs) = .error .typeError ∧
    ∃ v, WeibullStat.cabanaQuiroz.value min p (.ndarray xs) = .ok v := ⟨rfl, _, rfl⟩

/-- **C66 is false** of the Kullback-Leibler criterion for one observation and of the
Lockhart-O'Reilly-Stephens criterion for two. -/
theorem C66_refuted_small (min : Minimizer) (p : Weibull.Params) (u v : ℝ) :
    (WeibullStat.kl none).value min p (.list [u]) = .error .zeroDivisionError ∧
    WeibullStat.los.value min p (.list [u, v]) = .error .zeroDivisionError := by
  constructor
  · simp [WeibullStat.value, Weibull.kl, Sample.values]
  · rw [weibull_los]; simp [Sample.values]

/-! ### C61 -/

theorem logs_perm {xs ys : List ℝ} (h : xs.Perm ys) : Weibull.logs xs = Weibull.logs ys :=
  sort_eq_of_perm (h.map _)

/-- **C61 (partial)** for the Weibull family.  Missing: the Smith-Bain statistic, for which it is false
(`C61_refuted_rsb`). -/
theorem C61_weibull_partial (min : Minimizer) (p : Weibull.Params) (s : WeibullStat) (hs : s ≠ .rsb)
    {xs ys : List ℝ} (h : xs.Perm ys) :
    s.value min p (.list xs) = s.value min p (.list ys) ∧
    s.value min p (.ndarray xs) = s.value min p (.ndarray ys) := by
  have hsort := sort_eq_of_perm h
  have hlogs := logs_perm h
  have hlen := h.length_eq
  have hneg : sort (xs.map fun x => -Real.log x) = sort (ys.map fun x => -Real.log x) := sort_eq_of_perm (h.map _)
  have hml : Weibull.mlEst min xs = Weibull.mlEst min ys := by
    simp only [Weibull.mlEst, hsort, hneg, hlen]
  cases s with
  | rsb => exact absurd rfl hs
  | tikuSingh => simp only [weibull_ts, Sample.values, Weibull.spacingsG, hlogs, hlen, and_self]
  | los =>
    simp only [weibull_los, Sample.values, Weibull.spacingsG, hlogs, hlen]
    exact ⟨rfl, rfl⟩
  | msf => simp only [weibull_msf, Sample.values, Weibull.spacingsG, hlogs, hlen, and_self]
  | ok => simp only [weibull_ok, Sample.values, Weibull.ok, hlogs, hlen, and_self]
  | sb => simp only [weibull_sb, Sample.values, Weibull.sb, hlogs, hlen, and_self]
  | rejg => simp only [weibull_rejg, Sample.values, Weibull.rejg, hml, hlogs, hlen, and_self]
  | spp => simp only [weibull_spp, Sample.values, Weibull.spp, hml, hlen, and_self]
  | chi2 =>
    simp only [WeibullStat.value, Sample.values, Weibull.chi2, Weibull.rangeEdges, hsort, hlen, histogram_perm h]
    exact ⟨rfl, rfl⟩
  | lt2 m a =>
    constructor <;> exact (C66_refuted_laplace ..).1.trans (C66_refuted_laplace ..).1.symm
  | lt3 m a =>
    constructor <;> exact (C66_refuted_laplace ..).2.trans (C66_refuted_laplace ..).2.symm
  | cabanaQuiroz =>
    simp only [WeibullStat.value, Weibull.cabanaQuiroz, hlen, mean_perm (h.map _), and_self]
  | sbSmall => simp only [WeibullStat.value, Sample.values, Weibull.sb, hlogs, hlen, and_self]
  | st1 => simp only [WeibullStat.value, Sample.values, Weibull.st1, Weibull.stMoment, hlogs, hlen, and_self]
  | st2 => simp only [WeibullStat.value, Sample.values, Weibull.st2, Weibull.stMoment, hlogs, hlen, and_self]
  | kl m =>
    simp only [WeibullStat.value, Sample.values, Weibull.kl, hsort, hlen]
    exact ⟨rfl, rfl⟩
  | _ => simp only [WeibullStat.value, Sample.values, Weibull.vals, hsort, and_self]

/-- **C61 is false** of the Smith-Bain statistic, which pairs the observations with the plotting positions in the order they
come in: exchanging the last two of three observations changes it. -/
theorem C61_refuted_rsb (min : Minimizer) (p : Weibull.Params) :
    WeibullStat.rsb.value min p (.list [1, 1, Real.exp 1]) ≠ WeibullStat.rsb.value min p (.list [1, Real.exp 1, 1]) := by
  have h1 : (List.map Real.log [1, 1, Real.exp 1]) = [0, 0, 1] := by simp
  have h2 : (List.map Real.log [1, Real.exp 1, 1]) = [0, 1, 0] := by simp
  have hsc : Weibull.rsbScores 3 = [Real.log (-Real.log (3 / 4)), Real.log (-Real.log (1 / 2)),
      Real.log (-Real.log (1 / 4))] := by
    simp only [Weibull.rsbScores, List.range_succ, List.range_zero]
    norm_num
  have hpos : 0 < -Real.log (3 / 4) := by
    have := Real.log_neg (by norm_num : (0 : ℝ) < 3 / 4) (by norm_num)
    linarith
  have h12 : Real.log (-Real.log (3 / 4)) < Real.log (-Real.log (1 / 2)) := by
    refine Real.log_lt_log hpos ?_
    have := Real.log_lt_log (by norm_num : (0 : ℝ) < 1 / 2) (by norm_num : (1 : ℝ) / 2 < 3 / 4)
    linarith
  have h23 : Real.log (-Real.log (1 / 2)) < Real.log (-Real.log (1 / 4)) := by
    have := Real.log_lt_log (by norm_num : (0 : ℝ) < 1 / 2) (by norm_num : (1 : ℝ) / 2 < 3 / 4)
    refine Real.log_lt_log (by linarith) ?_
    have := Real.log_lt_log (by norm_num : (0 : ℝ) < 1 / 4) (by norm_num : (1 : ℝ) / 4 < 1 / 2)
    linarith
  generalize Real.log (-Real.log (3 / 4)) = m₁ at *
  generalize Real.log (-Real.log (1 / 2)) = m₂ at *
  generalize Real.log (-Real.log (1 / 4)) = m₃ at *
  have hss : 0 < Weibull.sumSq [m₁, m₂, m₃] := by
    simp only [Weibull.sumSq, mean, List.map_cons, List.map_nil, List.sum_cons, List.sum_nil,
      List.length_cons, List.length_nil]
    push_cast
    have : 0 < (m₁ - (m₁ + (m₂ + (m₃ + 0))) / 3) ^ 2 := by
      refine sq_pos_of_neg ?_
      ring_nf
      linarith
    exact add_pos_of_pos_of_nonneg this (by positivity)
  intro h
  simp only [WeibullStat.value, Sample.values, Except.ok.injEq, Weibull.rsb, h1, h2, List.length_cons, List.length_nil,
    Nat.zero_add, Nat.reduceAdd, hsc] at h
  generalize hS : Weibull.sumSq [m₁, m₂, m₃] = S at *
  have e1 : Weibull.sumSq [0, 0, 1] = 2 / 3 := by norm_num [Weibull.sumSq, mean]
  have e2 : Weibull.sumSq [0, 1, 0] = 2 / 3 := by norm_num [Weibull.sumSq, mean]
  rw [e1, e2] at h
  norm_num [mean] at h
  rw [div_left_inj' hss.ne'] at h
  have : (m₃ - m₂) * (m₃ + m₂ - 2 * m₁) = 0 := by nlinarith [h]
  rcases mul_eq_zero.1 this with h | h <;> linarith

/-! ### C64 -/

/-- **C64 is false** of the Weibull family: its constructor accepts every shape, also zero and negative ones. -/
theorem C64_refuted_weibull (a k : ℝ) : ∃ p, Weibull.init a k = .ok p ∧ p.a = a ∧ p.k = k := ⟨_, rfl, rfl, rfl⟩

/-! ### C97: power transformations -/

theorem map_log_power {c d : ℝ} (hc : 0 < c) {xs : List ℝ} (h : ∀ x ∈ xs, 0 < x) :
    (xs.map fun x => c * x ^ d).map Real.log = (xs.map Real.log).map (aff (Real.log c) d) := by
  rw [List.map_map, List.map_map]
  refine List.map_congr_left fun x hx => ?_
  have hx := h x hx
  simp only [Function.comp_apply, aff]
  rw [Real.log_mul hc.ne' (Real.rpow_pos_of_pos hx d).ne', Real.log_rpow hx]

theorem logs_power {c d : ℝ} (hc : 0 < c) (hd : 0 < d) {xs : List ℝ} (h : ∀ x ∈ xs, 0 < x) :
    Weibull.logs (xs.map fun x => c * x ^ d) = (Weibull.logs xs).map (aff (Real.log c) d) := by
  unfold Weibull.logs
  rw [map_log_power hc h, sort_aff _ hd]

theorem logs_ne_nil {xs : List ℝ} (h : xs ≠ []) : Weibull.logs xs ≠ [] := sort_ne_nil (by simpa using h)

theorem length_logs (xs : List ℝ) : (Weibull.logs xs).length = xs.length := by
  rw [Weibull.logs, length_sort, List.length_map]

theorem sumSq_eq (l : List ℝ) : Weibull.sumSq l = devSq l := rfl

theorem stMoment_power (k : ℕ) {c d : ℝ} (hc : 0 < c) (hd : 0 < d) {xs : List ℝ} (hne : xs ≠ []) (h : ∀ x ∈ xs, 0 < x) :
    Weibull.stMoment k (xs.map fun x => c * x ^ d) = Weibull.stMoment k xs := by
  have e : sort ((Weibull.logs (xs.map fun x => c * x ^ d)).map fun y => -y) =
      (sort ((Weibull.logs xs).map fun y => -y)).map (aff (-Real.log c) d) := by
    rw [logs_power hc hd h, ← sort_aff _ hd, List.map_map, List.map_map]
    congr 1
    refine List.map_congr_left fun x _ => ?_
    simp only [Function.comp_apply, aff]
    ring
  have hn : sort ((Weibull.logs xs).map fun y => -y) ≠ [] := sort_ne_nil (by simpa using logs_ne_nil hne)
  simp only [Weibull.stMoment, e, sumSq_eq, devSq_aff _ _ hn, mean_aff _ _ hn, List.length_map, List.map_map]
  congr 2
  refine List.map_congr_left fun x _ => ?_
  simp only [Function.comp_apply, aff]
  rw [mul_div_assoc, Real.sqrt_mul (by positivity), Real.sqrt_sq hd.le]
  rw [show -Real.log c + d * x - (-Real.log c + d * mean (sort ((Weibull.logs xs).map fun y => -y))) =
    d * (x - mean (sort ((Weibull.logs xs).map fun y => -y))) by ring, mul_div_mul_left _ _ hd.ne']

theorem spacingsG_power {c d : ℝ} (hc : 0 < c) (hd : 0 < d) {xs : List ℝ} (h : ∀ x ∈ xs, 0 < x) :
    Weibull.spacingsG (xs.map fun x => c * x ^ d) = (Weibull.spacingsG xs).map (d * ·) := by
  simp only [Weibull.spacingsG, logs_power hc hd h, npDiff_aff, List.length_map, List.zipWith_map_left, List.map_zipWith,
    mul_div_assoc]

theorem rsb_eq (xs : List ℝ) : Weibull.rsb xs = (xs.length : ℝ) *
    (1 - devSum (xs.map Real.log) (Weibull.rsbScores xs.length) ^ 2 / devSq (xs.map Real.log) /
      devSq (Weibull.rsbScores xs.length)) := rfl

/-- The scores of `REJG` for the standard distribution. -/
noncomputable def rejgScores (n : ℕ) : List ℝ :=
  (List.range n).map fun i : ℕ => Real.log (-(Real.log (1 - ((i : ℝ) + 1 - 3175 / 10000) / ((n : ℝ) + 365 / 1000))))

theorem zipWith_dev (a : List ℝ) (c : ℝ) : ∀ y m : List ℝ, y.length = m.length →
    (List.zipWith (fun v u => (v - c) * u) y m).sum =
      (List.zipWith (fun v u => (v - c) * (u - mean a)) y m).sum + mean a * (y.map fun v => v - c).sum
  | [], [], _ => by simp
  | x :: y, u :: m, h => by
    simp only [List.zipWith_cons_cons, List.sum_cons, List.map_cons, zipWith_dev a c y m (by simpa using h)]
    ring

theorem sum_dev_zero (y : List ℝ) : (y.map fun v => v - mean y).sum = 0 := by
  by_cases h : y = []
  · simp [h]
  have hn : (y.length : ℝ) ≠ 0 := by simpa using h
  have := sum_aff (-mean y) 1 y
  have e : (y.map fun v => v - mean y) = y.map (aff (-mean y) 1) :=
    List.map_congr_left fun v _ => by simp only [aff]; ring
  rw [e, this]
  unfold mean
  field_simp
  ring

theorem devSum_raw {y m : List ℝ} (h : y.length = m.length) :
    (List.zipWith (fun v u => (v - mean y) * u) y m).sum = devSum y m := by
  rw [zipWith_dev m (mean y) y m h, sum_dev_zero]
  simp [devSum]

theorem rejg_eq (min : Minimizer) {xs : List ℝ} (hne : xs ≠ []) (h : ∀ x ∈ xs, 0 < x)
    (hmin : min (sort (xs.map fun x => -Real.log x)) ≠ 0) :
    Weibull.rejg min xs = .ok ((devSum (Weibull.logs xs) (rejgScores xs.length) ^ 2 /
      (devSq (Weibull.logs xs) * devSq (rejgScores xs.length))) ^ 2) := by
  obtain ⟨k, hk⟩ := mlEst_pos min hne h
  simp only [Weibull.rejg, hk, bind, Except.bind, pure, Except.pure]
  generalize min (sort (xs.map fun x => -Real.log x)) = b at *
  have e : ((List.range xs.length).map fun i : ℕ =>
      Real.log (-(Real.log (1 - ((i : ℝ) + 1 - 3175 / 10000) / ((xs.length : ℝ) + 365 / 1000)))) / b) =
      (rejgScores xs.length).map (aff 0 b⁻¹) := by
    rw [rejgScores, List.map_map]
    refine List.map_congr_left fun x _ => ?_
    simp only [Function.comp_apply, aff]
    rw [zero_add, div_eq_inv_mul]
  have hl : (Weibull.logs xs).length = (rejgScores xs.length).length := by simp [length_logs, rejgScores]
  have hr : rejgScores xs.length ≠ [] := by simpa [rejgScores] using hne
  rw [e, devSum_raw (by rw [hl, List.length_map]), sumSq_eq, sumSq_eq, devSq_aff _ _ hr, devSum_comm, devSum_aff _ _ hr,
    devSum_comm]
  congr 2
  rw [mul_pow, mul_left_comm, mul_div_mul_left _ _ (by positivity)]

/-- The criteria for which only the shape of the fitted distribution matters. -/
inductive _root_.Pysatl.Weibull.WeibullStat.PowerInvariant : WeibullStat → Prop
  | st1 : PowerInvariant .st1
  | st2 : PowerInvariant .st2
  | rsb : PowerInvariant .rsb
  | tikuSingh : PowerInvariant .tikuSingh
  | los : PowerInvariant .los
  | msf : PowerInvariant .msf
  | rejg : PowerInvariant .rejg

/-- **C97 (partial)**: the seven criteria do not distinguish a sample `x` from `c * x^d`: the family they test for is
closed under these transformations.  Missing: the Sb and OK criteria, for which this is false
(`C97_refuted_sb`, `C97_refuted_ok`), and SPP, whose value depends on the optimiser. -/
theorem C97_partial (min : Minimizer) (hmin : ∀ y, min y ≠ 0) (p : Weibull.Params) {s : WeibullStat}
    (hs : s.PowerInvariant) {c d : ℝ} (hc : 0 < c) (hd : 0 < d) {xs : List ℝ} (hne : xs ≠ []) (h : ∀ x ∈ xs, 0 < x) :
    s.value min p (.list (xs.map fun x => c * x ^ d)) = s.value min p (.list xs) := by
  have hl := logs_power hc hd h
  have hln := logs_ne_nil hne
  cases hs with
  | st1 => simp only [WeibullStat.value, Sample.values, Weibull.st1, stMoment_power _ hc hd hne h, List.length_map]
  | st2 => simp only [WeibullStat.value, Sample.values, Weibull.st2, stMoment_power _ hc hd hne h, List.length_map]
  | rsb =>
    have hn : xs.map Real.log ≠ [] := by simpa using hne
    simp only [WeibullStat.value, Sample.values, rsb_eq, map_log_power hc h, devSum_aff _ _ hn, devSq_aff _ _ hn,
      List.length_map, mul_pow, mul_div_mul_left _ _ (pow_ne_zero 2 hd.ne')]
  | tikuSingh =>
    simp only [weibull_ts, Sample.values, spacingsG_power hc hd h, List.length_map, sum_scale, ← List.map_take]
    generalize Weibull.spacingsG xs = G
    have : ∀ l : List ℝ, ((l.map (d * ·)).mapIdx fun i g => ((xs.length : ℝ) - 1 - ((i : ℝ) + 1)) * g).sum =
        d * (l.mapIdx fun i g => ((xs.length : ℝ) - 1 - ((i : ℝ) + 1)) * g).sum := by
      intro l
      have e : ((l.map (d * ·)).mapIdx fun i g => ((xs.length : ℝ) - 1 - ((i : ℝ) + 1)) * g) =
          (l.mapIdx fun i g => ((xs.length : ℝ) - 1 - ((i : ℝ) + 1)) * g).map (d * ·) := by
        apply List.ext_getElem
        · simp
        · intro i h1 h2
          simp only [List.getElem_mapIdx, List.getElem_map]
          ring
      rw [e, sum_scale]
    rw [this]
    congr 1
    rw [mul_left_comm, mul_left_comm _ d, mul_div_mul_left _ _ hd.ne']
  | los =>
    simp only [weibull_los, Sample.values, spacingsG_power hc hd h, List.length_map, sum_scale, ← List.map_take,
      mul_div_mul_left _ _ hd.ne']
    rfl
  | msf =>
    simp only [weibull_msf, Sample.values, spacingsG_power hc hd h, List.length_map, sum_scale, ← List.map_drop,
      mul_div_mul_left _ _ hd.ne']
  | rejg =>
    have hpos : ∀ x ∈ xs.map (fun x => c * x ^ d), 0 < x := by
      simp only [List.mem_map]
      rintro _ ⟨x, hx, rfl⟩
      exact mul_pos hc (Real.rpow_pos_of_pos (h x hx) d)
    simp only [weibull_rejg, Sample.values]
    rw [rejg_eq min (by simpa using hne) hpos (hmin _), rejg_eq min hne h (hmin _), hl, List.length_map, devSum_aff _ _ hln,
      devSq_aff _ _ hln, mul_pow, mul_assoc, mul_div_mul_left _ _ (pow_ne_zero 2 hd.ne')]

example : WeibullStat.msf.value (fun _ => 1) ⟨1, 1⟩ (.list ([1, 2, 4].map fun x => 3 * x ^ (2 : ℝ))) =
    WeibullStat.msf.value (fun _ => 1) ⟨1, 1⟩ (.list [1, 2, 4]) :=
  C97_partial _ (by simp) _ .msf (by norm_num) (by norm_num) (by simp) (by simp)

theorem zipWith_aff_sum (a b : ℝ) : ∀ w y : List ℝ, w.length = y.length →
    (List.zipWith (· * ·) w (y.map (aff a b))).sum = a * w.sum + b * (List.zipWith (· * ·) w y).sum
  | [], [], _ => by simp
  | u :: w, v :: y, h => by
    simp only [List.map_cons, List.zipWith_cons_cons, List.sum_cons, zipWith_aff_sum a b w y (by simpa using h), aff]
    ring

theorem length_sbWn {n : ℕ} (hn : 0 < n) : (Weibull.sbWn n).length = n := by
  simp [Weibull.sbWn, Weibull.sbW]; omega

theorem length_sbWi {n : ℕ} (hn : 0 < n) : (Weibull.sbWi n).length = n := by
  simp [Weibull.sbWi, Weibull.sbW]; omega

theorem sum_sbWn (n : ℕ) : (Weibull.sbWn n).sum = 4228 / 10000 * n := by
  simp [Weibull.sbWn]

theorem sum_sbWi (n : ℕ) : (Weibull.sbWi n).sum = n := by
  simp [Weibull.sbWi]

/-- The weights of the estimator do not add up to zero: 0.6079 * 0.4228 - 0.2570 = 0.00002012. -/
theorem sbB_aff (a b : ℝ) {y : List ℝ} (h : y ≠ []) :
    Weibull.sbB (y.map (aff a b)) = b * Weibull.sbB y + a * (2012 / 10 ^ 8 * y.length) := by
  have hn : 0 < y.length := List.length_pos_iff.2 h
  simp only [Weibull.sbB, List.length_map]
  rw [zipWith_aff_sum _ _ _ _ (length_sbWn hn), zipWith_aff_sum _ _ _ _ (length_sbWi hn), sum_sbWn, sum_sbWi]
  ring

theorem sb_power {c d : ℝ} (hc : 0 < c) (hd : 0 < d) {xs : List ℝ} (hne : xs ≠ []) (h : ∀ x ∈ xs, 0 < x) :
    Weibull.sb (xs.map fun x => c * x ^ d) = (xs.length : ℝ) *
      ((d * Weibull.sbB (Weibull.logs xs) + Real.log c * (2012 / 10 ^ 8 * xs.length)) / xs.length) ^ 2 /
        (d ^ 2 * devSq (Weibull.logs xs)) := by
  have hln := logs_ne_nil hne
  simp only [Weibull.sb, logs_power hc hd h, sbB_aff _ _ hln, sumSq_eq, devSq_aff _ _ hln, List.length_map, length_logs]

/-- **C97** for the Sb criteria under powers of the observations. -/
theorem C97_sb_power (min : Minimizer) (p : Weibull.Params) {d : ℝ} (hd : 0 < d) {xs : List ℝ} (hne : xs ≠ [])
    (h : ∀ x ∈ xs, 0 < x) :
    WeibullStat.sbSmall.value min p (.list (xs.map fun x => x ^ d)) = WeibullStat.sbSmall.value min p (.list xs) ∧
    WeibullStat.sb.value min p (.list (xs.map fun x => x ^ d)) = WeibullStat.sb.value min p (.list xs) := by
  have e := sb_power one_pos hd hne h
  simp only [one_mul, Real.log_one, zero_mul, add_zero] at e
  have : Weibull.sb (xs.map fun x => x ^ d) = Weibull.sb xs := by
    rw [e]
    simp only [Weibull.sb, sumSq_eq]
    rw [mul_div_assoc d, mul_pow, mul_left_comm, mul_div_mul_left _ _ (pow_ne_zero 2 hd.ne')]
  rw [weibull_sb, weibull_sb]
  simp only [WeibullStat.value, Sample.values, this, and_self]

example : WeibullStat.sb.value (fun _ => 1) ⟨1, 1⟩ (.list ([1, 2, 4].map fun x => x ^ (2 : ℝ))) =
    WeibullStat.sb.value (fun _ => 1) ⟨1, 1⟩ (.list [1, 2, 4]) :=
  (C97_sb_power _ _ (by norm_num) (by simp) (by simp)).2

/-- **C97 is false** of the Sb criteria: because of the rounded constants, measuring the same observations in a small enough
unit makes the statistic as large as one likes. -/
theorem C97_refuted_sb (min : Minimizer) (p : Weibull.Params) {xs : List ℝ} (h : ∀ x ∈ xs, 0 < x)
    (hv : ∃ x ∈ xs, ∃ y ∈ xs, x ≠ y) (K : ℝ) :
    ∃ c > 0, ∃ v > K, WeibullStat.sb.value min p (.list (xs.map (c * ·))) = .ok v ∧
      WeibullStat.sbSmall.value min p (.list (xs.map (c * ·))) = .ok v := by
  obtain ⟨x, hx, y, hy, hxy⟩ := hv
  have hne : xs ≠ [] := List.ne_nil_of_mem hx
  have hn : (0 : ℝ) < xs.length := by exact_mod_cast List.length_pos_iff.2 hne
  have hS : 0 < devSq (Weibull.logs xs) := by
    refine lt_of_le_of_ne (devSq_nonneg _) fun h0 => hxy ?_
    have hz : ∀ v ∈ Weibull.logs xs, v = mean (Weibull.logs xs) := by
      intro v hv
      have := List.all_zero_of_le_zero_le_of_sum_eq_zero (l := (Weibull.logs xs).map fun x => (x - mean (Weibull.logs xs)) ^ 2)
        (by simp only [List.mem_map]; rintro _ ⟨x, _, rfl⟩; positivity) h0.symm (List.mem_map_of_mem hv)
      have := pow_eq_zero_iff (two_ne_zero) |>.1 this
      linarith
    have hmem : ∀ x ∈ xs, Real.log x ∈ Weibull.logs xs := fun x hx =>
      (sort_perm _).mem_iff.2 (List.mem_map_of_mem hx)
    have := (hz _ (hmem x hx)).trans (hz _ (hmem y hy)).symm
    exact Real.log_injOn_pos (h x hx) (h y hy) this
  set n : ℝ := (xs.length : ℝ)
  set B := Weibull.sbB (Weibull.logs xs)
  set S := devSq (Weibull.logs xs)
  have hδ : (0 : ℝ) < 2012 / 10 ^ 8 * n := by positivity
  refine ⟨Real.exp ((√((|K| + 1) * n * S) - B) / (2012 / 10 ^ 8 * n)), Real.exp_pos _, |K| + 1,
    lt_of_le_of_lt (le_abs_self K) (by linarith), ?_⟩
  have e := sb_power (Real.exp_pos ((√((|K| + 1) * n * S) - B) / (2012 / 10 ^ 8 * n))) one_pos hne h
  simp only [Real.rpow_one, Real.log_exp, one_mul, one_pow] at e
  rw [div_mul_cancel₀ _ hδ.ne', show B + (√((|K| + 1) * n * S) - B) = √((|K| + 1) * n * S) by ring, div_pow,
    Real.sq_sqrt (by positivity)] at e
  have e' : n * ((|K| + 1) * n * S / n ^ 2) / S = |K| + 1 := by field_simp
  rw [weibull_sb]
  simp only [WeibullStat.value, Sample.values]
  rw [e, e']
  exact ⟨rfl, rfl⟩

example : ∃ x ∈ [(1 : ℝ), 2], ∃ y ∈ [(1 : ℝ), 2], x ≠ y := ⟨1, by simp, 2, by simp, by norm_num⟩

/-- **C97 is false** of the OK criterion: it distinguishes the sample `(1, e)` from the same sample measured in any
other unit. -/
theorem C97_refuted_ok (min : Minimizer) (p : Weibull.Params) {c : ℝ} (hc : 0 < c) (h1 : c ≠ 1) :
    WeibullStat.ok.value min p (.list ([1, Real.exp 1].map (c * ·))) ≠
      WeibullStat.ok.value min p (.list [1, Real.exp 1]) := by
  have hl : Weibull.logs [1, Real.exp 1] = [0, 1] := by
    simp only [Weibull.logs, List.map_cons, List.map_nil, Real.log_one, Real.log_exp]
    exact sort_of_sorted (by simp)
  have hpos : ∀ x ∈ [1, Real.exp 1], 0 < x := by simp [Real.exp_pos]
  have hlc := logs_power hc one_pos hpos
  simp only [Real.rpow_one] at hlc
  have hB := sbB_aff (Real.log c) 1 (y := [0, 1]) (by simp)
  rw [weibull_ok, weibull_ok]
  simp only [Weibull.ok, Sample.values, List.length_map, hlc, hl, hB]
  simp only [List.map_cons, List.map_nil, aff, List.mapIdx_cons, List.mapIdx_nil, List.sum_cons, List.sum_nil,
    List.length_cons, List.length_nil, Nat.zero_add, Nat.reduceAdd, ne_eq, Except.ok.injEq]
  have hlog := Real.log_pos one_lt_two
  have hsq : √2 ^ 2 = 2 := Real.sq_sqrt (by norm_num)
  have hsq0 : 0 ≤ √2 := Real.sqrt_nonneg 2
  have hD : (49 / 100 / √2 - 36 / 100 / 2 : ℝ) ≠ 0 := by
    have : (0 : ℝ) < √2 := by positivity
    have hlt : √2 < 2 := by nlinarith
    have : (49 : ℝ) / 100 / 2 < 49 / 100 / √2 := div_lt_div_of_pos_left (by norm_num) this hlt
    have : (0 : ℝ) < 49 / 100 / √2 - 36 / 100 / 2 := by linarith
    exact this.ne'
  push_cast
  rw [div_left_inj' hD]
  have hlc0 : Real.log c ≠ 0 := Real.log_ne_zero_of_pos_of_ne_one hc h1
  generalize Weibull.sbB [0, 1] = B
  intro h
  have e1 : (2 * ((0 : ℝ) + 1) - 1 - 2) * (Real.log c + 1 * 0) + ((2 * ((1 : ℝ) + 1) - 1 - 2) * (Real.log c + 1 * 1) + 0) =
      1 := by ring
  have e2 : (2 * ((0 : ℝ) + 1) - 1 - 2) * 0 + ((2 * ((1 : ℝ) + 1) - 1 - 2) * 1 + 0) = 1 := by ring
  rw [e1, e2] at h
  have h' : (1 * B + Real.log c * (2012 / 10 ^ 8 * 2)) / (1 / (Real.log 2 * (2 - 1))) =
      B / (1 / (Real.log 2 * (2 - 1))) := by linarith
  rw [div_left_inj' (by norm_num)] at h'
  exact hlc0 (by linarith)

/-! ### C98: the stabilised probability plot -/

theorem sort_neg_log {xs : List ℝ} (h : ∀ x ∈ xs, 0 < x) :
    sort (xs.map fun x => -Real.log x) = ((sort xs).reverse).map fun x => -Real.log x := by
  refine List.Perm.eq_of_pairwise (le := (· ≤ ·)) (fun a b _ _ h1 h2 => le_antisymm h1 h2)
    (sort_pairwise _) ?_ ((sort_perm _).trans (((List.reverse_perm _).trans (sort_perm xs)).symm.map fun x => -Real.log x))
  rw [List.pairwise_map, List.pairwise_reverse]
  refine (sort_pairwise xs).imp_of_mem fun {a b} ha hb hab => ?_
  have := Real.log_le_log (h a ((sort_perm xs).mem_iff.1 ha)) hab
  linarith

/-- What the criterion computes: the plotting positions increase and the fitted probabilities they are compared with
decrease. -/
theorem spp_eq (min : Minimizer) {xs : List ℝ} (hne : xs ≠ []) (h : ∀ x ∈ xs, 0 < x)
    {t : ℝ} (ht : min (sort (xs.map fun x => -Real.log x)) = t) (ht0 : t ≠ 0) :
    Weibull.spp min xs = npMax ((sort xs).reverse.mapIdx fun i x =>
      |Spec.stabilised (((i : ℝ) + 1 / 2) / xs.length) - Spec.stabilised (Spec.fittedWeibull t xs x)|) := by
  have hn : (0 : ℝ) < xs.length := by exact_mod_cast List.length_pos_iff.2 hne
  have hsum : 0 < (xs.map fun y => y ^ t).sum := by
    refine List.sum_pos _ ?_ (by simpa using hne)
    simp only [List.mem_map]
    rintro _ ⟨x, hx, rfl⟩
    exact Real.rpow_pos_of_pos (h x hx) t
  have haux : ((sort (xs.map fun x => -Real.log x)).map fun v => Real.exp (-v * t)).sum = (xs.map fun y => y ^ t).sum := by
    rw [((sort_perm (xs.map fun x => -Real.log x)).map _).sum_eq, List.map_map]
    congr 1
    refine List.map_congr_left fun x hx => ?_
    simp only [Function.comp_apply, neg_neg]
    rw [Real.rpow_def_of_pos (h x hx)]
  simp only [Weibull.spp, Weibull.mlEst, if_neg (not_le.2 (headD_pos hne h)), ht, haux, bind, Except.bind]
  congr 1
  rw [sort_neg_log h]
  apply List.ext_getElem
  · simp
  intro i h1 h2
  simp only [List.getElem_mapIdx, List.getElem_map]
  have hmem : (sort xs).reverse[i]'(by simpa using h2) ∈ xs :=
    (sort_perm xs).mem_iff.1 (List.mem_reverse.1 (List.getElem_mem _))
  generalize (sort xs).reverse[i]'(by simpa using h2) = x at *
  have hx := h x hmem
  have e : Real.exp (-(-Real.log x - -(1 / t) * Real.log ((xs.map fun y => y ^ t).sum / xs.length)) * t) =
      x ^ t / ((xs.map fun y => y ^ t).sum / xs.length) := by
    rw [show -(-Real.log x - -(1 / t) * Real.log ((xs.map fun y => y ^ t).sum / xs.length)) * t =
      Real.log x * t - Real.log ((xs.map fun y => y ^ t).sum / xs.length) by field_simp; ring, Real.exp_sub,
      Real.exp_log (by positivity), ← Real.rpow_def_of_pos hx]
  simp only [Spec.stabilised, Spec.fittedWeibull, e]
  rw [show (i : ℝ) + 1 - 1 / 2 = i + 1 / 2 by ring]

theorem stabilised_mono : Monotone Spec.stabilised := by
  intro a b hab
  unfold Spec.stabilised
  have := Real.monotone_arcsin (Real.sqrt_le_sqrt hab)
  have := Real.pi_pos
  gcongr

theorem stabilised_quarter : Spec.stabilised (1 / 4) = 1 / 3 := by
  have h : √(1 / 4 : ℝ) = 1 / 2 := by
    rw [show (1 / 4 : ℝ) = (1 / 2) ^ 2 by norm_num, Real.sqrt_sq (by norm_num)]
  have h6 : Real.arcsin (1 / 2) = Real.pi / 6 := by
    rw [← Real.sin_pi_div_six]
    exact Real.arcsin_sin (by linarith [Real.pi_pos]) (by linarith [Real.pi_pos])
  rw [Spec.stabilised, h, h6]
  have := Real.pi_pos
  field_simp
  norm_num

theorem stabilised_three_quarters : Spec.stabilised (3 / 4) = 2 / 3 := by
  have h : √(3 / 4 : ℝ) = √3 / 2 := by
    rw [Real.sqrt_div (by norm_num), show (4 : ℝ) = 2 ^ 2 by norm_num, Real.sqrt_sq (by norm_num)]
  have h6 : Real.arcsin (√3 / 2) = Real.pi / 3 := by
    rw [← Real.sin_pi_div_three]
    exact Real.arcsin_sin (by linarith [Real.pi_pos]) (by linarith [Real.pi_pos])
  rw [Spec.stabilised, h, h6]
  have := Real.pi_pos
  field_simp

theorem fittedWeibull_mono {t : ℝ} (ht : 0 < t) {xs : List ℝ} (h : ∀ x ∈ xs, 0 < x) {x y : ℝ} (hx : 0 ≤ x) (hxy : x ≤ y) :
    Spec.fittedWeibull t xs x ≤ Spec.fittedWeibull t xs y := by
  have hsum : 0 ≤ (xs.map fun y => y ^ t).sum := by
    refine List.sum_nonneg ?_
    simp only [List.mem_map]
    rintro _ ⟨x, hx, rfl⟩
    exact (Real.rpow_pos_of_pos (h x hx) t).le
  unfold Spec.fittedWeibull
  have := Real.rpow_le_rpow hx hxy ht.le
  gcongr

/-- **C98 is false** (every sample): however well a sample of at least two observations fits, the value is at least 1/6. -/
theorem C98_refuted_bound (min : Minimizer) (hmin : ∀ y, 0 < min y) (p : Weibull.Params) {xs : List ℝ}
    (hn : 2 ≤ xs.length) (h : ∀ x ∈ xs, 0 < x) :
    ∃ v, WeibullStat.spp.value min p (.list xs) = .ok v ∧ 1 / 6 ≤ v := by
  have hne : xs ≠ [] := by rintro rfl; simp at hn
  have hlen : (sort xs).length = xs.length := length_sort xs
  rw [weibull_spp]
  simp only [Sample.values]
  rw [spp_eq min hne h rfl (hmin _).ne']
  set t := min (sort (xs.map fun x => -Real.log x)) with ht
  have ht0 : 0 < t := hmin _
  obtain ⟨v, hv⟩ := npMax_exists (l := (sort xs).reverse.mapIdx fun i x =>
      |Spec.stabilised (((i : ℝ) + 1 / 2) / xs.length) - Spec.stabilised (Spec.fittedWeibull t xs x)|)
      (by simpa using sort_ne_nil hne)
  refine ⟨v, hv, ?_⟩
  have hle := (npMax_eq_ok.1 hv).2
  have h0 := hle _ (List.getElem_mem (n := 0) (by simp [hlen]; omega))
  have h1 := hle _ (List.getElem_mem (n := xs.length - 1) (by simp [hlen]; omega))
  simp only [List.getElem_mapIdx, List.getElem_reverse] at h0 h1
  have hm : ∀ i (hi : i < (sort xs).length), 0 < (sort xs)[i] := fun i hi =>
    h _ ((sort_perm xs).mem_iff.1 (List.getElem_mem hi))
  have hs := stabilised_mono (fittedWeibull_mono ht0 h (hm ((sort xs).length - 1 - (xs.length - 1)) (by omega)).le
    (y := (sort xs)[(sort xs).length - 1 - 0]'(by omega))
    (List.pairwise_iff_getElem.1 (sort_pairwise xs) _ _ _ _ (by omega)))
  have hn' : (2 : ℝ) ≤ xs.length := by exact_mod_cast hn
  have r0 : Spec.stabilised ((((0 : ℕ) : ℝ) + 1 / 2) / xs.length) ≤ 1 / 3 := by
    rw [← stabilised_quarter]
    refine stabilised_mono ?_
    rw [div_le_div_iff₀ (by linarith) (by norm_num)]
    push_cast
    linarith
  have r1 : 2 / 3 ≤ Spec.stabilised ((((xs.length - 1 : ℕ) : ℝ) + 1 / 2) / xs.length) := by
    rw [← stabilised_three_quarters]
    refine stabilised_mono ?_
    rw [div_le_div_iff₀ (by norm_num) (by linarith), Nat.cast_sub (by omega)]
    push_cast
    linarith
  have a0 := (abs_le.1 h0).1
  have a1 := (abs_le.1 h1).2
  linarith

example : ∃ v, WeibullStat.spp.value (fun _ => 1) ⟨1, 1⟩ (.list [1, 2, 3]) = .ok v ∧ 1 / 6 ≤ v :=
  C98_refuted_bound _ (by simp) _ (by simp) (by simp)

theorem fittedWeibull_lt {t : ℝ} (ht : 0 < t) {xs : List ℝ} (hne : xs ≠ []) (h : ∀ x ∈ xs, 0 < x) {x y : ℝ} (hx : 0 < x)
    (hxy : x < y) : 0 ≤ Spec.fittedWeibull t xs x ∧ Spec.fittedWeibull t xs x < Spec.fittedWeibull t xs y ∧
      Spec.fittedWeibull t xs y ≤ 1 := by
  have hn : (0 : ℝ) < xs.length := by exact_mod_cast List.length_pos_iff.2 hne
  have hsum : 0 < (xs.map fun y => y ^ t).sum := by
    refine List.sum_pos _ ?_ (by simpa using hne)
    simp only [List.mem_map]
    rintro _ ⟨x, hx, rfl⟩
    exact Real.rpow_pos_of_pos (h x hx) t
  have hxt := Real.rpow_pos_of_pos hx t
  have hlt := Real.rpow_lt_rpow hx.le hxy ht
  have hq : 0 < (xs.map fun y => y ^ t).sum / xs.length := by positivity
  unfold Spec.fittedWeibull
  refine ⟨?_, ?_, ?_⟩
  · have : Real.exp (-(x ^ t / ((xs.map fun y => y ^ t).sum / xs.length))) ≤ 1 :=
      Real.exp_le_one_iff.2 (neg_nonpos.2 (by positivity))
    linarith
  · have := Real.exp_lt_exp.2 (neg_lt_neg (div_lt_div_of_pos_right hlt hq))
    linarith
  · have := Real.exp_pos (-(y ^ t / ((xs.map fun y => y ^ t).sum / xs.length)))
    linarith

theorem stabilised_lt {a b : ℝ} (ha : 0 ≤ a) (hab : a < b) (hb : b ≤ 1) : Spec.stabilised a < Spec.stabilised b := by
  unfold Spec.stabilised
  have h1 : √a < √b := Real.sqrt_lt_sqrt ha hab
  have h2 : √b ≤ 1 := Real.sqrt_le_one.2 hb
  have h0 := Real.sqrt_nonneg a
  have := Real.strictMonoOn_arcsin ⟨by linarith, by linarith⟩ ⟨by linarith, h2⟩ h1
  have := Real.pi_pos
  have h2 : 0 < 2 / Real.pi := by positivity
  exact mul_lt_mul_of_pos_left ‹_› h2

/-- **C98 is false** (two observations): for every pair of different observations and every outcome of the
optimisation the value exceeds the largest distance of the plot from the diagonal. -/
theorem C98_refuted (min : Minimizer) (hmin : ∀ y, 0 < min y) (p : Weibull.Params) {x y : ℝ} (hx : 0 < x) (hxy : x < y) :
    ∃ v t, WeibullStat.spp.value min p (.list [x, y]) = .ok v ∧ 0 < t ∧ (∃ D, Spec.IsPlotDeviation t [x, y] D) ∧
      ∀ D, Spec.IsPlotDeviation t [x, y] D → D < v := by
  have hpos : ∀ z ∈ [x, y], 0 < z := by simp; exact ⟨hx, hx.trans hxy⟩
  have hsort : sort [x, y] = [x, y] := sort_of_sorted (by simpa using hxy.le)
  set t := min (sort ([x, y].map fun x => -Real.log x)) with ht
  have ht0 : 0 < t := hmin _
  obtain ⟨f0, flt, f1⟩ := fittedWeibull_lt ht0 (by simp) hpos hx hxy
  have hs := stabilised_lt f0 flt f1
  have e : WeibullStat.spp.value min p (.list [x, y]) = .ok
      (max |1 / 3 - Spec.stabilised (Spec.fittedWeibull t [x, y] y)|
        |2 / 3 - Spec.stabilised (Spec.fittedWeibull t [x, y] x)|) := by
    rw [weibull_spp]
    simp only [Sample.values]
    rw [spp_eq min (by simp) hpos rfl ht0.ne', ← npMax_pair, hsort]
    simp only [List.reverse_cons, List.reverse_nil, List.nil_append, List.cons_append, List.mapIdx_cons, List.mapIdx_nil,
      List.length_cons, List.length_nil, ← ht]
    rw [← stabilised_quarter, ← stabilised_three_quarters]
    norm_num
  have key : ∀ D, Spec.IsPlotDeviation t [x, y] D ↔ D = max |1 / 3 - Spec.stabilised (Spec.fittedWeibull t [x, y] x)|
        |2 / 3 - Spec.stabilised (Spec.fittedWeibull t [x, y] y)| := by
    have hset : ∀ ys : List ℝ, ys = [x, y] → {d | ∃ (i : ℕ) (h : i < ys.length),
      d = |Spec.stabilised (((i : ℝ) + 1 / 2) / [x, y].length) - Spec.stabilised (Spec.fittedWeibull t [x, y] ys[i])|} =
      {|1 / 3 - Spec.stabilised (Spec.fittedWeibull t [x, y] x)|,
        |2 / 3 - Spec.stabilised (Spec.fittedWeibull t [x, y] y)|} := by
      rintro _ rfl
      rw [← stabilised_quarter, ← stabilised_three_quarters]
      ext d
      simp only [Set.mem_ofPred_eq, Set.mem_insert_iff, Set.mem_singleton_iff]
      constructor
      · rintro ⟨i, hi, rfl⟩
        have : i = 0 ∨ i = 1 := by simp at hi; omega
        rcases this with rfl | rfl
        · left; norm_num
        · right; norm_num
      · rintro (rfl | rfl)
        · exact ⟨0, by simp, by norm_num⟩
        · exact ⟨1, by simp, by norm_num⟩
    intro D
    constructor
    · rintro ⟨ys, hp, hsd, hg⟩
      have hys : ys = [x, y] := List.Perm.eq_of_pairwise (le := (· ≤ ·)) (fun a b _ _ h1 h2 => le_antisymm h1 h2) hsd
        (by simpa using hxy.le) hp
      rw [hset ys hys] at hg
      exact hg.unique isGreatest_pair
    · rintro rfl
      refine ⟨[x, y], List.Perm.refl _, by simpa using hxy.le, ?_⟩
      rw [hset _ rfl]
      exact isGreatest_pair
  refine ⟨_, t, e, ht0, ⟨_, (key _).2 rfl⟩, fun D hD => ?_⟩
  rw [(key D).1 hD]
  generalize Spec.stabilised (Spec.fittedWeibull t [x, y] x) = a at *
  generalize Spec.stabilised (Spec.fittedWeibull t [x, y] y) = b at *
  rw [max_lt_iff, lt_max_iff, lt_max_iff]
  constructor
  · rcases le_total (1 / 3) a with h | h
    · left; rw [abs_of_nonpos (by linarith), abs_of_nonpos (by linarith)]; linarith
    · right; rw [abs_of_nonneg (by linarith), abs_of_nonneg (by linarith)]; linarith
  · rcases le_total (2 / 3) b with h | h
    · left; rw [abs_of_nonpos (by linarith), abs_of_nonpos (by linarith)]; linarith
    · right; rw [abs_of_nonneg (by linarith), abs_of_nonneg (by linarith)]; linarith

example : ∃ v t, WeibullStat.spp.value (fun _ => 1) ⟨1, 1⟩ (.list [1, 4]) = .ok v ∧ 0 < t ∧
    (∃ D, Spec.IsPlotDeviation t [1, 4] D) ∧ ∀ D, Spec.IsPlotDeviation t [1, 4] D → D < v :=
  C98_refuted _ (by simp) _ (by norm_num) (by norm_num)

/-! ### C99: ranges -/

theorem cdf_mono {a k : ℝ} (ha : 0 ≤ a) (hk : 0 ≤ k) : Monotone (Weibull.cdf a k) := by
  intro x y hxy
  unfold Weibull.cdf
  have hb : ∀ z : ℝ, 0 < z → 0 ≤ 1 - Real.exp (-z ^ k) := fun z hz => by
    have := Real.exp_le_one_iff.2 (neg_nonpos.2 (Real.rpow_nonneg hz.le k))
    linarith
  split_ifs with h1 h2 h2
  · exact le_rfl
  · exact Real.rpow_nonneg (hb y (not_le.1 h2)) a
  · exact absurd (hxy.trans h2) h1
  · refine Real.rpow_le_rpow (hb x (not_le.1 h1)) ?_ ha
    have := Real.rpow_le_rpow (not_le.1 h1).le hxy hk
    have := Real.exp_le_exp.2 (neg_le_neg this)
    linarith

theorem pearson_nonneg' : ∀ {o e : List ℝ}, (∀ x ∈ e, 0 ≤ x) → 0 ≤ pearson o e
  | [], _, _ => by simp [pearson]
  | _ :: _, [], _ => by simp [pearson]
  | x :: o, y :: e, h => by
    have := pearson_nonneg' (o := o) (e := e) fun z hz => h z (by simp [hz])
    have hy := h y (by simp)
    simp only [pearson, List.zipWith_cons_cons, List.sum_cons] at this ⊢
    have : 0 ≤ (x - y) ^ 2 / y := by positivity
    linarith

theorem npDiff_nonneg' : ∀ {l : List ℝ}, l.Pairwise (· ≤ ·) → ∀ x ∈ npDiff l, 0 ≤ x
  | [], _ => by simp [npDiff]
  | [_], _ => by simp [npDiff]
  | a :: b :: l, h => by
    have ih := npDiff_nonneg' (List.pairwise_cons.1 h).2
    have := (List.pairwise_cons.1 h).1 b (by simp)
    simp only [npDiff, List.mem_cons]
    rintro x (rfl | hx)
    · linarith
    · exact ih x hx

/-- **C99**: the range of each of these Weibull statistics, for every sample.  The Smith-Bain statistic is `n` times one minus
a squared correlation; REJG is a power of a correlation; the others are squares or sums of squares. -/
theorem C99_weibull (min : Minimizer) (hmin : ∀ y, min y ≠ 0) (p : Weibull.Params) {xs : List ℝ} (hne : xs ≠ [])
    (h : ∀ x ∈ xs, 0 < x) :
    (∃ v, WeibullStat.rsb.value min p (.list xs) = .ok v ∧ 0 ≤ v ∧ v ≤ xs.length) ∧
    (∃ v, WeibullStat.rejg.value min p (.list xs) = .ok v ∧ 0 ≤ v ∧ v ≤ 1) ∧
    (∃ v, WeibullStat.sb.value min p (.list xs) = .ok v ∧ 0 ≤ v) ∧
    (∃ v, WeibullStat.sbSmall.value min p (.list xs) = .ok v ∧ 0 ≤ v) ∧
    (∃ v, WeibullStat.st1.value min p (.list xs) = .ok v ∧ 0 ≤ v) ∧
    (∃ v, WeibullStat.st2.value min p (.list xs) = .ok v ∧ 0 ≤ v) ∧
    (∃ v, WeibullStat.cabanaQuiroz.value min p (.ndarray xs) = .ok v ∧ 0 ≤ v) := by
  have hsb : 0 ≤ Weibull.sb xs := div_nonneg (by positivity) (devSq_nonneg _)
  refine ⟨⟨_, rfl, ?_, ?_⟩, ?_, ⟨_, weibull_sb min p (.list xs), hsb⟩, ⟨_, rfl, hsb⟩, ⟨_, rfl, sq_nonneg _⟩,
    ⟨_, rfl, sq_nonneg _⟩, ⟨_, rfl, ?_⟩⟩
  · simp only [Sample.values]
    rw [rsb_eq, div_div]
    have := div_le_one_of_le₀ (devSum_sq_le (xs.map Real.log) (Weibull.rsbScores xs.length))
      (mul_nonneg (devSq_nonneg _) (devSq_nonneg _))
    exact mul_nonneg (by positivity) (by linarith)
  · simp only [Sample.values]
    rw [rsb_eq, div_div]
    have : 0 ≤ devSum (xs.map Real.log) (Weibull.rsbScores xs.length) ^ 2 /
        (devSq (xs.map Real.log) * devSq (Weibull.rsbScores xs.length)) :=
      div_nonneg (sq_nonneg _) (mul_nonneg (devSq_nonneg _) (devSq_nonneg _))
    exact mul_le_of_le_one_right (by positivity) (by linarith)
  · refine ⟨_, (weibull_rejg min p (.list xs)).trans (rejg_eq min hne h (hmin _)), sq_nonneg _, ?_⟩
    have h1 := div_le_one_of_le₀ (devSum_sq_le (Weibull.logs xs) (rejgScores xs.length))
      (mul_nonneg (devSq_nonneg _) (devSq_nonneg _))
    have h0 : 0 ≤ devSum (Weibull.logs xs) (rejgScores xs.length) ^ 2 /
        (devSq (Weibull.logs xs) * devSq (rejgScores xs.length)) :=
      div_nonneg (sq_nonneg _) (mul_nonneg (devSq_nonneg _) (devSq_nonneg _))
    exact pow_le_one₀ h0 h1
  · refine mul_nonneg (by norm_num) ?_
    generalize √(xs.length : ℝ) * (mean (xs.map fun v => Real.exp (-v * (-1 / 10))) - Real.Gamma (1 - -1 / 10)) = a
    generalize √(xs.length : ℝ) * (mean (xs.map fun v => Real.exp (-v * (2 / 100))) - Real.Gamma (1 - 2 / 100)) = b
    nlinarith [sq_nonneg (a - 91 / 53 * b), sq_nonneg b]

example : ∃ v, WeibullStat.rsb.value (fun _ => 1) ⟨1, 1⟩ (.list [1, 2, 3]) = .ok v ∧ 0 ≤ v ∧ v ≤ ([1, 2, 3] : List ℝ).length :=
  (C99_weibull _ (by simp) _ (by simp) (by simp)).1

theorem pairwise_equalEdges {a b : ℝ} (hab : a ≤ b) (k : ℕ) : (equalEdges a b k).Pairwise (· ≤ ·) := by
  unfold equalEdges
  rw [List.pairwise_map]
  refine List.pairwise_lt_range.imp fun {i j} hij => ?_
  have : (i : ℝ) ≤ j := by exact_mod_cast hij.le
  have : 0 ≤ (b - a) / k := div_nonneg (by linarith) (by positivity)
  nlinarith

/-- **C99** for the statistics that compare with the hypothesised distribution function: Pearson's statistic is not negative
if the parameters are positive, and neither is the statistic of Liao and Shimokawa. -/
theorem C99_weibull_edf (min : Minimizer) (p : Weibull.Params) (ha : 0 < p.a) (hk : 0 < p.k) {xs : List ℝ} (hne : xs ≠ []) :
    (∃ v, WeibullStat.chi2.value min p (.list xs) = .ok v ∧ 0 ≤ v) ∧
    (∃ v, WeibullStat.liaoShimokawa.value min p (.list xs) = .ok v ∧ 0 ≤ v) := by
  refine ⟨⟨_, rfl, ?_⟩, ⟨_, rfl, ?_⟩⟩
  · have hle : (sort xs).headD 0 ≤ (sort xs).getLastD 0 := by
      obtain ⟨x, l, hl⟩ := List.exists_cons_of_ne_nil (sort_ne_nil hne)
      have hs := sort_pairwise xs
      rw [hl] at hs ⊢
      rw [List.headD_cons, List.getLastD_eq_getLast?, List.getLast?_eq_some_getLast (List.cons_ne_nil x l), Option.getD_some]
      rcases List.mem_cons.1 (List.getLast_mem (List.cons_ne_nil x l)) with h | h
      · rw [h]
      · exact (List.pairwise_cons.1 hs).1 _ h
    have hp : (Weibull.rangeEdges ⌈√(xs.length : ℝ)⌉.toNat xs).Pairwise (· ≤ ·) := by
      simp only [Weibull.rangeEdges]
      by_cases he : (sort xs).headD 0 = (sort xs).getLastD 0
      · rw [if_pos he]; exact pairwise_equalEdges (by linarith) _
      · rw [if_neg he]; exact pairwise_equalEdges hle _
    refine pearson_nonneg' (npDiff_nonneg' ?_)
    rw [List.pairwise_map]
    exact hp.imp fun hab => cdf_mono ha.le hk.le hab
  · refine div_nonneg (List.sum_nonneg ?_) (Real.sqrt_nonneg _)
    intro v hv
    obtain ⟨i, hi, rfl⟩ := List.getElem_of_mem hv
    rw [List.getElem_mapIdx]
    refine div_nonneg ?_ (Real.sqrt_nonneg _)
    generalize (Weibull.vals p (Sample.list xs).values)[i]'(by simpa using hi) = u
    have hn : (0 : ℝ) ≤ (Weibull.vals p (Sample.list xs).values).length := by positivity
    generalize (((Weibull.vals p (Sample.list xs).values).length : ℕ) : ℝ) = n at *
    have : (i : ℝ) / n ≤ ((i : ℝ) + 1) / n := div_le_div_of_nonneg_right (by linarith) hn
    rcases le_total u (i / n) with h | h
    · exact le_max_of_le_left (by linarith)
    · exact le_max_of_le_right (by linarith)

example : ∃ v, WeibullStat.chi2.value (fun _ => 1) ⟨1, 2⟩ (.list [1, 2, 3]) = .ok v ∧ 0 ≤ v :=
  (C99_weibull_edf _ _ (by norm_num) (by norm_num) (by simp)).1

/-! ### C92: the shape parameter -/

theorem vals_power (a : ℝ) {k : ℝ} (hk : 0 < k) {xs : List ℝ} (h : ∀ x ∈ xs, 0 < x) :
    Weibull.vals ⟨a, k⟩ xs = Weibull.vals ⟨a, 1⟩ (xs.map fun x => x ^ k) := by
  have hs : sort (xs.map fun x => x ^ k) = (sort xs).map fun x => x ^ k := by
    refine List.Perm.eq_of_pairwise (le := (· ≤ ·)) (fun a b _ _ h1 h2 => le_antisymm h1 h2)
      (sort_pairwise _) ?_ ((sort_perm _).trans ((sort_perm xs).map _).symm)
    rw [List.pairwise_map]
    exact (sort_pairwise xs).imp_of_mem fun {a b} ha _ hab =>
      Real.rpow_le_rpow (h a ((sort_perm xs).mem_iff.1 ha)).le hab hk.le
  simp only [Weibull.vals, hs, List.map_map]
  refine List.map_congr_left fun x hx => ?_
  have hx := h x ((sort_perm xs).mem_iff.1 hx)
  simp only [Function.comp_apply, Weibull.cdf]
  rw [if_neg (not_le.2 hx), if_neg (not_le.2 (Real.rpow_pos_of_pos hx k)), Real.rpow_one]

/-- The criteria of the Weibull family that see the sample only through the hypothesised distribution function. -/
inductive _root_.Pysatl.Weibull.WeibullStat.OfVals : WeibullStat → Prop
  | ks (t) : OfVals (.ks t)
  | lilliefors : OfVals .lilliefors
  | cvm : OfVals .cvm
  | watson : OfVals .watson
  | minToshiyuki : OfVals .minToshiyuki
  | mahdiDoostparast : OfVals .mahdiDoostparast
  | liaoShimokawa : OfVals .liaoShimokawa

/-- **C92** for the Weibull family: testing a sample for shape `k` is testing the `k`-th powers for shape one. -/
theorem C92_weibull (min : Minimizer) (a : ℝ) {k : ℝ} (hk : 0 < k) {s : WeibullStat} (hs : s.OfVals) {xs : List ℝ}
    (h : ∀ x ∈ xs, 0 < x) :
    s.value min ⟨a, k⟩ (.list xs) = s.value min ⟨a, 1⟩ (.list (xs.map fun x => x ^ k)) := by
  cases hs <;> simp only [WeibullStat.value, Sample.values, vals_power a hk h]

example : WeibullStat.cvm.value (fun _ => 1) ⟨1, 2⟩ (.list [1, 2, 3]) =
    WeibullStat.cvm.value (fun _ => 1) ⟨1, 1⟩ (.list ([1, 2, 3].map fun x => x ^ (2 : ℝ))) :=
  C92_weibull _ _ (by norm_num) .cvm (by simp)

/-! ### C90: distribution freeness for the three families -/

/-- The class as a statistic of the transformed sample. -/
def _root_.Pysatl.Weibull.WeibullStat.edf : WeibullStat → Option EdfStat
  | .ks t => some (.ks t)
  | .lilliefors => some (.ks .twoTailed)
  | .cvm => some .cvm
  | .watson => some .watson
  | .minToshiyuki => some .minToshiyuki
  | _ => none

theorem weibull_edf (min : Minimizer) (p : Weibull.Params) {s : WeibullStat} {e : EdfStat} (hs : s.edf = some e) (x : Sample ℝ) :
    s.value min p x = e.value (Weibull.cdf p.a p.k) x.values := by
  rw [EdfStat.value_eq]
  cases s <;> simp only [WeibullStat.edf, Option.some.injEq, reduceCtorEq] at hs <;> subst hs <;> rfl

open MeasureTheory Spec in
/-- **C90** for the Weibull family: under the hypothesis the law of the statistic does not depend on the shape
parameters. -/
theorem C90_weibull {Ω Ω' : Type} [MeasurableSpace Ω] [MeasurableSpace Ω'] {P : Measure Ω} {Q : Measure Ω'} {n : ℕ}
    {X : Fin n → Ω → ℝ} {Y : Fin n → Ω' → ℝ} (min : Minimizer) (p q : Weibull.Params) {s : WeibullStat} {e : EdfStat}
    (hs : s.edf = some e) (hX : ContinuousSample P (Weibull.cdf p.a p.k) X)
    (hY : ContinuousSample Q (Weibull.cdf q.a q.k) Y) (c : ℝ) :
    P {ω | ∃ d ≤ c, s.value min p (.list (observed X ω)) = .ok d} =
      Q {ω | ∃ d ≤ c, s.value min q (.list (observed Y ω)) = .ok d} := by
  simp only [weibull_edf min _ hs, Sample.values]
  exact C90_distribution_free hX hY e c

end Pysatl.Props
