import Mathlib.Analysis.SpecialFunctions.Pow.Deriv
import Mathlib.Analysis.SpecialFunctions.Log.Deriv
import Mathlib.Analysis.Calculus.LocalExtr.Basic
import Mathlib.Topology.Order.IntermediateValue
import Mathlib.Analysis.Complex.ExponentialBounds
import Verif.Props.Likelihood

/-!
# The Weibull likelihood and the selection of a likelihood function

The Weibull function solves the wrong equation for the shape, so the value it returns is not the
largest Weibull likelihood (C78, refuted).  C71 and C79: the selection loop and its two callers.
-/

namespace Pysatl.Props

open Pysatl Pysatl.Graph Pysatl.Spec Pysatl.Likelihood

/-! ### Weibull -/

/-- The best scale for a given shape. -/
noncomputable def bestScale (d : List ℝ) (k : ℝ) : ℝ :=
  ((d.map fun x => x ^ k).sum / d.length) ^ (1 / k)

/-- Logarithm of the likelihood at shape `k` and the best scale. -/
noncomputable def profile (d : List ℝ) (k : ℝ) : ℝ :=
  d.length * Real.log k - d.length * Real.log ((d.map fun x => x ^ k).sum / d.length) +
    (k - 1) * (d.map Real.log).sum - d.length

theorem pow_sum_pos {d : List ℝ} (hne : d ≠ []) (hpos : ∀ x ∈ d, 0 < x) (k : ℝ) :
    0 < (d.map fun x => x ^ k).sum := by
  apply List.sum_pos
  · simp only [List.mem_map]
    rintro _ ⟨x, hx, rfl⟩
    exact Real.rpow_pos_of_pos (hpos x hx) k
  · simpa using hne

theorem bestScale_pow {d : List ℝ} (hne : d ≠ []) (hpos : ∀ x ∈ d, 0 < x) {k : ℝ} (hk : 0 < k) :
    (bestScale d k) ^ k = (d.map fun x => x ^ k).sum / d.length := by
  have hn : (0 : ℝ) < d.length := by exact_mod_cast List.length_pos_iff.2 hne
  unfold bestScale
  rw [← Real.rpow_mul (div_pos (pow_sum_pos hne hpos k) hn).le, one_div_mul_cancel hk.ne', Real.rpow_one]

theorem bestScale_pos {d : List ℝ} (hne : d ≠ []) (hpos : ∀ x ∈ d, 0 < x) (k : ℝ) :
    0 < bestScale d k := by
  have hn : (0 : ℝ) < d.length := by exact_mod_cast List.length_pos_iff.2 hne
  exact Real.rpow_pos_of_pos (div_pos (pow_sum_pos hne hpos k) hn) _

theorem weibullPdf_pos {θ : ℝ × ℝ} (h1 : 0 < θ.1) (h2 : 0 < θ.2) {x : ℝ} (hx : 0 < x) :
    0 < weibullPdf θ x := by
  unfold weibullPdf
  rw [if_pos hx]
  have := Real.rpow_pos_of_pos (div_pos hx h2) (θ.1 - 1)
  positivity

theorem log_weibull {k lam x : ℝ} (hk : 0 < k) (hl : 0 < lam) (hx : 0 < x) :
    Real.log (weibullPdf (k, lam) x) =
      (k - 1) * Real.log x + (-(1 / lam ^ k)) * x ^ k + (Real.log k - k * Real.log lam) := by
  unfold weibullPdf
  have h1 := Real.rpow_pos_of_pos (div_pos hx hl) (k - 1)
  rw [if_pos hx, Real.log_mul (by positivity) (by positivity), Real.log_mul (by positivity) h1.ne',
    Real.log_exp, Real.log_rpow (div_pos hx hl), Real.log_div hk.ne' hl.ne',
    Real.log_div hx.ne' hl.ne', Real.div_rpow hx.le hl.le]
  ring

theorem log_likelihood_weibull {d : List ℝ} (hne : d ≠ []) (hpos : ∀ x ∈ d, 0 < x) {k : ℝ} (hk : 0 < k) :
    (d.map fun x => Real.log (weibullPdf (k, bestScale d k) x)).sum = profile d k := by
  have hl := bestScale_pos hne hpos k
  have hn : (0 : ℝ) < d.length := by exact_mod_cast List.length_pos_iff.2 hne
  have hs := pow_sum_pos hne hpos k
  rw [sum_eq_lin Real.log (fun x => x ^ k) (k - 1) (-(1 / bestScale d k ^ k))
    (Real.log k - k * Real.log (bestScale d k)) (fun x hx => log_weibull hk hl (hpos x hx)),
    ← Real.log_rpow hl, bestScale_pow hne hpos hk]
  unfold profile
  have : 1 / ((d.map fun x => x ^ k).sum / d.length) * (d.map fun x => x ^ k).sum = d.length := by
    generalize (d.map fun x => x ^ k).sum = S at hs
    field_simp
  rw [neg_mul, this]
  have e : (d.map fun x => Real.log x).sum = (d.map Real.log).sum := rfl
  ring

theorem powSum_deriv {d : List ℝ} (hpos : ∀ x ∈ d, 0 < x) (k : ℝ) :
    HasDerivAt (fun k : ℝ => (d.map fun x => x ^ k).sum) (d.map fun x => x ^ k * Real.log x).sum k := by
  induction d with
  | nil => simpa using hasDerivAt_const k (0 : ℝ)
  | cons x d ih =>
    have h1 : HasDerivAt (fun k : ℝ => x ^ k) (x ^ k * Real.log x) k := by
      have := (hasDerivAt_id k).const_rpow (hpos x (by simp))
      simpa [mul_comm] using this
    have h2 := h1.add (ih fun y hy => hpos y (by simp [hy]))
    exact h2

theorem profile_deriv {d : List ℝ} (hne : d ≠ []) (hpos : ∀ x ∈ d, 0 < x) {k : ℝ} (hk : 0 < k) :
    HasDerivAt (profile d)
      (d.length * (weibullG d k + Real.log ((d.map fun x => x ^ k).sum / d.length) / k)) k := by
  have hn : (0 : ℝ) < d.length := by exact_mod_cast List.length_pos_iff.2 hne
  have hs := pow_sum_pos hne hpos k
  have h1 := (Real.hasDerivAt_log hk.ne').const_mul (d.length : ℝ)
  have h2 := ((((powSum_deriv hpos k).div_const (d.length : ℝ)).log (div_pos hs hn).ne').const_mul
    (d.length : ℝ))
  have h3 := ((hasDerivAt_id k).sub_const 1).mul_const ((d.map Real.log).sum)
  have h4 := (((h1.sub h2).add h3).sub_const (d.length : ℝ))
  have e : (d.length : ℝ) * (weibullG d k + Real.log ((d.map fun x => x ^ k).sum / d.length) / k) =
      d.length * k⁻¹ - d.length * ((d.map fun x => x ^ k * Real.log x).sum / d.length /
        ((d.map fun x => x ^ k).sum / d.length)) + 1 * (d.map Real.log).sum := by
    unfold weibullG
    simp only
    generalize (d.map fun x => x ^ k).sum = S at hs ⊢
    generalize (d.map fun x => x ^ k * Real.log x).sum = T
    generalize (d.map Real.log).sum = A
    generalize Real.log (S / (d.length : ℝ)) = C
    field_simp
    ring
  rw [e]
  exact h4

/-- **C78, refuted** for the Weibull family, on every sample of values above 1: whatever exact
zero of its equation the root search finds, the value returned is smaller than the likelihood of
another Weibull distribution. -/
theorem C78_refuted_weibull {d : List ℝ} (hne : d ≠ []) (h1 : ∀ x ∈ d, 1 < x)
    (hsign : weibullG d (1 / 10) * weibullG d 10 ≤ 0) {root : (ℝ → ℝ) → ℝ}
    (hroot : 1 / 10 ≤ root (weibullG d) ∧ weibullG d (root (weibullG d)) = 0) :
    ∃ r : ℝ, weibull root d = .ok (r : Num) ∧
      ∃ L ∈ likelihoods (fun θ : ℝ × ℝ => 0 < θ.1 ∧ 0 < θ.2) weibullPdf d, r < L := by
  have hpos : ∀ x ∈ d, 0 < x := fun x hx => one_pos.trans (h1 x hx)
  obtain ⟨hk1, hk0⟩ := hroot
  generalize hkk : root (weibullG d) = k at *
  have hk : 0 < k := by linarith
  have hn : (0 : ℝ) < d.length := by exact_mod_cast List.length_pos_iff.2 hne
  have wpos : ∀ k : ℝ, 0 < k → ∀ x ∈ d, 0 < weibullPdf (k, bestScale d k) x := fun k hk x hx =>
    weibullPdf_pos hk (bestScale_pos hne hpos k) (hpos x hx)
  refine ⟨likelihood (weibullPdf (k, bestScale d k)) d, ?_, ?_⟩
  · have hany : d.any (fun x => decide (x ≤ 0)) = false := by
      rw [List.any_eq_false]
      intro x hx
      simpa using hpos x hx
    unfold weibull
    simp only [hany, not_lt.2 hsign, hkk, bind, Except.bind, pure, Except.pure, if_false,
      Bool.false_eq_true, gt_iff_lt]
    congr 2
    unfold likelihood
    congr 1
    apply List.map_congr_left
    intro x hx
    unfold weibullPdf bestScale
    rw [if_pos (hpos x hx)]
  · by_contra hcon
    push Not at hcon
    have hmax : IsLocalMax (profile d) k := by
      filter_upwards [lt_mem_nhds hk] with k' hk'
      have h := hcon _ ⟨(k', bestScale d k'), ⟨hk', bestScale_pos hne hpos k'⟩, rfl⟩
      rw [← exp_sum_log (wpos k' hk'), ← exp_sum_log (wpos k hk), Real.exp_le_exp,
        log_likelihood_weibull hne hpos hk', log_likelihood_weibull hne hpos hk] at h
      exact h
    have hz := hmax.hasDerivAt_eq_zero (profile_deriv hne hpos hk)
    rw [hk0, zero_add] at hz
    have hc : 0 < Real.log ((d.map fun x => x ^ k).sum / d.length) := by
      apply Real.log_pos
      rw [one_lt_div hn]
      have : ∀ l : List ℝ, l ≠ [] → (∀ x ∈ l, 1 < x) → (l.length : ℝ) < (l.map fun x => x ^ k).sum := by
        intro l
        induction l with
        | nil => simp
        | cons x l ih =>
          intro _ h
          have hx := Real.one_lt_rpow (h x (by simp)) hk
          rw [List.map_cons, List.sum_cons, List.length_cons]
          push_cast
          by_cases hl : l = []
          · subst hl
            simpa using hx
          · have := ih hl (fun y hy => h y (by simp [hy]))
            linarith
      exact this d hne h1
    have : 0 < (d.length : ℝ) * (Real.log ((d.map fun x => x ^ k).sum / d.length) / k) := by positivity
    exact this.ne' hz

theorem weibullG_continuous {d : List ℝ} (hne : d ≠ []) (hpos : ∀ x ∈ d, 0 < x) :
    ContinuousOn (weibullG d) (Set.Icc (1 / 10) 10) := by
  intro k hk
  have hk0 : 0 < k := by
    have := hk.1
    linarith
  have hn : (0 : ℝ) < d.length := by exact_mod_cast List.length_pos_iff.2 hne
  have hs := pow_sum_pos hne hpos k
  have c1 : ContinuousAt (fun k : ℝ => (d.map fun x => x ^ k).sum) k := (powSum_deriv hpos k).continuousAt
  have c2 : ContinuousAt (fun k : ℝ => (d.map fun x => x ^ k * Real.log x).sum) k := by
    clear hs c1 hne hn
    induction d with
    | nil => simpa using continuousAt_const
    | cons x d ih =>
      have h1 : ContinuousAt (fun k : ℝ => x ^ k * Real.log x) k :=
        (Real.continuousAt_const_rpow (hpos x (by simp)).ne').mul continuousAt_const
      exact h1.add (ih fun y hy => hpos y (by simp [hy]))
  apply ContinuousAt.continuousWithinAt
  unfold weibullG
  exact (((continuousAt_const.sub ((c1.div_const _).log (div_pos hs hn).ne')).div continuousAt_id
    hk0.ne').add continuousAt_const).sub (c2.div c1 hs.ne')

theorem weibullG_sign : 0 < weibullG [2, 4] (1 / 10) ∧ weibullG [2, 4] 10 < 0 := by
  have l2 := Real.log_two_gt_d9
  have l2' := Real.log_two_lt_d9
  have l4 : Real.log 4 = 2 * Real.log 2 := by
    rw [show (4 : ℝ) = 2 ^ 2 by norm_num, Real.log_pow]
    norm_num
  constructor
  · have e : (4 : ℝ) ^ (1 / 10 : ℝ) = (2 : ℝ) ^ (1 / 10 : ℝ) * (2 : ℝ) ^ (1 / 10 : ℝ) := by
      rw [← Real.mul_rpow (by norm_num) (by norm_num)]
      norm_num
    have hp : 1 < (2 : ℝ) ^ (1 / 10 : ℝ) := Real.one_lt_rpow (by norm_num) (by norm_num)
    have hl : Real.log ((2 : ℝ) ^ (1 / 10 : ℝ)) = 1 / 10 * Real.log 2 := Real.log_rpow (by norm_num) _
    unfold weibullG
    simp only [List.map_cons, List.map_nil, List.sum_cons, List.sum_nil, List.length_cons,
      List.length_nil, add_zero, l4, e]
    generalize (2 : ℝ) ^ (1 / 10 : ℝ) = t at hp hl
    have hC : Real.log ((t + t * t) / ((0 + 1 + 1 : ℕ) : ℝ)) ≤ 2 * (1 / 10 * Real.log 2) := by
      rw [← hl, ← Real.log_rpow (by linarith)]
      apply Real.log_le_log
      · push_cast
        positivity
      · rw [Real.rpow_two]
        push_cast
        nlinarith
    have hB : (t * Real.log 2 + t * t * (2 * Real.log 2)) / (t + t * t) ≤ 2 * Real.log 2 := by
      rw [div_le_iff₀ (by positivity)]
      nlinarith
    generalize Real.log ((t + t * t) / ((0 + 1 + 1 : ℕ) : ℝ)) = C at hC
    generalize (t * Real.log 2 + t * t * (2 * Real.log 2)) / (t + t * t) = B at hB
    push_cast
    linarith
  · have e2 : (2 : ℝ) ^ (10 : ℝ) = 1024 := by
      rw [show (10 : ℝ) = ((10 : ℕ) : ℝ) by norm_num, Real.rpow_natCast]
      norm_num
    have e4 : (4 : ℝ) ^ (10 : ℝ) = 1048576 := by
      rw [show (10 : ℝ) = ((10 : ℕ) : ℝ) by norm_num, Real.rpow_natCast]
      norm_num
    unfold weibullG
    simp only [List.map_cons, List.map_nil, List.sum_cons, List.sum_nil, List.length_cons,
      List.length_nil, add_zero, l4, e2, e4]
    have hC : 19 * Real.log 2 ≤ Real.log ((1024 + 1048576) / ((0 + 1 + 1 : ℕ) : ℝ)) := by
      have : (19 : ℝ) * Real.log 2 = Real.log (2 ^ 19) := by
        rw [Real.log_pow]
        norm_num
      rw [this]
      apply Real.log_le_log (by positivity)
      norm_num
    generalize Real.log ((1024 + 1048576) / ((0 + 1 + 1 : ℕ) : ℝ)) = C at hC
    push_cast
    linarith

/-- The hypotheses of `C78_refuted_weibull` are met by `[2, 4]`: the equation changes sign on the
bracket, so it has a zero there. -/
example : [(2 : ℝ), 4] ≠ [] ∧ (∀ x ∈ [(2 : ℝ), 4], 1 < x) ∧
    weibullG [2, 4] (1 / 10) * weibullG [2, 4] 10 ≤ 0 ∧
    ∃ root : (ℝ → ℝ) → ℝ, 1 / 10 ≤ root (weibullG [2, 4]) ∧ weibullG [2, 4] (root (weibullG [2, 4])) = 0 := by
  obtain ⟨s1, s2⟩ := weibullG_sign
  have hpos : ∀ x ∈ [(2 : ℝ), 4], 0 < x := by
    intro x hx
    simp only [List.mem_cons, List.not_mem_nil, or_false] at hx
    rcases hx with rfl | rfl <;> norm_num
  refine ⟨by simp, ?_, (mul_neg_of_pos_of_neg s1 s2).le, ?_⟩
  · intro x hx
    simp only [List.mem_cons, List.not_mem_nil, or_false] at hx
    rcases hx with rfl | rfl <;> norm_num
  · obtain ⟨k, hk, h0⟩ := intermediate_value_Icc' (by norm_num) (weibullG_continuous (by simp) hpos)
      (⟨s2.le, s1.le⟩ : (0 : ℝ) ∈ Set.Icc (weibullG [2, 4] 10) (weibullG [2, 4] (1 / 10)))
    exact ⟨fun _ => k, hk.1, h0⟩

/-! ### Rayleigh and Wigner -/

/-- **C78**, Rayleigh. -/
theorem C78_rayleigh {d : List ℝ} (hne : d ≠ []) (h0 : ∀ x ∈ d, 0 < x) :
    ∃ r : ℝ, rayleigh d = .ok (r : Num) ∧
      IsGreatest (likelihoods (fun s : ℝ => 0 < s) rayleighPdf d) r := by
  have hn : (0 : ℝ) < d.length := by exact_mod_cast List.length_pos_iff.2 hne
  have hS : 0 < (d.map fun x => x ^ 2).sum := by
    apply List.sum_pos
    · simp only [List.mem_map]
      rintro _ ⟨x, hx, rfl⟩
      have := h0 x hx
      positivity
    · simpa using hne
  have hv : (0 : ℝ) < (d.map fun x => x ^ 2).sum / (2 * (d.length : ℝ)) := by positivity
  have hs : 0 < √((d.map fun x => x ^ 2).sum / (2 * d.length)) := Real.sqrt_pos.2 hv
  have hsq := Real.sq_sqrt hv.le
  have ppos : ∀ s : ℝ, 0 < s → ∀ x ∈ d, 0 < rayleighPdf s x := fun s h x hx => by
    have := h0 x hx
    unfold rayleighPdf
    rw [if_pos this]
    positivity
  have hsum : ∀ s : ℝ, 0 < s → (d.map fun x => Real.log (rayleighPdf s x)).sum =
      (d.map Real.log).sum - d.length * Real.log (s ^ 2) - (d.map fun x => x ^ 2).sum / (2 * s ^ 2) := by
    intro s h
    rw [sum_eq_lin Real.log (fun x => x ^ 2) 1 (-(1 / (2 * s ^ 2))) (-Real.log (s ^ 2))]
    · have e : (d.map fun x => Real.log x).sum = (d.map Real.log).sum := rfl
      ring
    · intro x hx
      have hx' := h0 x hx
      unfold rayleighPdf
      rw [if_pos hx', Real.log_mul (by positivity) (by positivity), Real.log_exp,
        Real.log_div (by positivity) (by positivity)]
      ring
  refine ⟨likelihood (rayleighPdf √((d.map fun x => x ^ 2).sum / (2 * d.length))) d, ?_, ⟨_, hs, rfl⟩, ?_⟩
  · have hany : d.any (fun x => decide (x < 0)) = false := by
      rw [List.any_eq_false]
      intro x hx
      simpa using (h0 x hx).le
    unfold rayleigh
    simp only [hany, if_false, bind, Except.bind, pure, Except.pure, Bool.false_eq_true]
    rw [← exp_sum_log (ppos _ hs)]
    congr 4
    apply List.map_congr_left
    intro x hx
    unfold rayleighPdf
    rw [if_pos (h0 x hx)]
  · rintro L ⟨s, hs', rfl⟩
    apply likelihood_le (ppos _ hs') (ppos _ hs)
    rw [hsum _ hs', hsum _ hs, hsq]
    generalize (d.map fun x => x ^ 2).sum = S at *
    have hs2 : 0 < s ^ 2 := by positivity
    have h2 := mul_le_mul_of_nonneg_left (log_ratio hv hs2) hn.le
    have e1 : (d.length : ℝ) * (S / (2 * d.length) / s ^ 2) = S / (2 * s ^ 2) := by field_simp
    have e2 : S / (2 * (S / (2 * (d.length : ℝ)))) = d.length := by field_simp
    rw [e2]
    linarith

example : [(1 : ℝ), 3] ≠ [] ∧ ∀ x ∈ [(1 : ℝ), 3], 0 < x := ⟨by simp, by simp⟩

/-- **C78, refuted** for the Wigner family: the radius is searched only up to 10 above the largest
absolute value.  On the sample `[-s, s]` with `s ≥ 25` the value returned is smaller than the
likelihood of a larger radius, wherever in its bounds the minimiser stops. -/
theorem C78_refuted_wigner {s : ℝ} (hs : 25 ≤ s) {argmin : (ℝ → ℝ) → ℝ → ℝ → ℝ}
    (hmin : ∀ f lo hi, lo ≤ hi → lo ≤ argmin f lo hi ∧ argmin f lo hi ≤ hi) :
    ∃ r : ℝ, wigner argmin [-s, s] = .ok (r : Num) ∧
      ∃ L ∈ likelihoods (fun R : ℝ => 0 < R) wignerPdf [-s, s], r < L := by
  have hm : maxAbs [-s, s] = .ok s := by
    have e1 : |-s| = s := by rw [abs_neg, abs_of_pos (by linarith)]
    have e2 : |s| = s := abs_of_pos (by linarith)
    unfold maxAbs npMax
    simp [e2, List.max?]
  obtain ⟨h1, h2⟩ := hmin (wignerNll [-s, s]) (s + 1 / 1000000) (s + 10) (by linarith)
  generalize hR : argmin (wignerNll [-s, s]) (s + 1 / 1000000) (s + 10) = R at h1 h2
  refine ⟨Real.exp (-wignerNll [-s, s] R), ?_, ?_⟩
  · have : ¬ (s = -s) := by
      intro h
      linarith
    unfold wigner
    simp only [List.all_cons, List.all_nil, this, decide_false, Bool.and_false, Bool.false_and,
      Bool.false_eq_true, if_false, hm, hR, bind, Except.bind, pure, Except.pure, decide_true]
  · have hR0 : 0 < R := by linarith
    have hs0 : 0 < s := by linarith
    have hpi := Real.pi_pos
    have hd : 0 < R ^ 2 - s ^ 2 := by nlinarith
    have hc : 0 < 2 / (Real.pi * R ^ 2) := by positivity
    have hval : Real.exp (-wignerNll [-s, s] R) = (2 / (Real.pi * R ^ 2)) ^ 2 * (R ^ 2 - s ^ 2) := by
      rw [show -wignerNll [-s, s] R = Real.log ((2 / (Real.pi * R ^ 2)) ^ 2 * (R ^ 2 - s ^ 2)) from ?_,
        Real.exp_log (by positivity)]
      rw [Real.log_mul (by positivity) hd.ne', Real.log_pow]
      unfold wignerNll
      simp only [List.map_cons, List.map_nil, List.sum_cons, List.sum_nil, List.length_cons,
        List.length_nil, neg_sq]
      push_cast
      ring
    have hlik : likelihood (wignerPdf (√2 * s)) [-s, s] =
        (2 / (Real.pi * (2 * s ^ 2))) ^ 2 * s ^ 2 := by
      have e : (√2 * s) ^ 2 = 2 * s ^ 2 := by
        rw [mul_pow, Real.sq_sqrt (by norm_num)]
      unfold likelihood wignerPdf
      simp only [List.map_cons, List.map_nil, List.prod_cons, List.prod_nil, neg_sq, e]
      rw [if_pos (by nlinarith)]
      have e2 : √(2 * s ^ 2 - s ^ 2) = s := by
        rw [show 2 * s ^ 2 - s ^ 2 = s ^ 2 by ring, Real.sqrt_sq hs0.le]
      rw [e2]
      ring
    refine ⟨_, ⟨√2 * s, by positivity, rfl⟩, ?_⟩
    rw [hval, hlik]
    have hu : R ^ 2 < 2 * s ^ 2 := by nlinarith
    have key : 4 * s ^ 2 * (R ^ 2 - s ^ 2) < (R ^ 2) ^ 2 := by
      have : 0 < (R ^ 2 - 2 * s ^ 2) ^ 2 := by
        have : R ^ 2 - 2 * s ^ 2 ≠ 0 := by linarith
        positivity
      nlinarith
    have e1 : (2 / (Real.pi * R ^ 2)) ^ 2 * (R ^ 2 - s ^ 2) =
        (2 / Real.pi) ^ 2 * ((R ^ 2 - s ^ 2) / (R ^ 2) ^ 2) := by field_simp
    have e2 : (2 / (Real.pi * (2 * s ^ 2))) ^ 2 * s ^ 2 = (2 / Real.pi) ^ 2 * (1 / (4 * s ^ 2)) := by
      field_simp
      norm_num
    rw [e1, e2]
    apply mul_lt_mul_of_pos_left _ (by positivity)
    rw [div_lt_div_iff₀ (by positivity) (by positivity)]
    linarith

example : (25 : ℝ) ≤ 100 ∧ ∃ argmin : (ℝ → ℝ) → ℝ → ℝ → ℝ,
    ∀ f lo hi, lo ≤ hi → lo ≤ argmin f lo hi ∧ argmin f lo hi ≤ hi :=
  ⟨by norm_num, fun _ lo _ => lo, fun _ _ _ h => ⟨le_refl _, h⟩⟩

/-! ### Degenerate samples -/

/-- **C78, refuted** for constant samples: with every observation equal there are normal and
uniform distributions of any likelihood whatsoever, but both functions return 0. -/
theorem C78_refuted_constant {c : ℝ} {n : ℕ} (hn : 0 < n) (B : ℝ) :
    normal (List.replicate n c) = .ok 0 ∧
    uniformContinuous (List.replicate n c) = .ok 0 ∧
    (∃ L ∈ likelihoods (fun θ : ℝ × ℝ => 0 < θ.2) normalPdf (List.replicate n c), B < L) ∧
    ∃ L ∈ likelihoods (fun θ : ℝ × ℝ => θ.1 < θ.2) uniformPdf (List.replicate n c), B < L := by
  have hpow : ∀ M : ℝ, 1 ≤ M → M ≤ M ^ n := fun M hM => le_self_pow₀ hM hn.ne'
  have hM1 : (1 : ℝ) ≤ |B| + 1 := by
    have := abs_nonneg B
    linarith
  have hM : (0 : ℝ) < |B| + 1 := by linarith
  have hB : B < |B| + 1 := by
    have := le_abs_self B
    linarith
  have hlik : ∀ f : ℝ → ℝ, f c = |B| + 1 → B < likelihood f (List.replicate n c) := by
    intro f hf
    unfold likelihood
    rw [List.map_replicate, List.prod_replicate, hf]
    exact hB.trans_le (hpow _ hM1)
  obtain ⟨m, rfl⟩ : ∃ m, n = m + 1 := ⟨n - 1, by omega⟩
  refine ⟨?_, ?_, ⟨_, ⟨(c, 1 / (2 * Real.pi * (|B| + 1) ^ 2)), ?_, rfl⟩, hlik _ ?_⟩,
    ⟨_, ⟨(c, c + 1 / (|B| + 1)), ?_, rfl⟩, hlik _ ?_⟩⟩
  · have hm : (0 : ℝ) < ((m + 1 : ℕ) : ℝ) := by positivity
    have e1 : (List.replicate (m + 1) c).sum / ((m + 1 : ℕ) : ℝ) = c := by
      rw [List.sum_replicate, nsmul_eq_mul]
      field_simp
    unfold normal
    simp only [List.length_replicate, hm.ne', if_false, e1, List.map_replicate, sub_self]
    have e2 : (List.replicate (m + 1) ((0 : ℝ) ^ 2)).sum / ((m + 1 : ℕ) : ℝ) = 0 := by
      simp
    rw [if_pos e2]
    rfl
  · have e1 : (List.replicate (m + 1) c).min? = some c := by
      simp
    have e2 : (List.replicate (m + 1) c).max? = some c := by
      simp
    unfold uniformContinuous
    simp only [npMin, npMax, e1, e2, bind, Except.bind, if_true]
    rfl
  · have := Real.pi_pos
    simp only
    positivity
  · unfold normalPdf
    have hpi := Real.pi_pos
    have e : 2 * Real.pi * (1 / (2 * Real.pi * (|B| + 1) ^ 2)) = (1 / (|B| + 1)) ^ 2 := by
      field_simp
    simp only [e, Real.sqrt_sq (one_div_pos.2 hM).le, sub_self]
    norm_num
  · have := one_div_pos.2 hM
    simp only
    linarith
  · have := one_div_pos.2 hM
    unfold uniformPdf
    rw [if_pos ⟨le_refl _, by simp only; linarith⟩]
    simp

example : [(3 : ℝ), 3] = List.replicate 2 3 ∧ 0 < 2 := ⟨rfl, by norm_num⟩

/-! ### Selection -/

theorem findLoop_spec {D : Type} (d : D) (v : Fn D → Num) : ∀ (fs : List (Fn D)) (st : Option (Fn D) × Num),
    (∀ f ∈ fs, f.call d = .ok (v f)) →
    (findLoop d fs st = .ok st ∧ ∀ f ∈ fs, v f ≤ st.2) ∨
    ∃ pre f post, fs = pre ++ f :: post ∧ findLoop d fs st = .ok (some f, v f) ∧ st.2 < v f ∧
      (∀ g ∈ pre, v g < v f) ∧ ∀ g ∈ post, v g ≤ v f
  | [], st, _ => Or.inl ⟨rfl, by simp⟩
  | f :: fs, st, hv => by
    have hf := hv f (by simp)
    have hrest : ∀ g ∈ fs, g.call d = .ok (v g) := fun g hg => hv g (by simp [hg])
    have step : findLoop d (f :: fs) st = findLoop d fs (if st.2 < v f then (some f, v f) else st) := by
      simp only [findLoop, hf, bind, Except.bind]
    rw [step]
    by_cases h : st.2 < v f
    · rw [if_pos h]
      rcases findLoop_spec d v fs (some f, v f) hrest with ⟨e, hle⟩ | ⟨pre, g, post, e, hr, hlt, h1, h2⟩
      · exact Or.inr ⟨[], f, fs, rfl, e, h, by simp, hle⟩
      · refine Or.inr ⟨f :: pre, g, post, by rw [e]; rfl, hr, h.trans hlt, ?_, h2⟩
        intro x hx
        rcases List.mem_cons.1 hx with rfl | hx
        · exact hlt
        · exact h1 x hx
    · rw [if_neg h]
      rcases findLoop_spec d v fs st hrest with ⟨e, hle⟩ | ⟨pre, g, post, e, hr, hlt, h1, h2⟩
      · refine Or.inl ⟨e, ?_⟩
        intro x hx
        rcases List.mem_cons.1 hx with rfl | hx
        · exact not_lt.1 h
        · exact hle x hx
      · refine Or.inr ⟨f :: pre, g, post, by rw [e]; rfl, hr, hlt, ?_, h2⟩
        intro x hx
        rcases List.mem_cons.1 hx with rfl | hx
        · exact (not_lt.1 h).trans_lt hlt
        · exact h1 x hx

/-- **C71** (partial: for a list of functions that all return a value).  The selection loop
returns the first of the functions with the largest positive likelihood, and nothing exactly when
none is positive. -/
theorem C71_select_partial {D : Type} (fs : List (Fn D)) (d : D) (v : Fn D → Num)
    (hv : ∀ f ∈ fs, f.call d = .ok (v f)) :
    (findMax fs d = .ok none ∧ ∀ f ∈ fs, v f ≤ 0) ∨
    ∃ pre f post, fs = pre ++ f :: post ∧ findMax fs d = .ok (some f) ∧ 0 < v f ∧
      (∀ g ∈ pre, v g < v f) ∧ ∀ g ∈ post, v g ≤ v f := by
  unfold findMax
  rcases findLoop_spec d v fs (none, 0) hv with ⟨e, hle⟩ | ⟨pre, g, post, e, hr, hlt, h1, h2⟩
  · left
    rw [e]
    exact ⟨rfl, hle⟩
  · right
    refine ⟨pre, g, post, e, ?_, hlt, h1, h2⟩
    rw [hr]
    rfl

/-- Three functions of which the second has the largest likelihood. -/
example : ∃ (fs : List (Fn ℕ)) (v : Fn ℕ → Num), fs.length = 3 ∧ ∀ f ∈ fs, f.call 7 = .ok (v f) :=
  ⟨[⟨"a", fun _ => .ok 1⟩, ⟨"b", fun _ => .ok 2⟩, ⟨"c", fun _ => .ok 0⟩],
    fun f => if f.name = "a" then 1 else if f.name = "b" then 2 else 0, rfl, by
      intro f hf
      simp only [List.mem_cons, List.not_mem_nil, or_false] at hf
      rcases hf with rfl | rfl | rfl <;> simp⟩

theorem findLoop_error {D : Type} (d : D) {e : PyErr} : ∀ (fs : List (Fn D)) (st : Option (Fn D) × Num),
    (∃ f ∈ fs, f.call d = .error e) → ∀ r, findLoop d fs st ≠ .ok r
  | [], _, h, _ => by simp at h
  | f :: fs, st, h, r => by
    obtain ⟨g, hg, he⟩ := h
    unfold findLoop
    rcases List.mem_cons.1 hg with rfl | hg
    · simp [he, bind, Except.bind]
    · cases hc : f.call d with
      | error e' => simp [bind, Except.bind]
      | ok a =>
        simp only [bind, Except.bind]
        exact findLoop_error d fs _ ⟨g, hg, he⟩ r

/-- **C71, refuted**: over the functions of the module the selection never returns. -/
theorem C71_refuted {D : Type} (impl : String → D → Except PyErr Num) (d : D) (r) :
    findMax (moduleFunctions impl) d ≠ .ok r := by
  intro h
  unfold findMax at h
  cases hc : findLoop d (moduleFunctions impl) (none, 0) with
  | error e => simp [hc, bind, Except.bind] at h
  | ok a =>
    refine findLoop_error (e := .typeError) d (moduleFunctions impl) (none, 0) ?_ a hc
    refine ⟨_, List.mem_map.2 ⟨"likelihood_function_binomial", by decide, rfl⟩, ?_⟩
    simp

/-- **C71, refuted**: when the two functions before it return, the error is a `TypeError`. -/
theorem C71_refuted_typeError {D : Type} (impl : String → D → Except PyErr Num) (d : D) {a b : Num}
    (h1 : impl "likelihood_function_bernoulli" d = .ok a) (h2 : impl "likelihood_function_beta" d = .ok b) :
    findMax (moduleFunctions impl) d = .error .typeError := by
  unfold findMax moduleFunctions moduleFunctionNames
  simp [findLoop, h1, h2, bind, Except.bind]

example : ∃ impl : String → List ℤ → Except PyErr Num,
    impl "likelihood_function_bernoulli" [1, 0] = .ok 1 ∧ impl "likelihood_function_beta" [1, 0] = .ok 0 :=
  ⟨fun n _ => if n = "likelihood_function_bernoulli" then .ok 1 else .ok 0, by simp, by simp⟩

/-- **C79, refuted**: `find_result_of_likelihood_function` never returns anything: it raises on
every sample, `ValueError` on the empty one and on every one of two or more numbers. -/
theorem C79_refuted (impl : String → List ℝ → Except PyErr Num) (d : List ℝ) :
    (∀ r, findResult impl d ≠ .ok r) ∧ (d.length ≠ 1 → findResult impl d = .error .valueError) := by
  constructor
  · intro r h
    unfold findResult at h
    cases ht : (Sample.ndarray d).truth with
    | error e => simp [ht, bind, Except.bind] at h
    | ok b =>
      cases b with
      | false => simp [ht, bind, Except.bind, throw, throwThe, MonadExceptOf.throw] at h
      | true =>
        cases hm : findMax (moduleFunctions impl) d with
        | error e => simp [ht, hm, bind, Except.bind] at h
        | ok a => exact C71_refuted impl d a hm
  · intro hlen
    unfold findResult
    match d, hlen with
    | [], _ => rfl
    | [x], h => exact absurd rfl h
    | x :: y :: l, _ => rfl

end Pysatl.Props
