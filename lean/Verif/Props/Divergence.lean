import Verif.Lemmas.Edf
import Verif.Spec.Edf
import Mathlib.Analysis.Convex.SpecificFunctions.Basic
import Mathlib.Analysis.SpecialFunctions.Pow.Deriv

set_option linter.unusedSectionVars false

/-! # C59, C60: power-divergence and spacing statistics -/

namespace Pysatl.Props

open Pysatl.Decision Pysatl.Graph Pysatl.Spec Pysatl.Edf
open Topology
open Filter (Tendsto)

/-! ### C59 -/

section

variable {K : Type} [Field K] [LinearOrder K] [IsStrictOrderedRing K]

/-- A sum of terms each at least `c (o - e)`, with equality only for `o = e`. -/
theorem divergence_sum (f : K → K → K) (c : K) :
    ∀ (obs exp : List K), obs.length = exp.length →
    (∀ o ∈ obs, ∀ e ∈ exp, c * (o - e) ≤ f o e ∧ (f o e = c * (o - e) → o = e)) →
    (∀ e ∈ exp, f e e = 0) →
    c * (obs.sum - exp.sum) ≤ (List.zipWith f obs exp).sum ∧
    ((List.zipWith f obs exp).sum = c * (obs.sum - exp.sum) ↔ obs = exp) := by
  intro obs
  induction obs with
  | nil =>
    intro exp hl _ _
    have : exp = [] := List.length_eq_zero_iff.1 (by simpa using hl.symm)
    simp [this]
  | cons o obs ih =>
    intro exp hl h h0
    rcases exp with _ | ⟨e, exp⟩
    · simp at hl
    · have ih' := ih exp (by simpa using hl)
        (fun o' ho e' he => h o' (by simp [ho]) e' (by simp [he])) (fun e' he => h0 e' (by simp [he]))
      have hoe := h o (by simp) e (by simp)
      simp only [List.zipWith_cons_cons, List.sum_cons]
      refine ⟨by linarith [ih'.1, hoe.1], ⟨fun heq => ?_, fun heq => ?_⟩⟩
      · have h1 : f o e = c * (o - e) := by linarith [ih'.1, hoe.1]
        have h2 : (List.zipWith f obs exp).sum = c * (obs.sum - exp.sum) := by
          linarith [ih'.1, hoe.1]
        rw [hoe.2 h1, ih'.2.1 h2]
      · simp only [List.cons.injEq] at heq
        obtain ⟨rfl, rfl⟩ := heq
        have := ih'.2.2 rfl
        rw [this, h0 o (by simp)]
        ring

/-- **C59, Pearson.** For every observed vector and every vector of positive expectations, the
Pearson statistic is non-negative, and zero exactly when observed equals expected. -/
theorem C59_pearson {obs exp : List K} (hl : obs.length = exp.length) (he : ∀ e ∈ exp, 0 < e) :
    0 ≤ pearson obs exp ∧ (pearson obs exp = 0 ↔ obs = exp) := by
  have := divergence_sum (fun o e : K => (o - e) ^ 2 / e) 0 obs exp hl ?_ ?_
  · simpa [pearson] using this
  · intro o _ e hm
    have := he e hm
    refine ⟨by simp only [zero_mul]; positivity, fun h => ?_⟩
    rw [zero_mul, div_eq_zero_iff] at h
    rcases h with h | h
    · exact sub_eq_zero.1 (pow_eq_zero_iff two_ne_zero |>.1 h)
    · exact absurd h this.ne'
  · intro e _; simp

end

example : pearson [(3 : ℚ), 1] [2, 2] = 1 := by decide +kernel

/-- Bernoulli's inequality for negative exponents. -/
theorem one_add_mul_lt_rpow_neg {x p : ℝ} (hx : 0 < x) (hx1 : x ≠ 1) (hp : p < 0) :
    1 + p * (x - 1) < x ^ p := by
  have h1 : Real.log x < x - 1 := Real.log_lt_sub_one_of_pos hx hx1
  have h2 : p * Real.log x + 1 ≤ Real.exp (p * Real.log x) := Real.add_one_le_exp _
  rw [Real.rpow_def_of_pos hx, mul_comm (Real.log x)]
  have h3 : p * (x - 1) < p * Real.log x := mul_lt_mul_of_neg_left h1 hp
  linarith

theorem cressieRead_term {lam o e : ℝ} (h0 : lam ≠ 0) (h1 : lam ≠ -1) (he : 0 < e) (ho : 0 ≤ o)
    (hneg : lam < 0 → 0 < o) :
    2 / (lam + 1) * (o - e) ≤ o * ((o / e) ^ lam - 1) / (1 / 2 * lam * (lam + 1)) ∧
    (o * ((o / e) ^ lam - 1) / (1 / 2 * lam * (lam + 1)) = 2 / (lam + 1) * (o - e) → o = e) := by
  have hp0 : lam + 1 ≠ 0 := fun h => h1 (by linarith)
  set x := o / e with hx
  have hox : o = e * x := by rw [hx]; field_simp
  have hx0 : 0 ≤ x := by positivity
  have hpow : x * x ^ lam = x ^ (lam + 1) := by
    rcases hx0.eq_or_lt with h | h
    · rw [← h]
      have hl : 0 < lam := by
        rcases lt_trichotomy lam 0 with h2 | h2 | h2
        · have := hneg h2
          rw [hox, ← h, mul_zero] at this
          exact absurd this (lt_irrefl _)
        · exact absurd h2 h0
        · exact h2
      rw [Real.zero_rpow hl.ne', zero_mul, Real.zero_rpow hp0]
    · rw [Real.rpow_add_one h.ne', mul_comm]
  have hlhs : o * (x ^ lam - 1) / (1 / 2 * lam * (lam + 1)) - 2 / (lam + 1) * (o - e) =
      2 * e * ((x ^ (lam + 1) - (1 + (lam + 1) * (x - 1))) / (lam * (lam + 1))) := by
    rw [← hpow, hox]
    field_simp
    ring
  by_cases hx1 : x = 1
  · rw [hx1] at hlhs
    have : o = e := by rw [hox, hx1, mul_one]
    refine ⟨?_, fun _ => this⟩
    rw [hx1]
    have h2 : (2 * e * (((1 : ℝ) ^ (lam + 1) - (1 + (lam + 1) * (1 - 1))) / (lam * (lam + 1)))) = 0 := by
      rw [Real.one_rpow]; simp
    linarith
  · have hpos : 0 < 2 * e * ((x ^ (lam + 1) - (1 + (lam + 1) * (x - 1))) / (lam * (lam + 1))) := by
      have hs : x = 1 + (x - 1) := by ring
      refine mul_pos (by positivity) ?_
      rcases lt_trichotomy (lam + 1) 0 with hc | hc | hc
      · have hxpos : 0 < x := by
          have := hneg (by linarith); positivity
        have := one_add_mul_lt_rpow_neg hxpos hx1 hc
        exact div_pos (by linarith) (mul_pos_of_neg_of_neg (by linarith) hc)
      · exact absurd hc hp0
      · rcases lt_or_gt_of_ne h0 with hl | hl
        · have := rpow_one_add_lt_one_add_mul_self (s := x - 1) (by linarith)
            (sub_ne_zero.2 hx1) hc (by linarith)
          rw [← hs] at this
          exact div_pos_of_neg_of_neg (by linarith) (mul_neg_of_neg_of_pos hl hc)
        · have := one_add_mul_self_lt_rpow_one_add (s := x - 1) (by linarith)
            (sub_ne_zero.2 hx1) (p := lam + 1) (by linarith)
          rw [← hs] at this
          exact div_pos (by linarith) (mul_pos hl hc)
    exact ⟨by linarith, fun h => by linarith⟩

theorem xlogy_term {o e : ℝ} (he : 0 < e) (ho : 0 ≤ o) :
    2 * (o - e) ≤ 2 * xlogy o (o / e) ∧ (2 * xlogy o (o / e) = 2 * (o - e) → o = e) := by
  unfold xlogy
  rcases ho.eq_or_lt with h | h
  · rw [if_pos h.symm, ← h]
    exact ⟨by linarith, fun h' => by linarith⟩
  · rw [if_neg h.ne']
    have hx : 0 < e / o := by positivity
    have hlog : Real.log (o / e) = -Real.log (e / o) := by
      rw [← Real.log_inv, inv_div]
    rw [hlog]
    have h1 := Real.log_le_sub_one_of_pos hx
    have h2 : o * (e / o - 1) = e - o := by field_simp
    have h3 : o * Real.log (e / o) ≤ o * (e / o - 1) := mul_le_mul_of_nonneg_left h1 h.le
    refine ⟨by linarith, fun heq => ?_⟩
    by_contra hne
    have h4 := Real.log_lt_sub_one_of_pos hx (by
      intro h5; exact hne ((div_eq_one_iff_eq h.ne').1 h5).symm)
    have := mul_lt_mul_of_pos_left h4 h
    linarith

/-- **C59, the whole family.** For every power `lam` of the Cressie-Read family (`1` is Pearson,
`0` the likelihood ratio, `-1` the modified likelihood ratio), every vector of positive expectations
and every non-negative observed vector with the same total (positive observations when the power is
negative), the statistic is non-negative, and zero exactly when observed equals expected. -/
theorem C59_power_divergence (lam : ℝ) {obs exp : List ℝ} (hl : obs.length = exp.length)
    (he : ∀ e ∈ exp, 0 < e) (ho : ∀ o ∈ obs, 0 ≤ o) (hneg : lam < 0 → ∀ o ∈ obs, 0 < o)
    (htot : obs.sum = exp.sum) :
    0 ≤ powerDivergence lam obs exp ∧ (powerDivergence lam obs exp = 0 ↔ obs = exp) := by
  unfold powerDivergence
  by_cases h1 : lam = 1
  · rw [if_pos h1]; exact C59_pearson hl he
  rw [if_neg h1]
  by_cases h0 : lam = 0
  · rw [if_pos h0]
    have := divergence_sum (fun o e : ℝ => 2 * xlogy o (o / e)) 2 obs exp hl
      (fun o hm e hm' => xlogy_term (he e hm') (ho o hm))
      (fun e hm => by have := he e hm; simp [xlogy, this.ne'])
    simpa [htot] using this
  rw [if_neg h0]
  by_cases hm1 : lam = -1
  · rw [if_pos hm1]
    have := divergence_sum (fun o e : ℝ => 2 * xlogy e (e / o)) (-2) obs exp hl
      (fun o hm e hm' => by
        have := xlogy_term (hneg (by linarith) o hm) (he e hm').le
        exact ⟨by linarith [this.1], fun h => (this.2 (by linarith)).symm⟩)
      (fun e hm => by have := he e hm; simp [xlogy, this.ne'])
    simpa [htot] using this
  · rw [if_neg hm1]
    have := divergence_sum (fun o e : ℝ => o * ((o / e) ^ lam - 1) / (1 / 2 * lam * (lam + 1)))
      (2 / (lam + 1)) obs exp hl
      (fun o hm e hm' => cressieRead_term h0 hm1 (he e hm') (ho o hm) (fun h => hneg h o hm))
      (fun e hm => by have := he e hm; simp [this.ne'])
    simpa [htot] using this

example : 0 ≤ powerDivergence (2 / 3) [3, 0, 1] [2, 1, 1] ∧
    (powerDivergence (2 / 3) [3, 0, 1] [2, 1, 1] = 0 ↔ ([3, 0, 1] : List ℝ) = [2, 1, 1]) :=
  C59_power_divergence _ rfl (by simp) (by simp) (by intro h; linarith) (by norm_num)

/-! The branches for the powers `1`, `0` and `-1` are the limits of the general formula. -/

theorem tendsto_zipWith_sum {l : Filter ℝ} {f : ℝ → ℝ → ℝ → ℝ} {g : ℝ → ℝ → ℝ} :
    ∀ {obs exp : List ℝ}, (∀ o ∈ obs, ∀ e ∈ exp, Tendsto (fun lam => f lam o e) l (𝓝 (g o e))) →
    Tendsto (fun lam => (List.zipWith (f lam) obs exp).sum) l (𝓝 (List.zipWith g obs exp).sum)
  | [], _, _ => by simpa using tendsto_const_nhds
  | _ :: _, [], _ => by simpa using tendsto_const_nhds
  | o :: os, e :: es, h => by
    simp only [List.zipWith_cons_cons, List.sum_cons]
    exact (h o (by simp) e (by simp)).add
      (tendsto_zipWith_sum fun o' ho' e' he' => h o' (by simp [ho']) e' (by simp [he']))

theorem tendsto_rpow_slope {x : ℝ} (hx : 0 < x) :
    Tendsto (fun t : ℝ => (x ^ t - 1) / t) (𝓝[≠] 0) (𝓝 (Real.log x)) := by
  have h := (Real.hasStrictDerivAt_const_rpow hx 0).hasDerivAt
  rw [hasDerivAt_iff_tendsto_slope] at h
  simp only [Real.rpow_zero, one_mul] at h
  refine h.congr fun t => ?_
  simp [slope_def_field]

theorem powerDivergence_general {lam : ℝ} (h0 : lam ≠ 0) (hm : lam ≠ -1) {obs exp : List ℝ}
    (hl : obs.length = exp.length) (he : ∀ e ∈ exp, 0 < e) (htot : obs.sum = exp.sum) :
    powerDivergence lam obs exp =
      (List.zipWith (fun o e => o * ((o / e) ^ lam - 1) / (1 / 2 * lam * (lam + 1))) obs exp).sum := by
  unfold powerDivergence
  by_cases h1 : lam = 1
  · rw [if_pos h1, h1]
    have key : ∀ (obs exp : List ℝ), obs.length = exp.length → (∀ e ∈ exp, 0 < e) →
        pearson obs exp = (List.zipWith (fun o e : ℝ =>
          o * ((o / e) ^ (1 : ℝ) - 1) / (1 / 2 * 1 * (1 + 1))) obs exp).sum - obs.sum + exp.sum := by
      intro obs
      induction obs with
      | nil => intro exp hl _; cases exp <;> simp_all [pearson]
      | cons o os ih =>
        intro exp hl he
        cases exp with
        | nil => simp at hl
        | cons e es =>
          have := ih es (by simpa using hl) (fun e' h => he e' (by simp [h]))
          have hpos := he e (by simp)
          simp only [pearson, List.zipWith_cons_cons, List.sum_cons, Real.rpow_one] at this ⊢
          rw [this]
          field_simp
          ring_nf
    rw [key obs exp hl he, htot]; ring
  · rw [if_neg h1, if_neg h0, if_neg hm]

/-- **C59, the special powers.** For positive expectations and positive observations with the same
total, the statistic is a continuous function of the power: the three branches of the code for the
powers `1`, `0` and `-1` are the limits of the general formula. -/
theorem C59_continuous_in_power {obs exp : List ℝ} (hl : obs.length = exp.length)
    (he : ∀ e ∈ exp, 0 < e) (ho : ∀ o ∈ obs, 0 < o) (htot : obs.sum = exp.sum) :
    Continuous (fun lam => powerDivergence lam obs exp) := by
  have hgen : ∀ a : ℝ, a ≠ 0 → a ≠ -1 → ContinuousAt (fun lam => powerDivergence lam obs exp) a := by
    intro a ha0 ha1
    have hev : (fun lam => powerDivergence lam obs exp) =ᶠ[𝓝 a] fun lam =>
        (List.zipWith (fun o e => o * ((o / e) ^ lam - 1) / (1 / 2 * lam * (lam + 1))) obs exp).sum := by
      filter_upwards [isOpen_ne.mem_nhds ha0, isOpen_ne.mem_nhds ha1] with lam h0 h1
      exact powerDivergence_general h0 h1 hl he htot
    refine ContinuousAt.congr ?_ hev.symm
    refine tendsto_zipWith_sum fun o hm e hm' => ?_
    have hx : 0 < o / e := div_pos (ho o hm) (he e hm')
    have hne : (1 / 2 * a * (a + 1)) ≠ 0 := by
      have : a + 1 ≠ 0 := fun h => ha1 (by linarith)
      positivity
    have hc : ContinuousAt (fun lam : ℝ => (o / e) ^ lam) a :=
      (Real.continuous_const_rpow hx.ne').continuousAt
    exact ((continuousAt_const.mul (hc.sub continuousAt_const)).div
      (by fun_prop) hne : ContinuousAt (fun lam : ℝ =>
        o * ((o / e) ^ lam - 1) / (1 / 2 * lam * (lam + 1))) a)
  rw [continuous_iff_continuousAt]
  intro a
  by_cases ha0 : a = 0
  · subst ha0
    rw [continuousAt_iff_punctured_nhds]
    have hval : powerDivergence 0 obs exp =
        (List.zipWith (fun o e => 2 * xlogy o (o / e)) obs exp).sum := by
      simp [powerDivergence]
    have hev : (fun lam => powerDivergence lam obs exp) =ᶠ[𝓝[≠] 0] fun lam =>
        (List.zipWith (fun o e => o * ((o / e) ^ lam - 1) / (1 / 2 * lam * (lam + 1))) obs exp).sum := by
      filter_upwards [self_mem_nhdsWithin, nhdsWithin_le_nhds (isOpen_ne.mem_nhds
        (show (0 : ℝ) ≠ -1 by norm_num))] with lam h0 h1
      exact powerDivergence_general h0 h1 hl he htot
    rw [hval]
    refine (tendsto_zipWith_sum fun o hm e hm' => ?_).congr' hev.symm
    have hx : 0 < o / e := div_pos (ho o hm) (he e hm')
    have h2 : Tendsto (fun lam : ℝ => 2 * o / (lam + 1)) (𝓝[≠] 0) (𝓝 (2 * o / (0 + 1))) := by
      refine tendsto_nhdsWithin_of_tendsto_nhds (ContinuousAt.tendsto ?_)
      exact continuousAt_const.div (by fun_prop) (by norm_num)
    have := h2.mul (tendsto_rpow_slope hx)
    have hg : 2 * o / (0 + 1) * Real.log (o / e) = 2 * xlogy o (o / e) := by
      unfold xlogy; rw [if_neg (ho o hm).ne']; ring
    rw [hg] at this
    refine this.congr fun lam => ?_
    rw [div_mul_div_comm, mul_assoc 2 o, show 1 / 2 * lam * (lam + 1) = ((lam + 1) * lam) / 2 by ring,
      div_div_eq_mul_div]
    ring
  by_cases ha1 : a = -1
  · subst ha1
    rw [continuousAt_iff_punctured_nhds]
    have hval : powerDivergence (-1) obs exp =
        (List.zipWith (fun o e => 2 * xlogy e (e / o)) obs exp).sum := by
      simp [powerDivergence]; norm_num
    have hsum : ∀ (lam : ℝ), lam ≠ 0 → lam ≠ -1 → ∀ (obs exp : List ℝ), obs.length = exp.length →
        (∀ e ∈ exp, 0 < e) → (∀ o ∈ obs, 0 < o) →
        (List.zipWith (fun o e => o * ((o / e) ^ lam - 1) / (1 / 2 * lam * (lam + 1))) obs exp).sum =
        (List.zipWith (fun o e => 2 * e / lam * (((o / e) ^ (lam + 1) - 1) / (lam + 1))) obs exp).sum -
          2 * (obs.sum - exp.sum) / (lam * (lam + 1)) := by
      intro lam h0 h1 obs
      induction obs with
      | nil => intro exp hl _ _; cases exp <;> simp_all
      | cons o os ih =>
        intro exp hl he ho
        cases exp with
        | nil => simp at hl
        | cons e es =>
          have hh := ih es (by simpa using hl) (fun e' h => he e' (by simp [h]))
            (fun o' h => ho o' (by simp [h]))
          have hep := he e (by simp)
          have hop := ho o (by simp)
          have h1' : lam + 1 ≠ 0 := fun h => h1 (by linarith)
          simp only [List.zipWith_cons_cons, List.sum_cons]
          rw [hh, Real.rpow_add (div_pos hop hep), Real.rpow_one]
          generalize (o / e) ^ lam = X
          generalize List.sum (List.zipWith (fun o e => 2 * e / lam * (((o / e) ^ (lam + 1) - 1) /
            (lam + 1))) os es) = S
          generalize os.sum = A
          generalize es.sum = B
          field_simp
          ring
    have hev : (fun lam => powerDivergence lam obs exp) =ᶠ[𝓝[≠] (-1)] fun lam =>
        (List.zipWith (fun o e => 2 * e / lam * (((o / e) ^ (lam + 1) - 1) / (lam + 1)))
          obs exp).sum := by
      filter_upwards [self_mem_nhdsWithin, nhdsWithin_le_nhds (isOpen_ne.mem_nhds
        (show (-1 : ℝ) ≠ 0 by norm_num))] with lam h1 h0
      rw [powerDivergence_general h0 h1 hl he htot, hsum lam h0 h1 obs exp hl he ho, htot]
      simp
    rw [hval]
    refine (tendsto_zipWith_sum fun o hm e hm' => ?_).congr' hev.symm
    have hx : 0 < o / e := div_pos (ho o hm) (he e hm')
    have h2 : Tendsto (fun lam : ℝ => 2 * e / lam) (𝓝[≠] (-1)) (𝓝 (2 * e / (-1))) := by
      refine tendsto_nhdsWithin_of_tendsto_nhds (ContinuousAt.tendsto ?_)
      exact continuousAt_const.div (by fun_prop) (by norm_num)
    have h3 : Tendsto (fun lam : ℝ => lam + 1) (𝓝[≠] (-1)) (𝓝[≠] 0) := by
      refine tendsto_nhdsWithin_iff.2 ⟨tendsto_nhdsWithin_of_tendsto_nhds ?_, ?_⟩
      · have : Continuous fun lam : ℝ => lam + 1 := by fun_prop
        simpa using this.tendsto (-1)
      · filter_upwards [self_mem_nhdsWithin] with lam h1 h
        exact h1 (by simp at h ⊢; linarith)
    have := h2.mul ((tendsto_rpow_slope hx).comp h3)
    have hg : 2 * e / (-1) * Real.log (o / e) = 2 * xlogy e (e / o) := by
      unfold xlogy
      rw [if_neg (he e hm').ne', Real.log_div (ho o hm).ne' (he e hm').ne',
        Real.log_div (he e hm').ne' (ho o hm).ne']
      ring
    rw [hg] at this
    exact this
  exact hgen a ha0 ha1

example : Continuous (fun lam => powerDivergence lam [3, 1, 2] [2, 2, 2]) :=
  C59_continuous_in_power rfl (by simp) (by simp) (by norm_num)

/-- **C59, empty cells.** With zero observations allowed, the likelihood-ratio branch is the limit of
the general formula from the right: an empty cell contributes nothing. -/
theorem C59_likelihood_ratio_limit {obs exp : List ℝ} (hl : obs.length = exp.length)
    (he : ∀ e ∈ exp, 0 < e) (ho : ∀ o ∈ obs, 0 ≤ o) (htot : obs.sum = exp.sum) :
    Tendsto (fun lam => powerDivergence lam obs exp) (𝓝[>] 0) (𝓝 (powerDivergence 0 obs exp)) := by
  have hval : powerDivergence 0 obs exp =
      (List.zipWith (fun o e => 2 * xlogy o (o / e)) obs exp).sum := by
    simp [powerDivergence]
  have hev : (fun lam => powerDivergence lam obs exp) =ᶠ[𝓝[>] 0] fun lam =>
      (List.zipWith (fun o e => o * ((o / e) ^ lam - 1) / (1 / 2 * lam * (lam + 1))) obs exp).sum := by
    filter_upwards [self_mem_nhdsWithin] with lam h0
    have h0 : 0 < lam := h0
    exact powerDivergence_general h0.ne' (by linarith) hl he htot
  rw [hval]
  refine (tendsto_zipWith_sum fun o hm e hm' => ?_).congr' hev.symm
  rcases (ho o hm).eq_or_lt with h0 | hpos
  · subst h0; simp [xlogy]
  have hx : 0 < o / e := div_pos hpos (he e hm')
  have h2 : Tendsto (fun lam : ℝ => 2 * o / (lam + 1)) (𝓝[>] 0) (𝓝 (2 * o / (0 + 1))) := by
    refine tendsto_nhdsWithin_of_tendsto_nhds (ContinuousAt.tendsto ?_)
    exact continuousAt_const.div (by fun_prop) (by norm_num)
  have := h2.mul ((tendsto_rpow_slope hx).mono_left
    (nhdsWithin_mono 0 (fun t h => (Set.mem_Ioi.1 h).ne')))
  have hg : 2 * o / (0 + 1) * Real.log (o / e) = 2 * xlogy o (o / e) := by
    unfold xlogy; rw [if_neg hpos.ne']; ring
  rw [hg] at this
  refine this.congr fun lam => ?_
  rw [div_mul_div_comm, mul_assoc 2 o, show 1 / 2 * lam * (lam + 1) = ((lam + 1) * lam) / 2 by ring,
    div_div_eq_mul_div]
  ring

example : Tendsto (fun lam => powerDivergence lam [3, 0, 1] [2, 1, 1]) (𝓝[>] 0)
    (𝓝 (powerDivergence 0 [3, 0, 1] [2, 1, 1])) :=
  C59_likelihood_ratio_limit rfl (by simp) (by simp) (by norm_num)

/-- The totals must agree: with `1` observed and `2` expected the likelihood-ratio statistic is
negative. -/
theorem C59_totals_needed : powerDivergence 0 [1] [2] < 0 := by
  have : powerDivergence 0 [1] [2] = 2 * Real.log (1 / 2) := by
    simp [powerDivergence, xlogy]
  rw [this]
  have := Real.log_neg (x := 1 / 2) (by norm_num) (by norm_num)
  linarith

/-! ### C60 -/

section

variable {K : Type} [Field K] [LinearOrder K] [IsStrictOrderedRing K]

theorem npDiff_length : ∀ (l : List K), (npDiff l).length = l.length - 1
  | [] => rfl
  | [_] => rfl
  | _ :: y :: l => by
    have := npDiff_length (y :: l)
    simp only [npDiff, List.length_cons] at this ⊢
    omega

theorem spacings_length (lo hi : K) (l : List K) : (spacings lo hi l).length = l.length + 1 := by
  unfold spacings
  rw [npDiff_length]; simp

theorem spacings_sum (lo hi : K) (l : List K) : (spacings lo hi l).sum = hi - lo := by
  unfold spacings
  induction l generalizing lo with
  | nil => simp [npDiff]
  | cons x l ih =>
    have := ih x
    simp only [List.cons_append, npDiff, List.sum_cons] at this ⊢
    rw [this]; ring

theorem spacings_nonneg {lo hi : K} {l : List K} (hs : l.Pairwise (· ≤ ·)) (hlo : lo ≤ hi)
    (hb : ∀ x ∈ l, lo ≤ x ∧ x ≤ hi) : ∀ s ∈ spacings lo hi l, 0 ≤ s := by
  unfold spacings
  induction l generalizing lo with
  | nil => intro s h; simp [npDiff] at h; rw [h]; linarith
  | cons x l ih =>
    intro s h
    simp only [List.cons_append, npDiff, List.mem_cons] at h
    rcases h with rfl | h
    · linarith [(hb x (by simp)).1]
    · exact ih hs.of_cons (hb x (by simp)).2
        (fun y hy => ⟨List.rel_of_pairwise_cons hs hy, (hb y (by simp [hy])).2⟩) s h

/-- Equal spacings mean equally spaced points. -/
theorem spacings_const {c : K} : ∀ (l : List K) (lo hi : K),
    (∀ s ∈ spacings lo hi l, s = c) →
    l = (List.range l.length).map fun i : ℕ => lo + c * ((i : K) + 1) := by
  intro l
  induction l with
  | nil => intro lo hi _; rfl
  | cons x l ih =>
    intro lo hi h
    have hx : x - lo = c := h _ (by simp [spacings, npDiff])
    have ht := ih x hi (fun s hs => h s (by
      simp only [spacings, List.cons_append, npDiff, List.mem_cons] at hs ⊢
      exact Or.inr hs))
    rw [List.length_cons, List.range_succ_eq_map, List.map_cons, List.map_map]
    congr 1
    · simp; linarith
    · conv_lhs => rw [ht]
      refine List.map_congr_left fun i _ => ?_
      simp only [Function.comp, Nat.cast_succ]
      rw [← hx]; ring

theorem spacings_of_const {c : K} : ∀ (n : ℕ) (lo : K) (s : K),
    s ∈ spacings lo (lo + c * ((n : K) + 1))
      ((List.range n).map fun i : ℕ => lo + c * ((i : K) + 1)) → s = c := by
  intro n
  induction n with
  | zero => intro lo s h; simpa [spacings, npDiff] using h
  | succ n ih =>
    intro lo s h
    rw [List.range_succ_eq_map, List.map_cons, List.map_map] at h
    simp only [spacings, List.cons_append, npDiff, List.mem_cons, Nat.cast_zero, zero_add,
      mul_one] at h
    rcases h with h | h
    · rw [h]; ring
    · refine ih (lo + c) s ?_
      unfold spacings
      have e1 : ((List.range n).map fun i : ℕ => lo + c + c * ((i : K) + 1)) =
          (List.range n).map ((fun i : ℕ => lo + c * ((i : K) + 1)) ∘ Nat.succ) := by
        refine List.map_congr_left fun i _ => ?_
        simp only [Function.comp, Nat.cast_succ]
        ring
      have e2 : lo + c + c * ((n : K) + 1) = lo + c * (((n + 1 : ℕ) : K) + 1) := by
        push_cast; ring
      rw [e1, e2]
      exact h

theorem spacings_equal_iff {a b : K} {rvs : List K} (hab : a < b) :
    (∀ s ∈ spacings a b (sort rvs), s = (b - a) / ((rvs.length : K) + 1)) ↔
      rvs.Perm (equallySpaced a b rvs.length) := by
  have hn : (0 : K) < (rvs.length : K) + 1 := by positivity
  have hlen := (sort_perm rvs).length_eq
  have hform : equallySpaced a b rvs.length = (List.range rvs.length).map fun i : ℕ =>
      a + (b - a) / ((rvs.length : K) + 1) * ((i : K) + 1) := by
    unfold equallySpaced
    refine List.map_congr_left fun i _ => ?_
    ring
  constructor
  · intro h
    have := spacings_const _ _ _ h
    rw [hlen, ← hform] at this
    rw [← this]
    exact (sort_perm rvs).symm
  · intro h
    have hs : (equallySpaced a b rvs.length).Pairwise (· ≤ ·) := by
      rw [hform, List.pairwise_map]
      refine List.pairwise_lt_range.imp fun {i j} hij => ?_
      have : (i : K) ≤ j := by exact_mod_cast hij.le
      have : 0 ≤ (b - a) / ((rvs.length : K) + 1) := by
        have := sub_nonneg.2 hab.le
        positivity
      gcongr
    have heq : sort rvs = equallySpaced a b rvs.length :=
      ((sort_perm rvs).trans h).eq_of_pairwise (le := (· ≤ ·)) (fun _ _ _ _ h1 h2 => le_antisymm h1 h2)
        (sort_pairwise rvs) hs
    rw [heq, hform]
    intro s hs'
    refine spacings_of_const rvs.length a s ?_
    have : a + (b - a) / ((rvs.length : K) + 1) * ((rvs.length : K) + 1) = b := by
      field_simp; ring
    rwa [this]

theorem validateUniform_ok {a b : K} {rvs : List K} (h : ∀ x ∈ rvs, a ≤ x ∧ x ≤ b) :
    validateUniform a b rvs = .ok rvs := by
  unfold validateUniform
  rw [if_neg]
  simp only [List.any_eq_true, Bool.or_eq_true, decide_eq_true_eq, not_exists, not_and, not_or,
    not_lt]
  exact h

/-- Sum of squares of `m` numbers with sum `S`. -/
theorem sumSquares_bounds (l : List K) (hne : l ≠ []) :
    l.sum ^ 2 / l.length ≤ sumSquares l ∧
    (sumSquares l = l.sum ^ 2 / l.length ↔ ∀ s ∈ l, s = l.sum / l.length) := by
  have hn : (0 : K) < l.length := by exact_mod_cast List.length_pos_iff.2 hne
  have key : sumSquares l = l.sum ^ 2 / l.length + (l.map fun s => (s - l.sum / l.length) ^ 2).sum := by
    have gen : ∀ (l : List K) (c : K), (l.map fun s => (s - c) ^ 2).sum =
        sumSquares l - 2 * c * l.sum + l.length * c ^ 2 := by
      intro l c
      induction l with
      | nil => simp [sumSquares]
      | cons x l ih =>
        simp only [sumSquares, List.map_cons, List.sum_cons, List.length_cons, Nat.cast_add,
          Nat.cast_one] at ih ⊢
        rw [ih]; ring
    rw [gen]
    field_simp
    ring
  have hnn : 0 ≤ (l.map fun s => (s - l.sum / l.length) ^ 2).sum :=
    List.sum_nonneg (by simp only [List.mem_map]; rintro _ ⟨s, _, rfl⟩; positivity)
  refine ⟨by rw [key]; linarith, ?_⟩
  rw [key]
  constructor
  · intro h s hs
    have h0 : (l.map fun s => (s - l.sum / l.length) ^ 2).sum = 0 := by linarith
    have := List.all_zero_of_le_zero_le_of_sum_eq_zero
      (l := l.map fun s => (s - l.sum / l.length) ^ 2)
      (by simp only [List.mem_map]; rintro _ ⟨s, _, rfl⟩; positivity) h0
      (x := (s - l.sum / l.length) ^ 2) (List.mem_map.2 ⟨s, hs, rfl⟩)
    exact sub_eq_zero.1 (pow_eq_zero_iff two_ne_zero |>.1 this)
  · intro h
    have : (l.map fun s => (s - l.sum / l.length) ^ 2) = l.map fun _ => 0 := by
      refine List.map_congr_left fun s hs => ?_
      rw [h s hs]; simp
    rw [this]; simp

theorem sumSquares_le (l : List K) (h : ∀ s ∈ l, 0 ≤ s) : sumSquares l ≤ l.sum ^ 2 := by
  induction l with
  | nil => simp [sumSquares]
  | cons x l ih =>
    have ih' := ih fun s hs => h s (by simp [hs])
    have hx := h x (by simp)
    have hs : 0 ≤ l.sum := List.sum_nonneg fun s hs => h s (by simp [hs])
    simp only [sumSquares, List.map_cons, List.sum_cons] at ih' ⊢
    nlinarith [mul_nonneg hx hs]

/-- **C60, Greenwood.** For every sample in `[a,b]` the uniform Greenwood statistic is between
`1/(n+1)` and `1`; the lower end is attained exactly by the equally spaced sample. -/
theorem C60_greenwood {a b : K} (hab : a < b) {rvs : List K} (hb : ∀ x ∈ rvs, a ≤ x ∧ x ≤ b) :
    ∃ g, greenwoodUniform a b rvs = .ok g ∧ 1 / ((rvs.length : K) + 1) ≤ g ∧ g ≤ 1 ∧
      (g = 1 / ((rvs.length : K) + 1) ↔ rvs.Perm (equallySpaced a b rvs.length)) := by
  have hba : 0 < b - a := sub_pos.2 hab
  have hlen := (sort_perm rvs).length_eq
  have hmem : ∀ x ∈ sort rvs, a ≤ x ∧ x ≤ b := fun x hx => hb x ((sort_perm rvs).mem_iff.1 hx)
  -- the spacings of the standardised sample are those of the sample over `b - a`
  have hscale : ∀ (l : List K) (lo : K), spacings ((lo - a) / (b - a)) 1 (l.map fun x => (x - a) / (b - a)) =
      (spacings lo b l).map (· / (b - a)) := by
    intro l
    induction l with
    | nil =>
      intro lo
      simp only [spacings, List.map_nil, List.nil_append, npDiff, List.map_cons]
      congr 1
      field_simp
      ring
    | cons x l ih =>
      intro lo
      have := ih x
      simp only [spacings, List.map_cons, List.cons_append, npDiff] at this ⊢
      rw [this]
      congr 1
      field_simp
      ring
  have h0 : (a - a) / (b - a) = 0 := by simp
  have hsp : spacings 0 1 (uniformVals a b rvs) = (spacings a b (sort rvs)).map (· / (b - a)) := by
    unfold uniformVals
    rw [← h0]; exact hscale _ _
  set S := spacings a b (sort rvs) with hS
  have hSlen : S.length = rvs.length + 1 := by rw [hS, spacings_length, hlen]
  have hSsum : S.sum = b - a := spacings_sum _ _ _
  have hSnn : ∀ s ∈ S, 0 ≤ s := spacings_nonneg (sort_pairwise rvs) hab.le hmem
  have hn1 : (0 : K) < (rvs.length : K) + 1 := by positivity
  set T := S.map (· / (b - a)) with hT
  have hTlen : (T.length : K) = (rvs.length : K) + 1 := by rw [hT, List.length_map, hSlen]; push_cast; ring
  have hTsum : T.sum = 1 := by
    have : T.sum = S.sum / (b - a) := by
      rw [hT]
      clear_value S T
      clear hT hS hSlen hSsum hSnn hTlen hsp
      induction S with
      | nil => simp
      | cons x S ih => simp only [List.map_cons, List.sum_cons, ih]; ring
    rw [this, hSsum, div_self hba.ne']
  have hTne : T ≠ [] := by
    rw [← List.length_pos_iff, hT, List.length_map, hSlen]; omega
  have key := sumSquares_bounds T hTne
  rw [hTsum, hTlen, one_pow] at key
  refine ⟨sumSquares T, ?_, key.1, ?_, ?_⟩
  · unfold greenwoodUniform
    rw [validateUniform_ok hb]
    simp only [bind, Except.bind, pure, Except.pure, hsp]
  · refine (sumSquares_le T ?_).trans (by rw [hTsum, one_pow])
    intro s hs
    obtain ⟨t, ht, rfl⟩ := List.mem_map.1 hs
    have := hSnn t ht
    positivity
  · rw [key.2, ← spacings_equal_iff hab]
    constructor
    · intro h s hs
      have := h (s / (b - a)) (List.mem_map.2 ⟨s, hs, rfl⟩)
      field_simp at this ⊢
      linarith
    · intro h t ht
      obtain ⟨s, hs, rfl⟩ := List.mem_map.1 ht
      rw [h s hs]
      field_simp

example : greenwoodUniform (0 : ℚ) 3 [2, 1] = .ok (1 / 3) ∧
    greenwoodUniform (0 : ℚ) 3 [0, 0] = .ok 1 := by decide +kernel

theorem sum_abs_centered (l : List K) (e : K) (h : l.sum = l.length * e) :
    1 / 2 * (l.map fun s => |s - e|).sum = (l.map fun s => max (e - s) 0).sum := by
  have gen : ∀ l : List K, (l.map fun s => |s - e|).sum =
      2 * (l.map fun s => max (e - s) 0).sum + (l.sum - l.length * e) := by
    intro l
    induction l with
    | nil => simp
    | cons x l ih =>
      simp only [List.map_cons, List.sum_cons, List.length_cons, Nat.cast_add, Nat.cast_one, ih]
      have : |x - e| = 2 * max (e - x) 0 + (x - e) := by
        rcases le_total x e with hx | hx
        · rw [abs_of_nonpos (by linarith), max_eq_left (by linarith)]; ring
        · rw [abs_of_nonneg (by linarith), max_eq_right (by linarith)]; ring
      rw [this]; ring
  rw [gen, h]; ring

theorem sum_max_le (l : List K) (e : K) (he : 0 ≤ e) (h0 : ∀ s ∈ l, 0 ≤ s) (h1 : ∃ s ∈ l, e ≤ s) :
    (l.map fun s => max (e - s) 0).sum + e ≤ l.length * e := by
  have hall : ∀ l : List K, (∀ s ∈ l, 0 ≤ s) → (l.map fun s => max (e - s) 0).sum ≤ l.length * e := by
    intro l
    induction l with
    | nil => simp
    | cons x l ih =>
      intro h
      have := ih fun s hs => h s (by simp [hs])
      have hx := h x (by simp)
      have hm : max (e - x) 0 ≤ e := max_le (by linarith) he
      simp only [List.map_cons, List.sum_cons, List.length_cons, Nat.cast_add, Nat.cast_one]
      linarith
  induction l with
  | nil => simp at h1
  | cons x l ih =>
    have h0' : ∀ s ∈ l, 0 ≤ s := fun s hs => h0 s (by simp [hs])
    simp only [List.map_cons, List.sum_cons, List.length_cons, Nat.cast_add, Nat.cast_one]
    by_cases hx : e ≤ x
    · rw [max_eq_right (by linarith)]
      linarith [hall l h0']
    · have h1' : ∃ s ∈ l, e ≤ s := by
        obtain ⟨s, hs, hes⟩ := h1
        rcases List.mem_cons.1 hs with rfl | hs
        · exact absurd hes hx
        · exact ⟨s, hs, hes⟩
      have hm : max (e - x) 0 ≤ e := max_le (by linarith [h0 x (by simp)]) he
      linarith [ih h0' h1']

/-- **C60, Sherman.** For every sample in `[a,b]` the uniform Sherman statistic is between `0` and
`(b-a) n/(n+1)`; it is zero exactly for the equally spaced sample. -/
theorem C60_sherman {a b : K} (hab : a < b) {rvs : List K} (hb : ∀ x ∈ rvs, a ≤ x ∧ x ≤ b) :
    ∃ g, shermanUniform a b rvs = .ok g ∧ 0 ≤ g ∧ g ≤ (b - a) * rvs.length / ((rvs.length : K) + 1) ∧
      (g = 0 ↔ rvs.Perm (equallySpaced a b rvs.length)) := by
  have hba : 0 < b - a := sub_pos.2 hab
  have hlen := (sort_perm rvs).length_eq
  have hmem : ∀ x ∈ sort rvs, a ≤ x ∧ x ≤ b := fun x hx => hb x ((sort_perm rvs).mem_iff.1 hx)
  have hiff := spacings_equal_iff (rvs := rvs) hab
  have hSlen : ((spacings a b (sort rvs)).length : K) = (rvs.length : K) + 1 := by
    rw [spacings_length, hlen]; push_cast; ring
  have hSsum := spacings_sum a b (sort rvs)
  have hSnn := spacings_nonneg (sort_pairwise rvs) hab.le hmem
  have hn1 : (0 : K) < (rvs.length : K) + 1 := by positivity
  set e := (b - a) / ((rvs.length : K) + 1) with he
  have he0 : 0 ≤ e := by positivity
  have hne : ((rvs.length : K) + 1) * e = b - a := by rw [he]; field_simp
  refine ⟨_, by unfold shermanUniform; rw [validateUniform_ok hb]; rfl, ?_, ?_, ?_⟩
  · have : 0 ≤ ((spacings a b (sort rvs)).map fun s => |s - (b - a) / ((rvs.length : K) + 1)|).sum :=
      List.sum_nonneg (by simp only [List.mem_map]; rintro _ ⟨s, _, rfl⟩; positivity)
    positivity
  · rw [← he, sum_abs_centered _ _ (by rw [hSsum, hSlen, hne])]
    have hex : ∃ s ∈ spacings a b (sort rvs), e ≤ s := by
      by_contra hcon
      push Not at hcon
      have : ∀ l : List K, l ≠ [] → (∀ s ∈ l, s < e) → l.sum < l.length * e := by
        intro l
        induction l with
        | nil => simp
        | cons x l ih =>
          intro _ hl
          simp only [List.sum_cons, List.length_cons, Nat.cast_add, Nat.cast_one]
          have hx := hl x (by simp)
          rcases l with _ | ⟨y, l⟩
          · simp; exact hx
          · have := ih (by simp) fun s hs => hl s (by simp only [List.mem_cons] at hs ⊢; exact Or.inr hs)
            linarith
      have hlt := this _ (by rw [← List.length_pos_iff, spacings_length]; omega) hcon
      rw [hSsum, hSlen, hne] at hlt
      exact lt_irrefl _ hlt
    have := sum_max_le _ e he0 hSnn hex
    rw [hSlen] at this
    have h2 : (b - a) * rvs.length / ((rvs.length : K) + 1) = rvs.length * e := by rw [he]; field_simp
    rw [h2]
    linarith
  · rw [← hiff, ← he]
    constructor
    · intro h s hs
      have h0 : ((spacings a b (sort rvs)).map fun s => |s - e|).sum = 0 := by linarith
      have := List.all_zero_of_le_zero_le_of_sum_eq_zero
        (l := (spacings a b (sort rvs)).map fun s => |s - e|)
        (by simp only [List.mem_map]; rintro _ ⟨s, _, rfl⟩; positivity) h0
        (x := |s - e|) (List.mem_map.2 ⟨s, hs, rfl⟩)
      exact sub_eq_zero.1 (abs_eq_zero.1 this)
    · intro h
      have : ((spacings a b (sort rvs)).map fun s => |s - e|) = (spacings a b (sort rvs)).map fun _ => 0 := by
        refine List.map_congr_left fun s hs => ?_
        rw [h s hs]; simp
      rw [this]; simp

example : shermanUniform (0 : ℚ) 3 [2, 1] = .ok 0 ∧
    shermanUniform (0 : ℚ) 3 [0, 0] = .ok (3 * 2 / (2 + 1)) := by decide +kernel

theorem quesenberryMiller_le (l : List K) (h : ∀ s ∈ l, 0 ≤ s) :
    sumSquares l ≤ quesenberryMiller l ∧ quesenberryMiller l ≤ l.sum ^ 2 := by
  induction l with
  | nil => simp [quesenberryMiller, sumSquares]
  | cons x l ih =>
    have ih' := ih fun s hs => h s (by simp [hs])
    have hx := h x (by simp)
    rcases l with _ | ⟨y, l⟩
    · simp [quesenberryMiller, sumSquares]
    · have hy := h y (by simp)
      have hs : 0 ≤ l.sum := List.sum_nonneg fun s hs => h s (by simp [hs])
      simp only [quesenberryMiller, sumSquares, List.map_cons, List.sum_cons, List.tail_cons,
        List.zipWith_cons_cons] at ih' ⊢
      constructor <;> nlinarith [mul_nonneg hx hs, mul_nonneg hx hy, ih'.1, ih'.2]

/-- **C60, Quesenberry-Miller.** For every sample in `[a,b]` the statistic is between
`(b-a)²/(n+1)` and `(b-a)²`. -/
theorem C60_quesenberryMiller {a b : K} (hab : a < b) {rvs : List K}
    (hb : ∀ x ∈ rvs, a ≤ x ∧ x ≤ b) :
    ∃ g, quesenberryMillerUniform a b rvs = .ok g ∧ (b - a) ^ 2 / ((rvs.length : K) + 1) ≤ g ∧
      g ≤ (b - a) ^ 2 := by
  have hlen := (sort_perm rvs).length_eq
  have hmem : ∀ x ∈ sort rvs, a ≤ x ∧ x ≤ b := fun x hx => hb x ((sort_perm rvs).mem_iff.1 hx)
  have hSlen : ((spacings a b (sort rvs)).length : K) = (rvs.length : K) + 1 := by
    rw [spacings_length, hlen]; push_cast; ring
  have hSsum := spacings_sum a b (sort rvs)
  have hSnn := spacings_nonneg (sort_pairwise rvs) hab.le hmem
  have h1 := quesenberryMiller_le _ hSnn
  have h2 := (sumSquares_bounds (spacings a b (sort rvs))
    (by rw [← List.length_pos_iff, spacings_length]; omega)).1
  rw [hSsum, hSlen] at h2
  rw [hSsum] at h1
  refine ⟨_, by unfold quesenberryMillerUniform; rw [validateUniform_ok hb]; rfl, h2.trans h1.1, h1.2⟩

example : quesenberryMillerUniform (0 : ℚ) 1 [1 / 2] = .ok (3 / 4) := by decide +kernel

end

end Pysatl.Props
