import Verif.Props.AndersonDarling
import Verif.Props.NullMoments

/-! # A deviation of the empirical distribution function at one point makes the EDF statistics large -/

namespace Pysatl

open Pysatl.Edf Pysatl.Spec Pysatl.Props Pysatl.Graph
open MeasureTheory

/-- A function above a parabola that vanishes at one end of an interval. -/
theorem cubic_below {f : ℝ → ℝ} (hi : IntervalIntegrable f volume 0 1) (h0 : ∀ u, 0 ≤ f u) {a h : ℝ} (ha : 0 ≤ a)
    (hh : 0 ≤ h) (hb : a + h ≤ 1) {z : ℝ} (hz : z = a ∨ z = a + h)
    (hf : ∀ u ∈ Set.Ioo a (a + h), (u - z) ^ 2 ≤ f u) : h ^ 3 / 3 ≤ ∫ u in (0 : ℝ)..1, f u := by
  have hs : IntervalIntegrable f volume a (a + h) :=
    hi.mono_set (by
      rw [Set.uIcc_of_le (by linarith), Set.uIcc_of_le zero_le_one]
      exact Set.Icc_subset_Icc ha hb)
  have h1 : ∫ u in a..(a + h), f u ≤ ∫ u in (0 : ℝ)..1, f u := by
    refine intervalIntegral.integral_mono_interval ha (by linarith) hb (.of_forall fun u => h0 u) hi
  have h2 : ∫ u in a..(a + h), (u - z) ^ 2 ≤ ∫ u in a..(a + h), f u := by
    refine intervalIntegral.integral_mono_on_of_le_Ioo (by linarith) ?_ hs hf
    exact (by fun_prop : Continuous fun u : ℝ => (u - z) ^ 2).intervalIntegrable _ _
  have h3 : ∫ u in a..(a + h), (u - z) ^ 2 = h ^ 3 / 3 := by
    rw [intervalIntegral.integral_comp_sub_right (fun u => u ^ 2) z, integral_pow]
    rcases hz with rfl | rfl <;> norm_num <;> ring
  linarith

/-- A monotone function with values in `[0, 1]` that is at least `v + δ` at `v`, or at most `v - δ` before `v`, differs from
the identity by more than any constant, in the mean of squares. -/
theorem deviation_integral {G : ℝ → ℝ} (hG : Monotone G) (h01 : ∀ u, 0 ≤ G u ∧ G u ≤ 1) {v δ : ℝ} (hδ : 0 ≤ δ)
    (hv0 : 0 ≤ v) (hv1 : v ≤ 1) (h : v + δ ≤ G v ∨ ∀ u < v, G u ≤ v - δ) (c : ℝ) :
    IntervalIntegrable (fun u => (G u - u - c) ^ 2) volume 0 1 ∧
    δ ^ 3 / 24 ≤ ∫ u in (0 : ℝ)..1, (G u - u - c) ^ 2 := by
  have hi : IntervalIntegrable (fun u => (G u - u - c) ^ 2) volume 0 1 := by
    have g1 : IntervalIntegrable G volume 0 1 := hG.intervalIntegrable
    have g2 : IntervalIntegrable (fun u => G u ^ 2) volume 0 1 :=
      Monotone.intervalIntegrable fun a b hab => pow_le_pow_left₀ (h01 a).1 (hG hab) 2
    have g3 := g1.mul_continuousOn (g := fun u : ℝ => -2 * (u + c)) (by fun_prop)
    have g4 : IntervalIntegrable (fun u : ℝ => (u + c) ^ 2) volume 0 1 :=
      (by fun_prop : Continuous fun u : ℝ => (u + c) ^ 2).intervalIntegrable _ _
    refine ((g2.add g3).add g4).congr fun u _ => ?_
    show G u ^ 2 + G u * (-2 * (u + c)) + (u + c) ^ 2 = _
    ring
  refine ⟨hi, ?_⟩
  have e : δ ^ 3 / 24 = (δ / 2) ^ 3 / 3 := by ring
  rw [e]
  rcases h with h | h
  · have hle := (h01 v).2
    rcases le_or_gt c (δ / 2) with hc | hc
    · refine cubic_below hi (fun u => sq_nonneg _) hv0 (by linarith) (by linarith) (z := v + δ / 2) (Or.inr rfl)
        fun u hu => ?_
      have h1 := hG hu.1.le
      have h2 := hu.2
      nlinarith
    · refine cubic_below hi (fun u => sq_nonneg _) (a := 1 - δ / 2) (by linarith) (h := δ / 2) (by linarith) (by linarith)
        (z := 1 - δ / 2) (Or.inl rfl) fun u hu => ?_
      have h1 := (h01 u).2
      have h2 := hu.1
      nlinarith
  · have hge : ∀ u < v, 0 ≤ v - δ := fun u hu => (h01 u).1.trans (h u hu)
    have hvd : δ ≤ v := by linarith [hge (v - 1) (by linarith)]
    rcases le_or_gt (-(δ / 2)) c with hc | hc
    · refine cubic_below hi (fun u => sq_nonneg _) (a := v - δ / 2) (by linarith) (h := δ / 2) (by linarith) (by linarith)
        (z := v - δ / 2) (Or.inl rfl) fun u hu => ?_
      have h1 := h u (by linarith [hu.2])
      have h2 := hu.1
      nlinarith
    · refine cubic_below hi (fun u => sq_nonneg _) (a := 0) le_rfl (h := δ / 2) (by linarith) (by linarith)
        (z := 0 + δ / 2) (Or.inr rfl) fun u hu => ?_
      have h1 := (h01 u).1
      have h2 := hu.2
      nlinarith

theorem fracLe_mono {K : Type} [Field K] [LinearOrder K] [IsStrictOrderedRing K] (L : List K) : Monotone (fracLe L) := by
  intro a b hab
  rw [fracLe_eq, fracLe_eq]
  refine div_le_div_of_nonneg_right ?_ (Nat.cast_nonneg _)
  exact_mod_cast List.countP_mono_left fun x _ h => by
    simp only [decide_eq_true_eq] at h ⊢
    exact h.trans hab

theorem fracLe_unit (L : List ℝ) (u : ℝ) : 0 ≤ fracLe L u ∧ fracLe L u ≤ 1 := by
  rw [fracLe_eq]
  refine ⟨by positivity, div_le_one_of_le₀ ?_ (Nat.cast_nonneg _)⟩
  exact_mod_cast List.countP_le_length

section

variable {F : ℝ → ℝ} (hm : Monotone F) (h01 : ∀ x, 0 ≤ F x ∧ F x ≤ 1) {rvs : List ℝ}
include hm h01

/-- In terms of the sample: a deviation `δ` at `x₀`. -/
theorem deviation_sample {x₀ δ : ℝ} (hδ : 0 ≤ δ) (h : δ ≤ |fracLe rvs x₀ - F x₀|) (c : ℝ) :
    IntervalIntegrable (fun u => (fracLe (rvs.map F) u - u - c) ^ 2) volume 0 1 ∧
    δ ^ 3 / 24 ≤ ∫ u in (0 : ℝ)..1, (fracLe (rvs.map F) u - u - c) ^ 2 := by
  refine deviation_integral (fracLe_mono _) (fracLe_unit _) hδ (h01 x₀).1 (h01 x₀).2 ?_ c
  rcases le_abs'.1 h with h | h
  · refine Or.inr fun u hu => ?_
    have : fracLe (rvs.map F) u ≤ fracLe rvs x₀ := by
      rw [fracLe_eq, fracLe_eq, List.length_map, List.countP_map]
      refine div_le_div_of_nonneg_right ?_ (Nat.cast_nonneg _)
      exact_mod_cast List.countP_mono_left fun x _ hx => by
        simp only [Function.comp, decide_eq_true_eq] at hx ⊢
        by_contra hlt
        exact absurd (hm (not_le.1 hlt).le) (not_le.2 (hx.trans_lt hu))
    linarith
  · refine Or.inl ?_
    have : fracLe rvs x₀ ≤ fracLe (rvs.map F) (F x₀) := by
      rw [fracLe_eq, fracLe_eq, List.length_map, List.countP_map]
      refine div_le_div_of_nonneg_right ?_ (Nat.cast_nonneg _)
      exact_mod_cast List.countP_mono_left fun x _ hx => by
        simp only [Function.comp, decide_eq_true_eq] at hx ⊢
        exact hm hx
    linarith

/-- The Cramer-von Mises statistic is at least `n δ³ / 24`. -/
theorem cvm_deviation (hne : rvs ≠ []) {x₀ δ : ℝ} (hδ : 0 ≤ δ) (h : δ ≤ |fracLe rvs x₀ - F x₀|) :
    rvs.length * (δ ^ 3 / 24) ≤ cvmOf F rvs := by
  rw [C56_integral hm h01 hne]
  refine mul_le_mul_of_nonneg_left ?_ (Nat.cast_nonneg _)
  simpa using (deviation_sample hm h01 hδ h 0).2

/-- Watson's statistic is at least `n δ³ / 24`. -/
theorem watson_deviation (hne : rvs ≠ []) {x₀ δ : ℝ} (hδ : 0 ≤ δ) (h : δ ≤ |fracLe rvs x₀ - F x₀|) :
    rvs.length * (δ ^ 3 / 24) ≤ watsonBeta ((sort rvs).map F) := by
  rw [(C57_families_partial hm h01 hne).1, watsonU2, List.length_map]
  refine mul_le_mul_of_nonneg_left ?_ (Nat.cast_nonneg _)
  set c := ∫ u in (0 : ℝ)..1, (fracLe (rvs.map F) u - u) with hc
  obtain ⟨hi, hle⟩ := deviation_sample hm h01 hδ h c
  have h1 : IntervalIntegrable (fun u => (fracLe (rvs.map F) u - u) ^ 2) volume 0 1 := by
    simpa using (deviation_sample hm h01 hδ h 0).1
  have h2 : IntervalIntegrable (fun u => fracLe (rvs.map F) u - u) volume 0 1 :=
    ((fracLe_mono _).intervalIntegrable).sub (continuous_id.intervalIntegrable _ _)
  have e : (fun u => (fracLe (rvs.map F) u - u - c) ^ 2) =
      fun u => ((fracLe (rvs.map F) u - u) ^ 2 - 2 * c * (fracLe (rvs.map F) u - u)) + c ^ 2 := by
    funext u; ring
  rw [e, intervalIntegral.integral_add (h1.sub (h2.const_mul _)) intervalIntegrable_const,
    intervalIntegral.integral_sub h1 (h2.const_mul _), intervalIntegral.integral_const_mul, ← hc,
    intervalIntegral.integral_const] at hle
  simp only [sub_zero, smul_eq_mul, one_mul] at hle
  nlinarith

end

end Pysatl
