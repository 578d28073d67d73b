import Verif.Lemmas.AnalyticNull
import Mathlib.Analysis.SpecialFunctions.Exponential
import Mathlib.Analysis.SpecialFunctions.ExpDeriv

/-! # Zeros of functions that are analytic at positive observations -/

namespace Pysatl.Props

open Pysatl.Decision Pysatl.Graph Pysatl.Edf Pysatl.Exponent Pysatl.Normal
open Pysatl.Spec
open MeasureTheory

variable {μ : Measure ℝ} [IsProbabilityMeasure μ] [NullSingletonClass μ]

theorem nullSingleton_log : NullSingletonClass (μ.map Real.log) := ⟨fun u => by
  rw [Measure.map_apply Real.measurable_log (measurableSet_singleton u)]
  refine measure_mono_null (t := {Real.exp u, -Real.exp u, 0}) (fun t ht => ?_) (Set.Finite.measure_zero (by simp) μ)
  rw [Set.mem_preimage, Set.mem_singleton_iff] at ht
  simp only [Set.mem_insert_iff, Set.mem_singleton_iff]
  rcases lt_trichotomy t 0 with h | h | h
  · right; left
    rw [← ht, Real.exp_log_of_neg h, neg_neg]
  · exact .inr (.inr h)
  · left
    rw [← ht, Real.exp_log h]⟩

/-- The zeros of a function that is analytic at positive observations are null, unless it vanishes at all of them. -/
theorem analytic_pos_null {N : ℕ} {F : (Fin N → ℝ) → ℝ} (hF : AnalyticOnNhd ℝ F {x | ∀ i, 0 < x i})
    (h : ∃ x, (∀ i, 0 < x i) ∧ F x ≠ 0) : (Measure.pi fun _ : Fin N => μ) {x | (∀ i, 0 < x i) ∧ F x = 0} = 0 := by
  have hp : IsProbabilityMeasure (μ.map Real.log) := Measure.isProbabilityMeasure_map Real.measurable_log.aemeasurable
  have := nullSingleton_log (μ := μ)
  have hA : AnalyticOnNhd ℝ (fun u : Fin N → ℝ => F fun i => Real.exp (u i)) Set.univ := fun u _ => by
    refine (hF (fun i => Real.exp (u i)) fun i => Real.exp_pos _).comp (g := F) (f := fun u : Fin N → ℝ => fun i => Real.exp (u i))
      (AnalyticAt.pi fun i => ?_)
    exact analyticAt_rexp.comp ((ContinuousLinearMap.proj (R := ℝ) (φ := fun _ : Fin N => ℝ) i).analyticAt u)
  have h0 := analytic_null (μ := μ.map Real.log) hA (by
    obtain ⟨x, hx, hne⟩ := h
    exact ⟨fun i => Real.log (x i), by simpa only [Real.exp_log (hx _)] using hne⟩)
  rw [← Measure.pi_map_pi fun _ => Real.measurable_log.aemeasurable] at h0
  refine measure_mono_null (fun x hx => ?_) (Measure.preimage_null_of_map_null
    (measurable_pi_lambda _ fun i => Real.measurable_log.comp (measurable_pi_apply i)).aemeasurable h0)
  show F (fun i => Real.exp (Real.log (x i))) = 0
  simpa only [Real.exp_log (hx.1 _)] using hx.2

/-- The same for the arrangements of the observations, and for finitely many functions. -/
theorem analytic_pos_perm_null {N : ℕ} {ι : Type} [Finite ι] {G : ι → (Fin N → ℝ) → ℝ}
    (hG : ∀ s, AnalyticOnNhd ℝ (G s) {x | ∀ i, 0 < x i}) (h : ∀ s, ∃ x, (∀ i, 0 < x i) ∧ G s x ≠ 0) :
    (Measure.pi fun _ : Fin N => μ) {x | (∀ i, 0 < x i) ∧ ∃ s, ∃ σ : Equiv.Perm (Fin N), G s (x ∘ σ) = 0} = 0 := by
  have : {x : Fin N → ℝ | (∀ i, 0 < x i) ∧ ∃ s, ∃ σ : Equiv.Perm (Fin N), G s (x ∘ σ) = 0} =
      ⋃ s, ⋃ σ : Equiv.Perm (Fin N), {x | (∀ i, 0 < x i) ∧ G s (x ∘ σ) = 0} := by
    ext x; simp
  rw [this]
  refine measure_iUnion_null fun s => measure_iUnion_null fun σ => analytic_pos_null (F := fun x => G s (x ∘ σ)) (fun x hx => ?_) ?_
  · refine (hG s (x ∘ σ) fun i => hx (σ i)).comp (g := G s) (f := fun x : Fin N → ℝ => x ∘ σ) (AnalyticAt.pi fun i => ?_)
    exact (ContinuousLinearMap.proj (R := ℝ) (φ := fun _ : Fin N => ℝ) (σ i)).analyticAt x
  · obtain ⟨x, hx, hne⟩ := h s
    exact ⟨x ∘ σ.symm, fun i => hx _, by rwa [Function.comp_assoc, Equiv.symm_comp_self, Function.comp_id]⟩

end Pysatl.Props
