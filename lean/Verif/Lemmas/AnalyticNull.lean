import Verif.Lemmas.NoTies
import Mathlib.Analysis.Analytic.IsolatedZeros
import Mathlib.Analysis.Analytic.Constructions
import Mathlib.Analysis.Analytic.Linear
import Mathlib.MeasureTheory.Topology

/-! # Zeros of analytic functions of independent observations -/

namespace Pysatl.Props

open Pysatl.Decision Pysatl.Graph Pysatl.Edf Pysatl.Exponent Pysatl.Normal
open Pysatl.Spec
open MeasureTheory

variable {μ : Measure ℝ} [IsProbabilityMeasure μ] [NullSingletonClass μ]

/-- The zeros of an analytic function of one observation are null. -/
theorem analytic_null_one {f : ℝ → ℝ} (hf : AnalyticOnNhd ℝ f Set.univ) {t₀ : ℝ} (h : f t₀ ≠ 0) : μ {t | f t = 0} = 0 := by
  rcases hf.eqOn_zero_or_eventually_ne_zero_of_preconnected isPreconnected_univ with h0 | h0
  · exact absurd (h0 (Set.mem_univ t₀)) h
  · have := ae_restrict_le_codiscreteWithin (μ := μ) MeasurableSet.univ h0
    rw [Measure.restrict_univ] at this
    have h1 : ∀ᵐ t ∂μ, f t ≠ 0 := this
    rw [ae_iff] at h1
    simpa using h1

theorem analytic_insertNth {N : ℕ} {F : (Fin (N + 1) → ℝ) → ℝ} (hF : AnalyticOnNhd ℝ F Set.univ) (k : Fin (N + 1)) :
    (∀ t, AnalyticOnNhd ℝ (fun y : Fin N → ℝ => F (k.insertNth t y)) Set.univ) ∧
    ∀ y : Fin N → ℝ, AnalyticOnNhd ℝ (fun t => F (k.insertNth t y)) Set.univ := by
  have key : ∀ {E : Type} [NormedAddCommGroup E] [NormedSpace ℝ E] (g : E → Fin (N + 1) → ℝ),
      (∀ i, AnalyticOnNhd ℝ (fun e => g e i) Set.univ) → AnalyticOnNhd ℝ (fun e => F (g e)) Set.univ := by
    intro E _ _ g hg e _
    exact (hF (g e) trivial).comp (AnalyticAt.pi fun i => hg i e trivial)
  refine ⟨fun t => key _ fun i => ?_, fun y => key _ fun i => ?_⟩
  · refine Fin.succAboveCases k ?_ (fun j => ?_) i
    · simpa using analyticOnNhd_const
    · simp only [Fin.insertNth_apply_succAbove]
      exact fun y _ => (ContinuousLinearMap.proj (R := ℝ) (φ := fun _ : Fin N => ℝ) j).analyticAt y
  · refine Fin.succAboveCases k ?_ (fun j => ?_) i
    · simpa using analyticOnNhd_id
    · simpa using analyticOnNhd_const

/-- The zeros of an analytic function of independent observations are null, unless the function vanishes everywhere. -/
theorem analytic_null {N : ℕ} {F : (Fin N → ℝ) → ℝ} (hF : AnalyticOnNhd ℝ F Set.univ) (h : ∃ x, F x ≠ 0) :
    (Measure.pi fun _ : Fin N => μ) {x | F x = 0} = 0 := by
  induction N with
  | zero =>
    obtain ⟨x, hx⟩ := h
    have : {y | F y = 0} = ∅ := Set.eq_empty_of_forall_notMem fun y hy => hx (by rw [Subsingleton.elim x y]; exact hy)
    rw [this, measure_empty]
  | succ N ih =>
    obtain ⟨x, hx⟩ := h
    have hc : Continuous F := continuous_iff_continuousAt.2 fun x => (hF x trivial).continuousAt
    refine pi_null_of_slices 0 (measurableSet_eq_fun hc.measurable measurable_const) ?_
    obtain ⟨h1, h2⟩ := analytic_insertNth hF 0
    have := ih (h1 (x 0)) ⟨fun j => x (Fin.succAbove 0 j), by
      rwa [show (Fin.insertNth (0 : Fin (N + 1)) (x 0) fun j => x (Fin.succAbove 0 j)) = x from Fin.insertNth_self_removeNth 0 x]⟩
    have hae : ∀ᵐ y ∂(Measure.pi fun _ : Fin N => μ), F (Fin.insertNth 0 (x 0) y) ≠ 0 := by
      rw [ae_iff]
      simpa using this
    filter_upwards [hae] with y hy
    exact analytic_null_one (h2 y) hy

/-- The same for a function of the order statistics. -/
theorem analytic_sort_null {N : ℕ} {G : (Fin N → ℝ) → ℝ} (hG : AnalyticOnNhd ℝ G Set.univ) (h : ∃ x, G x ≠ 0) :
    (Measure.pi fun _ : Fin N => μ) {x | ∃ σ : Equiv.Perm (Fin N), G (x ∘ σ) = 0} = 0 := by
  have : {x | ∃ σ : Equiv.Perm (Fin N), G (x ∘ σ) = 0} = ⋃ σ : Equiv.Perm (Fin N), {x | G (x ∘ σ) = 0} := by
    ext; simp
  rw [this]
  refine measure_iUnion_null fun σ => analytic_null (fun x _ => ?_) ?_
  · refine (hG (x ∘ σ) trivial).comp (g := G) (f := fun x : Fin N → ℝ => x ∘ σ) (AnalyticAt.pi fun i => ?_)
    exact (ContinuousLinearMap.proj (R := ℝ) (φ := fun _ : Fin N => ℝ) (σ i)).analyticAt x
  · obtain ⟨x, hx⟩ := h
    exact ⟨x ∘ σ.symm, by rwa [Function.comp_assoc, Equiv.symm_comp_self, Function.comp_id]⟩

end Pysatl.Props
