import Verif.Spec.Laws
import Mathlib.Probability.StrongLaw
import Mathlib.Probability.Independence.InfinitePi

/-! # Samples as beginnings of an infinite sequence of observations; the law of large numbers -/

namespace Pysatl

open Pysatl.Spec MeasureTheory ProbabilityTheory Filter Topology

/-- The law of an infinite sequence of independent observations. -/
noncomputable def seqLaw (μ : Measure ℝ) : Measure (ℕ → ℝ) := Measure.infinitePi fun _ => μ

/-- The first `n` observations. -/
def firsts (n : ℕ) (ω : ℕ → ℝ) : Fin n → ℝ := fun i => ω i

variable {μ : Measure ℝ} [IsProbabilityMeasure μ]

instance : IsProbabilityMeasure (seqLaw μ) := by unfold seqLaw; infer_instance

theorem measurable_firsts (n : ℕ) : Measurable (firsts n) :=
  measurable_pi_lambda _ fun i => measurable_pi_apply _

theorem map_firsts (n : ℕ) : (seqLaw μ).map (firsts n) = iid n μ := by
  symm
  unfold iid
  refine Measure.pi_eq fun s hs => ?_
  rw [Measure.map_apply (measurable_firsts n) (MeasurableSet.univ_pi hs)]
  have e : firsts n ⁻¹' Set.univ.pi s =
      Set.pi (Finset.range n) (fun i => if h : i < n then s ⟨i, h⟩ else Set.univ) := by
    ext ω
    simp only [Set.mem_preimage, Set.mem_pi, Set.mem_univ, forall_const, Finset.coe_range, Set.mem_Iio]
    constructor
    · intro h i hi
      rw [dif_pos hi]
      exact h ⟨i, hi⟩
    · intro h i
      have := h i i.2
      rw [dif_pos i.2] at this
      exact this
  rw [e, seqLaw, Measure.infinitePi_pi, Finset.prod_range]
  · refine Finset.prod_congr rfl fun i _ => ?_
    rw [dif_pos i.2]
  · intro i hi
    rw [dif_pos (Finset.mem_range.1 hi)]
    exact hs _

theorem map_coordinate (i : ℕ) : (seqLaw μ).map (fun ω => ω i) = μ :=
  Measure.infinitePi_map_eval (fun _ : ℕ => μ) i

/-- A property of almost all observations holds of all members of almost all sequences. -/
theorem seq_ae {p : ℝ → Prop} (h : ∀ᵐ x ∂μ, p x) : ∀ᵐ ω ∂(seqLaw μ), ∀ i, p (ω i) := by
  refine ae_all_iff.2 fun i => ?_
  have h' : ∀ᵐ x ∂((seqLaw μ).map fun ω => ω i), p x := by rwa [map_coordinate]
  exact ae_of_ae_map (measurable_pi_apply i).aemeasurable h'

/-- **The law of large numbers** for a function of the observations. -/
theorem law_of_large_numbers {f : ℝ → ℝ} (hf : Measurable f) (hi : Integrable f μ) :
    ∀ᵐ ω ∂(seqLaw μ), Tendsto (fun n : ℕ => (∑ i ∈ Finset.range n, f (ω i)) / n) atTop (𝓝 (∫ x, f x ∂μ)) := by
  have hm : ∀ i, Measurable fun ω : ℕ → ℝ => ω i := fun i => measurable_pi_apply i
  have hi0 : Integrable (fun ω : ℕ → ℝ => f (ω 0)) (seqLaw μ) := by
    have : Integrable f ((seqLaw μ).map fun ω => ω 0) := by rwa [map_coordinate]
    exact this.comp_measurable (hm 0)
  have h := strong_law_ae_real (μ := seqLaw μ) (fun i ω => f (ω i)) hi0 ?_ ?_
  · have e : ∫ ω, f (ω 0) ∂(seqLaw μ) = ∫ x, f x ∂μ := by
      rw [← integral_map (φ := fun ω : ℕ → ℝ => ω 0) (hm 0).aemeasurable hf.aestronglyMeasurable, map_coordinate]
    rw [e] at h
    exact h
  · intro i j hij
    exact (iIndepFun_infinitePi (P := fun _ : ℕ => μ) (X := fun _ => f) fun _ => hf).indepFun hij
  · intro i
    refine ⟨(hf.comp (hm i)).aemeasurable, (hf.comp (hm 0)).aemeasurable, ?_⟩
    have : ∀ i, (seqLaw μ).map (fun ω => f (ω i)) = μ.map f := fun i => by
      rw [← map_coordinate (μ := μ) i, Measure.map_map hf (hm i), map_coordinate]
      rfl
    rw [this, this]

/-- What holds eventually along almost every sequence holds of the samples with probability tending to one. -/
theorem eventually_prob {A : ∀ n, Set (Fin n → ℝ)}
    (h : ∀ᵐ ω ∂(seqLaw μ), ∀ᶠ n in atTop, firsts n ω ∈ A n) :
    Tendsto (fun n => iid n μ (A n)) atTop (𝓝 1) := by
  have : ∀ n, IsProbabilityMeasure (iid n μ) := fun n => by unfold iid; infer_instance
  set S : ℕ → Set (ℕ → ℝ) := fun n => {ω | ∀ m ≥ n, firsts m ω ∈ A m} with hS
  have hmono : Monotone S := fun n k hnk ω hω m hm => hω m (hnk.trans hm)
  have h1 : seqLaw μ (⋃ n, S n) = 1 := by
    rw [measure_congr (t := Set.univ) (eventuallyEq_univ.2 ?_), measure_univ]
    filter_upwards [h] with ω hω
    obtain ⟨n, hn⟩ := eventually_atTop.1 hω
    exact Set.mem_iUnion.2 ⟨n, hn⟩
  have h2 := tendsto_measure_iUnion_atTop (μ := seqLaw μ) hmono
  rw [h1] at h2
  refine tendsto_of_tendsto_of_tendsto_of_le_of_le h2 tendsto_const_nhds (fun n => ?_) fun n => prob_le_one
  calc seqLaw μ (S n) ≤ seqLaw μ (firsts n ⁻¹' A n) := measure_mono fun ω hω => hω n le_rfl
    _ ≤ (seqLaw μ).map (firsts n) (A n) := Measure.le_map_apply (measurable_firsts n).aemeasurable _
    _ = iid n μ (A n) := by rw [map_firsts]

/-- The complements of such events have probability tending to zero. -/
theorem eventually_prob_compl {A : ∀ n, Set (Fin n → ℝ)} (hA : ∀ n, MeasurableSet (A n))
    (h : ∀ᵐ ω ∂(seqLaw μ), ∀ᶠ n in atTop, firsts n ω ∈ A n) :
    Tendsto (fun n => iid n μ (A n)ᶜ) atTop (𝓝 0) := by
  have : ∀ n, IsProbabilityMeasure (iid n μ) := fun n => by unfold iid; infer_instance
  have e : ∀ n, iid n μ (A n)ᶜ = 1 - iid n μ (A n) := fun n => by
    rw [measure_compl (hA n) (measure_ne_top _ _), measure_univ]
  simp only [e]
  have := ENNReal.Tendsto.sub (tendsto_const_nhds (x := (1 : ENNReal))) (eventually_prob h) (Or.inl ENNReal.one_ne_top)
  rwa [tsub_self] at this

end Pysatl
