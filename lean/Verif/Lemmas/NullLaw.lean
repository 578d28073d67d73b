import Mathlib.Probability.CDF
import Verif.Spec.NullLaw

/-! # The probability integral transform -/

namespace Pysatl.Props

open Pysatl.Spec
open MeasureTheory ProbabilityTheory
open Filter (Tendsto)

theorem sum_list_range (f : ℕ → ℝ) (k : ℕ) : ((List.range k).map f).sum = ∑ j ∈ Finset.range k, f j := by
  induction k with
  | zero => rfl
  | succ k ih => rw [List.range_succ, Finset.sum_range_succ]; simp [ih]

variable {Ω : Type} [MeasurableSpace Ω] {P : Measure Ω} {F : ℝ → ℝ}

/-- The uniform distribution on the unit interval. -/
noncomputable def unitLaw : Measure ℝ := volume[|Set.Icc (0 : ℝ) 1]

instance : IsProbabilityMeasure unitLaw :=
  cond_isProbabilityMeasure_of_finite (by simp) (by simp)

theorem unitLaw_eq : unitLaw = volume.restrict (Set.Icc 0 1) := by
  simp [unitLaw, ProbabilityTheory.cond]

theorem cdf_unitLaw (u : ℝ) : cdf unitLaw u = max 0 (min u 1) := by
  rw [cdf_eq_real, unitLaw_eq, measureReal_restrict_apply measurableSet_Iic]
  rcases lt_or_ge u 0 with h | h
  · rw [show Set.Iic u ∩ Set.Icc 0 1 = ∅ from by ext x; simp; intro h1 h2; linarith]
    simp; left; exact h.le
  · rw [show Set.Iic u ∩ Set.Icc 0 1 = Set.Icc 0 (min u 1) from by
      ext x; simp; tauto]
    rw [Real.volume_real_Icc_of_le (le_min h zero_le_one), sub_zero, max_eq_right (le_min h zero_le_one)]

/-- A variable with a continuous distribution function becomes uniform when it is transformed by this
function. -/
theorem map_transform [IsProbabilityMeasure P] {X : Ω → ℝ} (hX : Measurable X) (hF : Continuous F)
    (law : ∀ x, P.real {ω | X ω ≤ x} = F x) : P.map (fun ω => F (X ω)) = unitLaw := by
  have hm : Measurable fun ω => F (X ω) := hF.measurable.comp hX
  have := Measure.isProbabilityMeasure_map (μ := P) hm.aemeasurable
  have hpX := Measure.isProbabilityMeasure_map (μ := P) hX.aemeasurable
  have hFc : F = cdf (P.map X) := by
    funext x
    rw [cdf_eq_real, map_measureReal_apply hX measurableSet_Iic, ← law]; rfl
  have hmono : Monotone F := hFc ▸ monotone_cdf _
  have h0 : ∀ x, 0 ≤ F x := fun x => law x ▸ measureReal_nonneg
  have h1 : ∀ x, F x ≤ 1 := fun x => law x ▸ measureReal_le_one
  have top : Tendsto F Filter.atTop (nhds 1) := hFc ▸ tendsto_cdf_atTop _
  have bot : Tendsto F Filter.atBot (nhds 0) := hFc ▸ tendsto_cdf_atBot _
  refine Measure.eq_of_cdf _ _ ?_
  ext u
  rw [cdf_unitLaw, cdf_eq_real, map_measureReal_apply hm measurableSet_Iic]
  change P.real {ω | F (X ω) ≤ u} = _
  rcases lt_or_ge u 0 with hu | hu
  · rw [show {ω | F (X ω) ≤ u} = ∅ from by
      ext ω; simp only [Set.mem_ofPred_eq, Set.mem_empty_iff_false, iff_false, not_le]
      exact hu.trans_le (h0 _)]
    rw [measureReal_empty, max_eq_left ((min_le_left _ _).trans hu.le)]
  rcases le_or_gt 1 u with hu1 | hu1
  · rw [show {ω | F (X ω) ≤ u} = Set.univ from by
      ext ω; simp only [Set.mem_ofPred_eq, Set.mem_univ, iff_true]; exact (h1 _).trans hu1]
    rw [probReal_univ, min_eq_right hu1, max_eq_right zero_le_one]
  rw [min_eq_left hu1.le, max_eq_right hu]
  by_cases hne : ∃ x, F x ≤ u
  · have hbdd : BddAbove {x | F x ≤ u} := by
      obtain ⟨M, hM⟩ := (Filter.eventually_atTop.1 (top.eventually (lt_mem_nhds hu1)))
      exact ⟨M, fun x hx => le_of_not_gt fun hlt => absurd (hM x hlt.le) (not_lt.2 hx)⟩
    have hcl : IsClosed {x | F x ≤ u} := isClosed_le hF continuous_const
    set x0 := sSup {x | F x ≤ u} with hx0
    have hmem : F x0 ≤ u := hcl.csSup_mem hne hbdd
    have heq : F x0 = u := by
      refine le_antisymm hmem (le_of_not_gt fun hlt => ?_)
      have : ∀ᶠ x in nhds x0, F x < u := hF.continuousAt.eventually (gt_mem_nhds hlt)
      obtain ⟨ε, hε, hb⟩ := Metric.eventually_nhds_iff.1 this
      have h2 := hb (y := x0 + ε / 2) (by
        rw [Real.dist_eq, add_sub_cancel_left, abs_of_pos (half_pos hε)]; linarith)
      have := le_csSup hbdd (show x0 + ε / 2 ∈ {x | F x ≤ u} from h2.le)
      rw [← hx0] at this
      linarith
    rw [show {ω | F (X ω) ≤ u} = {ω | X ω ≤ x0} from ?_, law, heq]
    ext ω
    exact ⟨fun h => le_csSup hbdd h, fun h => (hmono h).trans hmem⟩
  · rw [show {ω | F (X ω) ≤ u} = ∅ from by
      ext ω; simp only [Set.mem_ofPred_eq, Set.mem_empty_iff_false, iff_false]
      exact fun h => hne ⟨_, h⟩]
    rw [measureReal_empty]
    refine le_antisymm hu (le_of_not_gt fun hlt => hne ?_)
    obtain ⟨M, hM⟩ := Filter.eventually_atBot.1 (bot.eventually (gt_mem_nhds hlt))
    exact ⟨M, (hM M le_rfl).le⟩

variable {n : ℕ} {X : Fin n → Ω → ℝ}

/-- The transformed observations are independent and uniform: their joint law. -/
theorem _root_.Pysatl.Spec.ContinuousSample.joint (h : ContinuousSample P F X) :
    P.map (fun ω i => F (X i ω)) = Measure.pi fun _ => unitLaw := by
  have := h.probability
  have hm : ∀ i, Measurable fun ω => F (X i ω) := fun i => h.continuous.measurable.comp (h.measurable i)
  have hi : iIndepFun (fun i ω => F (X i ω)) P :=
    h.indep.comp (fun _ => F) fun _ => h.continuous.measurable
  rw [(iIndepFun_iff_map_fun_eq_pi_map fun i => (hm i).aemeasurable).1 hi]
  congr 1
  funext i
  exact map_transform (h.measurable i) h.continuous (h.law i)

theorem _root_.Pysatl.Spec.ContinuousSample.uniform (h : ContinuousSample P F X) :
    UniformSample P 0 1 (fun i ω => F (X i ω)) := by
  have := h.probability
  exact ⟨h.indep.comp (fun _ => F) fun _ => h.continuous.measurable,
    fun i => map_transform (h.measurable i) h.continuous (h.law i)⟩

end Pysatl.Props
