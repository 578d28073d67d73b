import Mathlib.Probability.Independence.Integration
import Mathlib.MeasureTheory.Function.L1Space.Integrable
import Mathlib.Topology.Algebra.Monoid
import Mathlib.Topology.Order.Compact
import Mathlib.Tactic.Ring
import Mathlib.Tactic.Linarith

/-! # Fourth order moments of sums of independent bounded centred variables -/

namespace Pysatl

open MeasureTheory ProbabilityTheory

variable {Ω : Type} [MeasurableSpace Ω] {P : Measure Ω} [IsProbabilityMeasure P] {n : ℕ}
  {Y : Fin n → Ω → ℝ}

/-- Continuous functions of finitely many bounded variables are integrable. -/
theorem integrable_of_bounded (hm : ∀ i, Measurable (Y i)) (hb : ∀ i, ∀ᵐ ω ∂P, |Y i ω| ≤ 1)
    {G : (Fin n → ℝ) → ℝ} (hG : Continuous G) : Integrable (fun ω => G fun i => Y i ω) P := by
  have hc : IsCompact (Set.pi Set.univ fun _ : Fin n => Set.Icc (-1 : ℝ) 1) :=
    isCompact_univ_pi fun _ => isCompact_Icc
  obtain ⟨M, hM⟩ := hc.exists_bound_of_continuousOn hG.continuousOn
  refine Integrable.of_bound
    (hG.measurable.comp (measurable_pi_iff.2 hm)).aestronglyMeasurable M ?_
  filter_upwards [ae_all_iff.2 hb] with ω hω
  exact hM _ fun i _ => ⟨by linarith [(abs_le.1 (hω i)).1], (abs_le.1 (hω i)).2⟩

omit [IsProbabilityMeasure P] in
theorem indep_split (hm : ∀ i, Measurable (Y i)) (hi : iIndepFun Y P) {s : Finset (Fin n)} {j : Fin n}
    (hj : j ∉ s) {F : ℝ → ℝ → ℝ} (hF : Continuous fun p : ℝ × ℝ => F p.1 p.2) {g : ℝ → ℝ}
    (hg : Continuous g) :
    ∫ ω, F (∑ i ∈ s, Y i ω ^ 2) (∑ i ∈ s, Y i ω) * g (Y j ω) ∂P =
      (∫ ω, F (∑ i ∈ s, Y i ω ^ 2) (∑ i ∈ s, Y i ω) ∂P) * ∫ ω, g (Y j ω) ∂P := by
  have h := hi.indepFun_finset s {j} (Finset.disjoint_singleton_right.2 hj) hm
  have h2 := h.comp (φ := fun z : s → ℝ => F (∑ i, z i ^ 2) (∑ i, z i))
    (ψ := fun z : ({j} : Finset (Fin n)) → ℝ => g (z ⟨j, Finset.mem_singleton_self j⟩))
    (by
      have : Continuous fun z : s → ℝ => ((∑ i, z i ^ 2 : ℝ), (∑ i, z i : ℝ)) := by fun_prop
      exact (hF.comp this).measurable)
    (by
      have : Continuous fun z : ({j} : Finset (Fin n)) → ℝ => z ⟨j, Finset.mem_singleton_self j⟩ := by
        fun_prop
      exact (hg.comp this).measurable)
  have e : ∀ ω, F (∑ i : s, Y i ω ^ 2) (∑ i : s, Y i ω) = F (∑ i ∈ s, Y i ω ^ 2) (∑ i ∈ s, Y i ω) := by
    intro ω
    rw [Finset.sum_coe_sort s fun i => Y i ω ^ 2, Finset.sum_coe_sort s fun i => Y i ω]
  have hs : Measurable fun ω => ((∑ i ∈ s, Y i ω ^ 2 : ℝ), (∑ i ∈ s, Y i ω : ℝ)) := by
    refine Measurable.prodMk ?_ ?_
    · exact Finset.measurable_fun_sum _ fun i _ => (hm i).pow_const 2
    · exact Finset.measurable_fun_sum _ fun i _ => hm i
  have h3 : IndepFun (fun ω => F (∑ i ∈ s, Y i ω ^ 2) (∑ i ∈ s, Y i ω)) (fun ω => g (Y j ω)) P := by
    simpa only [Function.comp_def, e] using h2
  exact h3.integral_fun_mul_eq_mul_integral (hF.measurable.comp hs).aestronglyMeasurable
    (hg.measurable.comp (hm j)).aestronglyMeasurable

/-- Second and fourth order moments of `A = Σ Y²` and `B = Σ Y`. -/
theorem sample_fourth (hm : ∀ i, Measurable (Y i)) (hi : iIndepFun Y P)
    (hb : ∀ i, ∀ᵐ ω ∂P, |Y i ω| ≤ 1) {V W : ℝ} (h1 : ∀ i, ∫ ω, Y i ω ∂P = 0)
    (h2 : ∀ i, ∫ ω, Y i ω ^ 2 ∂P = V) (h4 : ∀ i, ∫ ω, Y i ω ^ 4 ∂P = W) (s : Finset (Fin n)) :
    let A := fun ω => ∑ i ∈ s, Y i ω ^ 2
    let B := fun ω => ∑ i ∈ s, Y i ω
    let m : ℝ := s.card
    ∫ ω, A ω ∂P = m * V ∧ ∫ ω, B ω ^ 2 ∂P = m * V ∧
    ∫ ω, A ω ^ 2 ∂P = m * W + m * (m - 1) * V ^ 2 ∧
    ∫ ω, A ω * B ω ^ 2 ∂P = m * W + m * (m - 1) * V ^ 2 ∧
    ∫ ω, B ω ^ 4 ∂P = m * W + 3 * (m * (m - 1)) * V ^ 2 := by
  induction s using Finset.induction_on with
  | empty => simp
  | insert j s hj ih =>
    obtain ⟨i1, i2, i3, i4, i5⟩ := ih
    have I : ∀ {G : (Fin n → ℝ) → ℝ}, Continuous G → Integrable (fun ω => G fun i => Y i ω) P :=
      fun hG => integrable_of_bounded hm hb hG
    have S : ∀ (F : ℝ → ℝ → ℝ), (Continuous fun p : ℝ × ℝ => F p.1 p.2) → ∀ g : ℝ → ℝ,
        Continuous g → Integrable (fun ω => F (∑ i ∈ s, Y i ω ^ 2) (∑ i ∈ s, Y i ω) * g (Y j ω)) P ∧
        ∫ ω, F (∑ i ∈ s, Y i ω ^ 2) (∑ i ∈ s, Y i ω) * g (Y j ω) ∂P =
          (∫ ω, F (∑ i ∈ s, Y i ω ^ 2) (∑ i ∈ s, Y i ω) ∂P) * ∫ ω, g (Y j ω) ∂P := by
      intro F hF g hg
      refine ⟨I (G := fun y => F (∑ i ∈ s, y i ^ 2) (∑ i ∈ s, y i) * g (y j)) ?_,
        indep_split hm hi hj hF hg⟩
      have : Continuous fun y : Fin n → ℝ => ((∑ i ∈ s, y i ^ 2 : ℝ), (∑ i ∈ s, y i : ℝ)) := by fun_prop
      exact (hF.comp this).mul (hg.comp (continuous_apply j))
    simp only [Finset.sum_insert hj, Finset.card_insert_of_notMem hj, Nat.cast_add, Nat.cast_one]
    set A := fun ω => ∑ i ∈ s, Y i ω ^ 2 with hA
    set B := fun ω => ∑ i ∈ s, Y i ω with hB
    have cA : ∀ ω, ∑ i ∈ s, Y i ω ^ 2 = A ω := fun _ => rfl
    have cB : ∀ ω, ∑ i ∈ s, Y i ω = B ω := fun _ => rfl
    simp only [cA, cB] at S ⊢
    -- the terms
    have tA : Integrable A P := I (G := fun y => ∑ i ∈ s, y i ^ 2) (by fun_prop)
    have tB2 : Integrable (fun ω => B ω ^ 2) P := I (G := fun y => (∑ i ∈ s, y i) ^ 2) (by fun_prop)
    have tA2 : Integrable (fun ω => A ω ^ 2) P := I (G := fun y => (∑ i ∈ s, y i ^ 2) ^ 2) (by fun_prop)
    have tAB : Integrable (fun ω => A ω * B ω ^ 2) P :=
      I (G := fun y => (∑ i ∈ s, y i ^ 2) * (∑ i ∈ s, y i) ^ 2) (by fun_prop)
    have tB4 : Integrable (fun ω => B ω ^ 4) P := I (G := fun y => (∑ i ∈ s, y i) ^ 4) (by fun_prop)
    have tY2 : Integrable (fun ω => Y j ω ^ 2) P := I (G := fun y => y j ^ 2) (by fun_prop)
    have tY4 : Integrable (fun ω => Y j ω ^ 4) P := I (G := fun y => y j ^ 4) (by fun_prop)
    obtain ⟨u1, v1⟩ := S (fun _ b => 2 * b) (by fun_prop) (fun y => y) (by fun_prop)
    obtain ⟨u2, v2⟩ := S (fun a _ => 2 * a) (by fun_prop) (fun y => y ^ 2) (by fun_prop)
    obtain ⟨u3, v3⟩ := S (fun a b => 2 * a * b) (by fun_prop) (fun y => y) (by fun_prop)
    obtain ⟨u4, v4⟩ := S (fun a b => a + b ^ 2) (by fun_prop) (fun y => y ^ 2) (by fun_prop)
    obtain ⟨u5, v5⟩ := S (fun _ b => 2 * b) (by fun_prop) (fun y => y ^ 3) (by fun_prop)
    obtain ⟨u6, v6⟩ := S (fun _ b => 4 * b ^ 3) (by fun_prop) (fun y => y) (by fun_prop)
    obtain ⟨u7, v7⟩ := S (fun _ b => 6 * b ^ 2) (by fun_prop) (fun y => y ^ 2) (by fun_prop)
    obtain ⟨u8, v8⟩ := S (fun _ b => 4 * b) (by fun_prop) (fun y => y ^ 3) (by fun_prop)
    have zB : ∫ ω, B ω ∂P = 0 := by
      rw [hB, integral_finsetSum _ fun i _ => I (G := fun y => y i) (by fun_prop)]
      exact Finset.sum_eq_zero fun i _ => h1 i
    simp only [h1, h2, integral_const_mul, mul_zero, i1, i2, zB, zero_mul] at v1 v2 v3 v5 v6 v7 v8
    rw [integral_add tA tB2, i1, i2, h2] at v4
    have ia : ∀ {f g : Ω → ℝ}, Integrable f P → Integrable g P → Integrable (fun ω => f ω + g ω) P :=
      fun hf hg => hf.add hg
    refine ⟨?_, ?_, ?_, ?_, ?_⟩
    · rw [integral_add tY2 tA, h2, i1]; ring
    · rw [show (fun ω => (Y j ω + B ω) ^ 2) = fun ω => B ω ^ 2 + (Y j ω ^ 2 + 2 * B ω * Y j ω) by
        funext ω; ring]
      rw [integral_add tB2 (ia tY2 u1), integral_add tY2 u1, i2, h2, v1]; ring
    · rw [show (fun ω => (Y j ω ^ 2 + A ω) ^ 2) = fun ω => A ω ^ 2 + (Y j ω ^ 4 + 2 * A ω * Y j ω ^ 2) by
        funext ω; ring]
      rw [integral_add tA2 (ia tY4 u2), integral_add tY4 u2, i3, h4, v2]; ring
    · rw [show (fun ω => (Y j ω ^ 2 + A ω) * (Y j ω + B ω) ^ 2) = fun ω => A ω * B ω ^ 2 + (Y j ω ^ 4 +
          (2 * A ω * B ω * Y j ω + ((A ω + B ω ^ 2) * Y j ω ^ 2 + 2 * B ω * Y j ω ^ 3))) by
        funext ω; ring]
      rw [integral_add tAB (ia tY4 (ia u3 (ia u4 u5))), integral_add tY4 (ia u3 (ia u4 u5)),
        integral_add u3 (ia u4 u5), integral_add u4 u5, i4, h4, v3, v4, v5]; ring
    · rw [show (fun ω => (Y j ω + B ω) ^ 4) = fun ω => B ω ^ 4 + (Y j ω ^ 4 +
          (4 * B ω ^ 3 * Y j ω + (6 * B ω ^ 2 * Y j ω ^ 2 + 4 * B ω * Y j ω ^ 3))) by
        funext ω; ring]
      rw [integral_add tB4 (ia tY4 (ia u6 (ia u7 u8))), integral_add tY4 (ia u6 (ia u7 u8)),
        integral_add u6 (ia u7 u8), integral_add u7 u8, i5, h4, v6, v7, v8]; ring

end Pysatl
