import Verif.Model.Sample
import Mathlib.Algebra.BigOperators.Fin
import Mathlib.Algebra.BigOperators.Ring.Finset
import Mathlib.Tactic.FieldSimp
import Mathlib.Tactic.Ring
import Mathlib.Tactic.NormNum

/-! # C113: sample moments -/

namespace Pysatl.Props

open Pysatl.Sample

/-- Specification: the average over the observations of the `k`-th power of the deviation from `c`. -/
def momentAbout {K : Type*} [Field K] {n : ℕ} (x : Fin n → K) (k : ℕ) (c : K) : K :=
  (∑ i, (x i - c) ^ k) / n

theorem npMean_map_ofFn {K : Type*} [Field K] {n : ℕ} (x : Fin n → K) (f : K → K) :
    npMean ((List.ofFn x).map f) = (∑ i, f (x i)) / n := by
  rw [npMean, List.map_ofFn, List.sum_ofFn, List.length_ofFn]
  rfl

/-- **C113, what holds.** With a centre, `moment` is the moment about that centre; `central_moment`
is the moment about the sample mean (0 for order 1), and the raw moment is obtained with
`center=0`. Missing: the announced raw moment when no centre is given. -/
theorem C113_moments_partial {K : Type*} [Field K] {n : ℕ} (x : Fin n → K) (k : ℕ) (c : K) :
    moment (List.ofFn x) k (some c) = momentAbout x k c ∧
    centralMoment (List.ofFn x) k = momentAbout x k ((∑ i, x i) / n) ∧
    moment (List.ofFn x) k (some 0) = (∑ i, x i ^ k) / n ∧
    ((n : K) ≠ 0 → centralMoment (List.ofFn x) 1 = 0) := by
  have hm : npMean (List.ofFn x) = (∑ i, x i) / n := by
    rw [npMean, List.sum_ofFn, List.length_ofFn]
  have h : ∀ k c, moment (List.ofFn x) k (some c) = momentAbout x k c := fun k c => by
    show npMean ((List.ofFn x).map fun y => (y - c) ^ k) = _
    rw [npMean_map_ofFn]; rfl
  have hc : ∀ k, centralMoment (List.ofFn x) k = momentAbout x k ((∑ i, x i) / n) := fun k => by
    rw [← h, ← hm]; rfl
  refine ⟨h k c, hc k, ?_, ?_⟩
  · rw [h, momentAbout]; simp
  · intro hn
    rw [hc, momentAbout]
    simp only [pow_one, Finset.sum_sub_distrib, Finset.sum_const, Finset.card_univ, Fintype.card_fin,
      nsmul_eq_mul]
    field_simp
    ring

example : moment (List.ofFn ![(1 : ℚ), 2, 3]) 2 (some 0) = 14 / 3 := by
  rw [(C113_moments_partial ![(1 : ℚ), 2, 3] 2 0).2.2.1]
  simp [Fin.sum_univ_three]; norm_num

/-- **C113, refuted.** Without a centre the announced raw moment is not returned: for every sample
`moment(a, mom)` is the central moment, so `moment(a)` is 0 whatever the sample and its raw first
moment, the mean, is returned only if it is 0. -/
theorem C113_refuted_raw {K : Type*} [Field K] {n : ℕ} (x : Fin n → K) (hn : (n : K) ≠ 0) :
    (∀ k, moment (List.ofFn x) k = momentAbout x k ((∑ i, x i) / n)) ∧
    moment (List.ofFn x) = 0 ∧
    (moment (List.ofFn x) = momentAbout x 1 0 ↔ ∑ i, x i = 0) := by
  have h : ∀ k, moment (List.ofFn x) k = centralMoment (List.ofFn x) k := fun _ => rfl
  have h0 : moment (List.ofFn x) = 0 := by
    rw [h]; exact (C113_moments_partial x 1 0).2.2.2 hn
  refine ⟨fun k => by rw [h]; exact (C113_moments_partial x k 0).2.1, h0, ?_⟩
  rw [h0, momentAbout]
  simp only [sub_zero, pow_one]
  rw [eq_comm, div_eq_zero_iff]
  simp [hn]

/-- The mean of 1, 2, 3 is 2. -/
example : moment (List.ofFn ![(1 : ℚ), 2, 3]) = 0 ∧ momentAbout ![(1 : ℚ), 2, 3] 1 0 = 2 := by
  refine ⟨(C113_refuted_raw _ (by norm_num)).2.1, ?_⟩
  simp [momentAbout, Fin.sum_univ_three]; norm_num

end Pysatl.Props
