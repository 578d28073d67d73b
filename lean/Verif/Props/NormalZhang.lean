import Verif.Props.Zhang
import Verif.Props.NormalMirror
import Verif.Props.NormalPlot

/-! # C94: the statistics of Zhang and Wu for normality -/

namespace Pysatl.Props

open Pysatl.Decision Pysatl.Graph Pysatl.Edf Pysatl.Normal Pysatl.Spec ProbabilityTheory

theorem sort_monotone {f : ℝ → ℝ} (hf : Monotone f) (l : List ℝ) : sort (l.map f) = (sort l).map f := by
  refine List.Perm.eq_of_pairwise (le := (· ≤ ·)) (fun a b _ _ h1 h2 => le_antisymm h1 h2)
    (sort_pairwise _) ?_ ((sort_perm _).trans ((sort_perm l).symm.map f))
  exact List.pairwise_map.2 ((sort_pairwise l).imp fun h => hf h)

theorem phiz_at {xs : List ℝ} (hn : 3 < xs.length) {o : ℕ → ℝ}
    (ho : OrderStats xs o) (i : ℕ) (hi : i < xs.length) (hi' : i < (phiz scipyNorm xs).length) :
    (phiz scipyNorm xs)[i] = fittedNormal xs (o (i + 1)) := by
  have hmono : Monotone fun x => Phi ((x - mean xs) / sd1 xs) := by
    intro x y hxy
    refine Phi_strictMono.monotone ?_
    have : 0 ≤ sd1 xs := Real.sqrt_nonneg _
    gcongr
  have e : phiz scipyNorm xs = (sort xs).map fun x => Phi ((x - mean xs) / sd1 xs) := by
    rw [phiz, standardised, List.map_map, ← sort_monotone hmono]
    rfl
  have h1 := at_sort_orderStats ho hi
  rw [Exponent.at_, List.getD_eq_getElem _ _ (by rw [length_sort]; exact hi)] at h1
  simp only [e, List.getElem_map, h1]
  rfl

theorem zhangC_zero {n : ℕ} {F : Fin n → ℝ} (hF : ∀ i, 0 < F i ∧ F i < 1) :
    0 ≤ zhangC F ∧ (zhangC F = 0 ↔ ∀ i, F i = (((i : ℕ) : ℝ) + 1 - 3 / 4) / ((n : ℝ) - 1 / 2)) := by
  refine ⟨Finset.sum_nonneg fun i _ => sq_nonneg _, ?_⟩
  unfold zhangC
  rw [Finset.sum_eq_zero_iff_of_nonneg fun i _ => sq_nonneg _]
  simp only [Finset.mem_univ, true_implies, pow_eq_zero_iff two_ne_zero]
  refine forall_congr' fun i => ?_
  have h1 : ((i : ℕ) : ℝ) + 1 ≤ n := by exact_mod_cast i.2
  have h2 : (0 : ℝ) ≤ (i : ℕ) := by positivity
  obtain ⟨h3, h4⟩ := hF i
  generalize F i = x at h3 h4
  generalize ((i : ℕ) : ℝ) = k at h1 h2
  generalize (n : ℝ) = m at h1
  have hk : 0 < k + 1 - 3 / 4 := by linarith
  have hm : 0 < m - 1 / 2 := by linarith
  have hp : 0 < (1 / x - 1) := by rw [sub_pos, lt_div_iff₀ h3]; linarith
  have hq : 0 < (m - 1 / 2) / (k + 1 - 3 / 4) - 1 := by rw [sub_pos, lt_div_iff₀ hk]; linarith
  have hr := div_pos hp hq
  constructor
  · intro h
    have : (1 / x - 1) / ((m - 1 / 2) / (k + 1 - 3 / 4) - 1) = 1 := by
      rcases Real.log_eq_zero.1 h with h | h | h <;> linarith
    rw [div_eq_one_iff_eq hq.ne'] at this
    have : 1 / x = (m - 1 / 2) / (k + 1 - 3 / 4) := by linarith
    rw [div_eq_div_iff h3.ne' hk.ne'] at this
    rw [eq_div_iff hm.ne']
    linarith
  · rintro rfl
    rw [one_div_div, div_self hq.ne', Real.log_one]

/-- **C94**: for samples of more than three observations the normality statistics of Zhang and Wu are
`10 Z_A - 32` and `Z_C` of the fitted normal distribution function at the ordered sample.  `Z_A` is
smallest exactly at the midpoints, `Z_C` is never negative and vanishes exactly at
`(i - 3/4) / (n - 1/2)`. -/
theorem C94_normal {xs : List ℝ} (hn : 3 < xs.length) {o : ℕ → ℝ} (ho : OrderStats xs o)
    {F : Fin xs.length → ℝ} (hFo : ∀ i, F i = fittedNormal xs (o (i + 1))) :
    NormStat.value scipyNorm .zhangWuA xs = .ok (some (10 * zhangA F - 32)) ∧
    NormStat.value scipyNorm .zhangWuC xs = .ok (some (zhangC F)) ∧
    zhangA (midpoint xs.length) ≤ zhangA F ∧
    (zhangA F = zhangA (midpoint xs.length) → F = midpoint xs.length) ∧
    0 ≤ zhangC F ∧
    (zhangC F = 0 ↔ ∀ i, F i = (((i : ℕ) : ℝ) + 1 - 3 / 4) / ((xs.length : ℝ) - 1 / 2)) := by
  have hl := length_phiz scipyNorm xs
  have hF' : ∀ i : Fin xs.length, (phiz scipyNorm xs)[i.cast hl.symm] = F i := fun i => by
    rw [hFo]
    exact phiz_at hn ho i i.2 (by rw [hl]; exact i.2)
  have hF : ∀ i, 0 < F i ∧ F i < 1 := fun i => by
    rw [← hF' i]
    exact phiz_mem scipyNorm_mirror (List.getElem_mem _)
  have hsum : ∀ f : ℕ → ℝ → ℝ, ((phiz scipyNorm xs).mapIdx f).sum =
      ∑ i : Fin xs.length, f i (F i) := by
    intro f
    rw [sum_mapIdx]
    refine Fintype.sum_equiv (finCongr hl) _ _ fun i => ?_
    rw [← hF']
    rfl
  have hz := zhangA_min hF
  have hc := zhangC_zero hF
  refine ⟨?_, ?_, hz.1, hz.2, hc.1, hc.2⟩
  · simp only [NormStat.value, guarded, if_pos hn, Except.map, Normal.zhangWuA, hsum, zhangA]
    norm_num
  · simp only [NormStat.value, guarded, if_pos hn, Except.map, Normal.zhangWuC, hsum, zhangC]
    norm_num

example : 3 < [(1 : ℝ), 2, 4, 3].length ∧ ∃ o, OrderStats [(1 : ℝ), 2, 4, 3] o :=
  ⟨by norm_num, exists_orderStats _⟩

end Pysatl.Props
