import Verif.Props.Normal
import Verif.Props.Uniform

/-! # C101: which normality criteria return a value -/

namespace Pysatl.Props

open Pysatl.Graph Pysatl.Normal Pysatl.Edf

theorem pearsonr_returns (z : List ℝ) {l : List ℝ} (h : 2 ≤ l.length) : ∃ v, pearsonr z l = .ok v := by
  unfold pearsonr
  rw [if_neg (by omega)]
  exact ⟨_, rfl⟩

/-- **C101 (partial).** Every criterion of `normal.py`, apart from Brys-Hubert-Struyf and the graph
criteria, returns a number, not an exception or Python's `None`, for eight or more observations.
Missing: smaller samples, see `C101_refuted_zhangQ`, and Brys-Hubert-Struyf, see `C101_refuted`.
Division by zero is not an error in this model: see C110. -/
theorem C101_normal_partial (lib : NormLib) (s : NormStat) {xs : List ℝ} (h : 8 ≤ xs.length) :
    ∃ v : ℝ, s.value lib xs = .ok (some v) := by
  have hne : xs ≠ [] := List.ne_nil_of_length_pos (by omega)
  have hl := length_sort xs
  have hs : sort xs ≠ [] := sort_ne_nil hne
  have hg : ∀ v : Except PyErr ℝ, (∃ d, v = .ok d) → ∃ d, guarded xs v = .ok (some d) := by
    rintro _ ⟨d, rfl⟩
    unfold guarded
    rw [if_pos (by omega)]
    exact ⟨d, rfl⟩
  have hm : ∀ v : Except PyErr ℝ, (∃ d, v = .ok d) → ∃ d, v.map some = .ok (some d) := by
    rintro _ ⟨d, rfl⟩
    exact ⟨d, rfl⟩
  cases s <;> simp only [NormStat.value] <;>
    first
    | exact ⟨_, rfl⟩
    | exact hg _ ⟨_, rfl⟩
    | skip
  case ks t => exact hm _ (ks_ne_error t (by simpa using hs))
  case shapiroWilk =>
    refine hm _ ?_
    unfold Normal.shapiroWilk
    rw [if_neg (by omega), if_neg (by omega)]
    exact ⟨_, rfl⟩
  case lilliefors =>
    refine hm _ (ks_ne_error _ ?_)
    intro h0
    have h1 := congrArg List.length h0
    rw [List.length_map, length_sort] at h1
    simp only [standardised, List.length_map, List.length_nil] at h1
    omega
  case jarqueBera =>
    refine hm _ ?_
    unfold Normal.jarqueBera
    rw [if_neg (by omega)]
    exact ⟨_, rfl⟩
  case skew =>
    refine hm _ ?_
    unfold skewTest
    rw [if_neg (by omega)]
    exact ⟨_, rfl⟩
  case kurtosis =>
    refine hm _ ?_
    unfold kurtosisTest
    rw [if_neg (by omega)]
    exact ⟨_, rfl⟩
  case dap =>
    refine hm _ ?_
    unfold Normal.dap skewTest kurtosisTest
    rw [if_neg (by omega), if_neg (by omega)]
    exact ⟨_, rfl⟩
  case filli =>
    refine hm _ ?_
    unfold Normal.filli
    rw [if_neg (by omega)]
    exact pearsonr_returns _ (by omega)
  case looneyGulledge => exact hm _ (pearsonr_returns _ (by omega))
  case ryanJoiner w α => exact hm _ (pearsonr_returns _ (by omega))
  case cabanaCabana1 => exact hg _ (npMax_exists (by simpa [standardised] using hne))
  case cabanaCabana2 => exact hg _ (npMax_exists (by simpa [cc2Standardised] using hne))
  case zhangQ =>
    refine hg _ ?_
    unfold Normal.zhangQ
    dsimp only
    rw [if_neg (by omega)]
    exact ⟨_, rfl⟩
  case zhangQStar =>
    refine hg _ ?_
    unfold Normal.zhangQStar
    dsimp only
    rw [if_neg (by omega)]
    exact ⟨_, rfl⟩
  case spiegelhalter =>
    refine hg _ ?_
    obtain ⟨a, ha⟩ := npMax_exists hne
    obtain ⟨b, hb⟩ : ∃ b, Exponent.pyMin xs = .ok b := by
      unfold Exponent.pyMin
      rcases h' : xs.min? with _ | b
      · exact absurd (List.min?_eq_none_iff.1 h') hne
      · exact ⟨b, rfl⟩
    unfold Normal.spiegelhalter
    simp only [ha, hb]
    exact ⟨_, rfl⟩

/-- **C101 (refuted).** Zhang's two criteria raise `IndexError` for every sample of four to seven
observations, the skewness criterion `ValueError`. -/
theorem C101_refuted_zhangQ (lib : NormLib) {xs : List ℝ} (h4 : 4 ≤ xs.length) (h7 : xs.length ≤ 7) :
    NormStat.zhangQ.value lib xs = .error .indexError ∧
    NormStat.zhangQStar.value lib xs = .error .indexError ∧
    NormStat.skew.value lib xs = .error .valueError ∧ NormStat.dap.value lib xs = .error .valueError := by
  refine ⟨?_, ?_, ?_, ?_⟩
  · simp only [NormStat.value, guarded, Normal.zhangQ]
    rw [if_pos (by omega), if_pos (by omega)]; rfl
  · simp only [NormStat.value, guarded, Normal.zhangQStar]
    rw [if_pos (by omega), if_pos (by omega)]; rfl
  · simp only [NormStat.value, skewTest]
    rw [if_pos (by omega)]; rfl
  · simp only [NormStat.value, Normal.dap, skewTest]
    rw [if_pos (by omega)]; rfl

example : (8 ≤ ([1, 2, 3, 4, 5, 6, 7, 8] : List ℝ).length) ∧ 4 ≤ ([1, 2, 3, 5] : List ℝ).length ∧
    ([1, 2, 3, 5] : List ℝ).length ≤ 7 := by simp

end Pysatl.Props
