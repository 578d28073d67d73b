import Verif.Model.SampleObject
import Verif.Lemmas.Decision
import Verif.Lemmas.Graph
import Verif.Props.ExponentRange

/-! # C77 for the Hosking statistics: lists stay as they are, arrays are sorted -/

namespace Pysatl.Props

open Pysatl.Decision Pysatl.Graph Pysatl.Normal

theorem trimmedMomentOf_sort (t r : ℕ) (xs : List ℝ) :
    trimmedMomentOf t r (sort xs) = trimmedMoment t r xs := by
  have h : (sort xs).length = xs.length := (sort_perm xs).length_eq
  unfold trimmedMomentOf trimmedMoment
  rw [h]

theorem exec_hosking_copy (t : ℕ) (short : Option ℝ) (s : Sample ℝ) :
    Py.exec (hoskingTrimmedPy copyAll t short) s =
      (.ok (if 3 < s.values.length then some (hoskingTrimmed t s.values) else short), s) := by
  have hl : (sort s.values).length = s.values.length := (sort_perm s.values).length_eq
  unfold hoskingTrimmedPy
  simp only [exec_bind, exec_get]
  by_cases h : 3 < s.values.length
  · simp only [h, if_true, exec_bind, copyAll, Buffer.sortInPlace, Buffer.read, exec_pure]
    rw [hl, trimmedMomentOf_sort, trimmedMomentOf_sort, trimmedMomentOf_sort]
    rfl
  · simp only [h, if_false, exec_pure]

theorem exec_hosking_array (t : ℕ) (short : Option ℝ) (v : List ℝ) :
    Py.exec (hoskingTrimmedPy sliceAll t short) (.ndarray v) =
      (.ok (if 3 < v.length then some (hoskingTrimmed t v) else short),
        .ndarray (if 3 < v.length then sort v else v)) := by
  have hl : (sort v).length = v.length := (sort_perm v).length_eq
  unfold hoskingTrimmedPy
  simp only [exec_bind, exec_get, Sample.values]
  by_cases h : 3 < v.length
  · simp only [h, if_true, exec_bind, sliceAll, Buffer.sortInPlace, Buffer.read, exec_pure, exec_get, exec_set,
      Sample.setValues, Sample.values]
    rw [hl, trimmedMomentOf_sort, trimmedMomentOf_sort, trimmedMomentOf_sort]
    rfl
  · simp only [h, if_false, exec_pure]

theorem exec_hosking_list (t : ℕ) (short : Option ℝ) (v : List ℝ) :
    Py.exec (hoskingTrimmedPy sliceAll t short) (.list v) =
      Py.exec (hoskingTrimmedPy copyAll t short) (.list v) := by
  unfold hoskingTrimmedPy
  simp only [exec_bind, exec_get]
  rfl

/-- **C77, what holds of the trimmed Hosking statistics.**  They compute the values of C109 whatever kind of
sequence they get.  The statistic that trims one observation on either side leaves every sample as it was; those
that trim two and three leave a list as it was. -/
theorem C77_hosking_partial (lib : NormLib) (s : Sample ℝ) (v : List ℝ) :
    Py.exec hosking2Py s = (NormStat.hosking2.value lib s.values, s) ∧
    Py.exec hosking3Py (.list v) = (NormStat.hosking3.value lib v, .list v) ∧
    Py.exec hosking4Py (.list v) = (NormStat.hosking4.value lib v, .list v) ∧
    (Py.exec hosking3Py s).1 = NormStat.hosking3.value lib s.values ∧
    (Py.exec hosking4Py s).1 = NormStat.hosking4.value lib s.values := by
  refine ⟨?_, ?_, ?_, ?_, ?_⟩
  · rw [hosking2Py, exec_hosking_copy]
    simp only [NormStat.value]
    split_ifs <;> rfl
  · rw [hosking3Py, exec_hosking_list, exec_hosking_copy]
    by_cases h : 3 < v.length <;> simp [NormStat.value, Sample.values, guarded, h, Except.map]
  · rw [hosking4Py, exec_hosking_list, exec_hosking_copy]
    by_cases h : 3 < v.length <;> simp [NormStat.value, Sample.values, guarded, h, Except.map]
  · cases s with
    | list v => rw [hosking3Py, exec_hosking_list, exec_hosking_copy]; by_cases h : 3 < v.length <;> simp [NormStat.value, Sample.values, guarded, h, Except.map]
    | ndarray v => rw [hosking3Py, exec_hosking_array]; by_cases h : 3 < v.length <;> simp [NormStat.value, Sample.values, guarded, h, Except.map]
  · cases s with
    | list v => rw [hosking4Py, exec_hosking_list, exec_hosking_copy]; by_cases h : 3 < v.length <;> simp [NormStat.value, Sample.values, guarded, h, Except.map]
    | ndarray v => rw [hosking4Py, exec_hosking_array]; by_cases h : 3 < v.length <;> simp [NormStat.value, Sample.values, guarded, h, Except.map]

/-- **C77 is false** of the Hosking statistics that trim two and three observations: they sort the caller's array
in place.  An array of four or more numbers is left as it was only if it was in ascending order. -/
theorem C77_refuted_hosking {v : List ℝ} (hn : 3 < v.length) (huns : ¬ v.Pairwise (· ≤ ·)) :
    (Py.exec hosking3Py (.ndarray v)).2 ≠ .ndarray v ∧ (Py.exec hosking4Py (.ndarray v)).2 ≠ .ndarray v ∧
    ∃ w, (Py.exec hosking3Py (.ndarray v)).2 = .ndarray w ∧ (Py.exec hosking4Py (.ndarray v)).2 = .ndarray w ∧
      w.Perm v ∧ w.Pairwise (· ≤ ·) := by
  have hs : sort v ≠ v := fun h => huns (h ▸ sort_pairwise v)
  rw [hosking3Py, hosking4Py, exec_hosking_array, exec_hosking_array]
  simp only [hn, if_true]
  refine ⟨fun h => hs (by injection h), fun h => hs (by injection h), sort v, rfl, rfl, sort_perm v,
    sort_pairwise v⟩

example : (Py.exec hosking3Py (.ndarray [4, 1, 3, 2])).2 ≠ .ndarray [4, 1, 3, 2] :=
  (C77_refuted_hosking (v := [4, 1, 3, 2]) (by simp) (by norm_num)).1

end Pysatl.Props
