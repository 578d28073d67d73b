import Verif.Spec.Zhang
import Verif.Props.Mirror

/-! # C94: Zhang's statistics -/

namespace Pysatl.Props

open Pysatl.Decision Pysatl.Graph Pysatl.Edf Pysatl.Exponent Pysatl.Normal Pysatl.Uniform Pysatl.Spec
open Pysatl.Student (StudentLib StudentStat)

/-- `-log x / a - log (1 - x) / b` is smallest at `x = b / (a + b)`, and only there. -/
theorem zhangA_term {a b x : ℝ} (ha : 0 < a) (hb : 0 < b) (hx : 0 < x) (hx1 : x < 1) :
    Real.log x / a + Real.log (1 - x) / b ≤
      Real.log (b / (a + b)) / a + Real.log (1 - b / (a + b)) / b ∧
    (Real.log x / a + Real.log (1 - x) / b =
      Real.log (b / (a + b)) / a + Real.log (1 - b / (a + b)) / b → x = b / (a + b)) := by
  have hab : 0 < a + b := by linarith
  set m := b / (a + b) with hm
  have hm0 : 0 < m := by positivity
  have hm1 : 1 - m = a / (a + b) := by rw [hm]; field_simp; ring
  have hm1' : 0 < 1 - m := by rw [hm1]; positivity
  have e1 : Real.log x = Real.log m + Real.log (x / m) := by
    rw [← Real.log_mul hm0.ne' (by positivity)]; congr 1; field_simp
  have e2 : Real.log (1 - x) = Real.log (1 - m) + Real.log ((1 - x) / (1 - m)) := by
    rw [← Real.log_mul hm1'.ne' (by have : 0 < 1 - x := by linarith
                                    positivity)]
    congr 1; field_simp
  have hsum : (x / m - 1) / a + ((1 - x) / (1 - m) - 1) / b = 0 := by
    rw [hm1, hm]; field_simp; ring
  have p1 : 0 < x / m := by positivity
  have p2 : 0 < (1 - x) / (1 - m) := by
    have : 0 < 1 - x := by linarith
    positivity
  have i1 := Real.log_le_sub_one_of_pos p1
  have i2 := Real.log_le_sub_one_of_pos p2
  have j1 : Real.log (x / m) / a ≤ (x / m - 1) / a := by gcongr
  have j2 : Real.log ((1 - x) / (1 - m)) / b ≤ ((1 - x) / (1 - m) - 1) / b := by gcongr
  constructor
  · rw [e1, e2, add_div, add_div]
    linarith
  · intro h
    rw [e1, e2, add_div, add_div] at h
    by_contra hne
    have hne1 : x / m ≠ 1 := by
      intro h1
      exact hne ((div_eq_one_iff_eq hm0.ne').1 h1)
    have k1 : Real.log (x / m) / a < (x / m - 1) / a := by
      have := Real.log_lt_sub_one_of_pos p1 hne1
      gcongr
    linarith

/-- Zhang's `Z_A` is smallest at the midpoints, and only there. -/
theorem zhangA_min {n : ℕ} {F : Fin n → ℝ} (hF : ∀ i, 0 < F i ∧ F i < 1) :
    zhangA (midpoint n) ≤ zhangA F ∧ (zhangA F = zhangA (midpoint n) → F = midpoint n) := by
  have key : ∀ i : Fin n, 0 < (n : ℝ) - ((i : ℕ) + 1) + 1 / 2 ∧ 0 < ((i : ℕ) : ℝ) + 1 - 1 / 2 ∧
      (((i : ℕ) : ℝ) + 1 - 1 / 2) / ((n : ℝ) - ((i : ℕ) + 1) + 1 / 2 + (((i : ℕ) : ℝ) + 1 - 1 / 2)) =
        midpoint n i := by
    intro i
    have h1 : ((i : ℕ) : ℝ) + 1 ≤ n := by exact_mod_cast i.2
    have h2 : (0 : ℝ) ≤ (i : ℕ) := by positivity
    refine ⟨by linarith, by linarith, ?_⟩
    unfold Spec.midpoint
    congr 1
    ring
  have term : ∀ i : Fin n, _ := fun i => zhangA_term (key i).1 (key i).2.1 (hF i).1 (hF i).2
  simp only [(key _).2.2] at term
  unfold zhangA
  constructor
  · exact neg_le_neg (Finset.sum_le_sum fun i _ => (term i).1)
  · intro h
    have h := neg_injective h
    have := (Finset.sum_eq_sum_iff_of_le fun i _ => (term i).1).1 h
    funext i
    exact (term i).2 (this i (Finset.mem_univ i))

theorem uniform_zhangA (vals : List ℝ) :
    Uniform.zhang .A vals = zhangA fun i : Fin vals.length => vals[i] := by
  simp only [Uniform.zhang, zhangA, sum_mapIdx, Finset.sum_add_distrib]
  ring

theorem student_zhangA (vals : List ℝ) :
    Student.zhangZa vals = zhangA fun i : Fin vals.length => vals[i] := by
  simp only [Student.zhangZa, zhangA, sum_mapIdx, Finset.sum_add_distrib]
  ring

/-- **C94 (partial)**: for samples inside the interval the uniform statistic of type `"A"` is Zhang's
`Z_A`; it is smallest, over all samples of that size, exactly when the standardised ordered sample sits at
the midpoints `(i - 1/2)/n`.  Missing: types `"C"` and `"K"` and the Student statistic `Zc`, for which
the claim is false (`C94_refuted_*`). -/
theorem C94_uniform_partial {a b : ℝ} {xs : List ℝ} (h : ∀ x ∈ xs, a < x ∧ x < b) :
    ∃ F : Fin xs.length → ℝ, (∃ hl : (sort xs).length = xs.length,
        ∀ i, F i = ((sort xs)[i.cast hl.symm] - a) / (b - a)) ∧
      UniStat.value (.zhang .A) a b xs = .ok (zhangA F) ∧ zhangA (midpoint xs.length) ≤ zhangA F ∧
      (zhangA F = zhangA (midpoint xs.length) → F = midpoint xs.length) := by
  have hl : (sort xs).length = xs.length := length_sort xs
  have hv : (uniformVals a b xs).length = xs.length := by simp [uniformVals, hl]
  have hF : ∀ i : Fin xs.length, 0 < ((sort xs)[i.cast hl.symm] - a) / (b - a) ∧
      ((sort xs)[i.cast hl.symm] - a) / (b - a) < 1 := by
    intro i
    have hm : (sort xs)[i.cast hl.symm] ∈ xs := (sort_perm xs).mem_iff.1 (List.getElem_mem _)
    have := h _ hm
    have hba : 0 < b - a := by linarith [this.1, this.2]
    constructor
    · apply div_pos _ hba; linarith
    · rw [div_lt_one hba]; linarith
  refine ⟨_, ⟨hl, fun i => rfl⟩, ?_, zhangA_min hF⟩
  simp only [UniStat.value, validateUniform_ok fun x hx => ⟨(h x hx).1.le, (h x hx).2.le⟩, bind, Except.bind,
    uniform_zhangA]
  change Except.ok _ = _
  congr 1
  have : ∀ (n : ℕ) (hn : (uniformVals a b xs).length = n),
      zhangA (fun i : Fin (uniformVals a b xs).length => (uniformVals a b xs)[i]) =
        zhangA fun i : Fin n => (uniformVals a b xs)[i.cast hn.symm] := by
    intro n hn; subst hn; rfl
  rw [this _ hv]
  congr 1
  funext i
  simp only [uniformVals, List.getElem_map, Fin.getElem_fin, Fin.val_cast]
  rfl

example : ∀ x ∈ [(1 : ℝ), 2], (0 : ℝ) < x ∧ x < 3 := by norm_num

/-- **C94 (partial)** for Student's distribution: if the distribution function at the observations is in
`[1e-10, 1 - 1e-10]` (values outside are moved there), the statistic is Zhang's `Z_A`. -/
theorem C94_student_partial (lib : StudentLib) (p : Student.Params) {xs : List ℝ}
    (h : ∀ x ∈ xs, Student.eps ≤ lib.cdf p.df ((x - p.loc) / p.scale) ∧
      lib.cdf p.df ((x - p.loc) / p.scale) ≤ 1 - Student.eps) :
    ∃ F : Fin xs.length → ℝ, (∃ hl : (sort xs).length = xs.length,
        ∀ i, F i = lib.cdf p.df (((sort xs)[i.cast hl.symm] - p.loc) / p.scale)) ∧
      StudentStat.value lib p .zhangZa xs = .ok (zhangA F) ∧ zhangA (midpoint xs.length) ≤ zhangA F ∧
      (zhangA F = zhangA (midpoint xs.length) → F = midpoint xs.length) := by
  have hl : (sort xs).length = xs.length := length_sort xs
  have he : 0 < Student.eps := by norm_num [Student.eps]
  have hmem : ∀ i : Fin xs.length, (sort xs)[i.cast hl.symm] ∈ xs :=
    fun i => (sort_perm xs).mem_iff.1 (List.getElem_mem _)
  have hF : ∀ i : Fin xs.length, 0 < lib.cdf p.df (((sort xs)[i.cast hl.symm] - p.loc) / p.scale) ∧
      lib.cdf p.df (((sort xs)[i.cast hl.symm] - p.loc) / p.scale) < 1 := by
    intro i
    have := h _ (hmem i)
    constructor <;> linarith
  refine ⟨_, ⟨hl, fun i => rfl⟩, ?_, zhangA_min hF⟩
  simp only [StudentStat.value, student_zhangA]
  congr 1
  set vals := (Student.standardized p xs).map fun x => Student.clip (lib.cdf p.df x) with hvals
  have hv : vals.length = xs.length := by simp [hvals, Student.standardized, hl]
  have : ∀ (n : ℕ) (hn : vals.length = n),
      zhangA (fun i : Fin vals.length => vals[i]) = zhangA fun i : Fin n => vals[i.cast hn.symm] := by
    intro n hn; subst hn; rfl
  rw [this _ hv]
  congr 1
  funext i
  have := h _ (hmem i)
  simp only [Fin.getElem_fin, Fin.val_cast] at this
  simp [hvals, Student.standardized, Student.clip, max_eq_left this.1, min_eq_left this.2]

/-- **C94 is false** of the uniform statistics of type `"C"` and `"K"`: a single observation in the middle of the
interval has `Z_C = 0`, but the statistic is positive; at one tenth of the interval `Z_K` is not the
value of the statistic either. -/
theorem C94_refuted_uniform :
    (zhangC (fun _ : Fin 1 => 1 / 2) = 0 ∧
      ∃ v, UniStat.value (.zhang .C) 0 1 [1 / 2] = .ok v ∧ v ≠ 0) ∧
    ∃ v, UniStat.value (.zhang .K) 0 1 [1 / 10] = .ok v ∧ ¬ IsZhangK (fun _ : Fin 1 => 1 / 10) v := by
  have hl2 : Real.log (1 / 2) < 0 := Real.log_neg (by norm_num) (by norm_num)
  refine ⟨⟨?_, ?_⟩, ?_⟩
  · norm_num [zhangC]
  · refine ⟨_, by
      simp only [UniStat.value, validateUniform_ok (a := (0 : ℝ)) (b := 1) (rvs := [1 / 2]) (by norm_num), bind,
        Except.bind]
      rfl, ?_⟩
    have e : (1 : ℝ) - 1 / 2 = 1 / 2 := by norm_num
    have h0 := hl2.ne
    simp only [Uniform.zhang, uniformVals, sort, List.insertionSort_cons, List.insertionSort_nil,
      List.orderedInsert_nil, List.map_cons, List.map_nil, sub_zero, div_one, List.mapIdx_cons, List.mapIdx_nil,
      List.length_cons, List.length_nil, List.sum_cons, List.sum_nil]
    norm_num at h0 ⊢
  · refine ⟨_, by
      simp only [UniStat.value, validateUniform_ok (a := (0 : ℝ)) (b := 1) (rvs := [1 / 10]) (by norm_num), bind,
        Except.bind]
      rfl, ?_⟩
    rintro ⟨_, i, hi⟩
    have h1 : zhangKTerm (fun _ : Fin 1 => (1 : ℝ) / 10) i =
        1 / 2 * Real.log (25 / 9) := by
      have : i = 0 := Subsingleton.elim _ _
      subst this
      rw [show (25 : ℝ) / 9 = 5 * (5 / 9) by norm_num, Real.log_mul (by norm_num) (by norm_num)]
      norm_num [zhangKTerm]
      ring
    rw [h1] at hi
    have h2 : Uniform.zhang .K (uniformVals 0 1 [(1 : ℝ) / 10]) = 2 * Real.log 9 := by
      simp only [Uniform.zhang, uniformVals, sort, List.insertionSort_cons, List.insertionSort_nil,
        List.orderedInsert_nil, List.map_cons, List.map_nil, sub_zero, div_one, List.mapIdx_cons, List.mapIdx_nil,
        List.length_cons, List.length_nil, List.sum_cons, List.sum_nil]
      have h9 : 0 < Real.log 9 := Real.log_pos (by norm_num)
      have hi9 : Real.log (1 / 9) = -Real.log 9 := by rw [one_div, Real.log_inv]
      norm_num
      rw [hi9, neg_div, abs_neg, abs_div, abs_of_pos h9, abs_of_pos (by norm_num : (0 : ℝ) < 1 / 2), max_self]
      ring
    rw [h2] at hi
    have h3 : Real.log (25 / 9) < Real.log 9 := Real.log_lt_log (by norm_num) (by norm_num)
    have h9 : 0 < Real.log 9 := Real.log_pos (by norm_num)
    linarith

/-- **C94 is false** of the Student statistic `Zc`: for a single observation at the median, where Zhang's
`Z_C` is `0`, its value is `(log 10¹⁰)²`, more than 500. -/
theorem C94_refuted_student {lib : StudentLib} {df : ℝ} (h : lib.cdf df 0 = 1 / 2) (loc scale : ℝ) :
    zhangC (fun _ : Fin 1 => 1 / 2) = 0 ∧
    ∃ v, StudentStat.value lib ⟨df, loc, scale⟩ .zhangZc [loc] = .ok v ∧ 100 < v := by
  refine ⟨by norm_num [zhangC], _, rfl, ?_⟩
  have hc : Student.clip (1 / 2) = 1 / 2 := by
    unfold Student.clip Student.eps
    rw [max_eq_left (by norm_num), min_eq_left (by norm_num)]
  have : Student.zhangZc ((Student.standardized ⟨df, loc, scale⟩ [loc]).map
      fun x => Student.clip (lib.cdf df x)) = Real.log (10 ^ 10) ^ 2 := by
    simp only [Student.standardized, sort, List.insertionSort_cons, List.insertionSort_nil,
      List.orderedInsert_nil, List.map_cons, List.map_nil, sub_self, zero_div, h, hc, Student.zhangZc,
      List.mapIdx_cons, List.mapIdx_nil, List.length_cons, List.length_nil, List.sum_cons, List.sum_nil]
    norm_num [Student.eps]
  rw [this, Real.log_pow]
  have h10 : 1 < Real.log 10 := by
    rw [Real.lt_log_iff_exp_lt (by norm_num)]
    exact Real.exp_one_lt_d9.trans (by norm_num)
  push_cast
  nlinarith

example : toyStudent.cdf 3 0 = 1 / 2 := by norm_num [toyStudent]

end Pysatl.Props
