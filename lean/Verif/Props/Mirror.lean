import Verif.Props.NullLaw
import Verif.Props.Families

/-! # C91: mirror images -/

namespace Pysatl.Props

open Pysatl.Decision Pysatl.Graph Pysatl.Edf Pysatl.Exponent Pysatl.Normal Pysatl.Uniform
open Pysatl.Student (StudentLib StudentStat)
open Pysatl.Beta (BetaLib BetaStat)

/-- The transformed sorted sample of the mirror image. -/
noncomputable def flip (vals : List ℝ) : List ℝ := (vals.map (1 - ·)).reverse

@[simp] theorem length_flip (vals : List ℝ) : (flip vals).length = vals.length := by simp [flip]

theorem mapIdx_flip {β : Type} {vals : List ℝ} {f g : ℕ → ℝ → β}
    (h : ∀ i j v, i + j + 1 = vals.length → f i (1 - v) = g j v) :
    (flip vals).mapIdx f = (vals.mapIdx g).reverse := by
  apply List.ext_getElem
  · simp
  · intro i h1 h2
    have hi : i < vals.length := by simpa using h1
    simp only [List.getElem_mapIdx, flip, List.getElem_reverse, List.getElem_map, List.length_map,
      List.length_mapIdx]
    exact h _ _ _ (by omega)

theorem sum_mapIdx_flip {vals : List ℝ} {f g : ℕ → ℝ → ℝ}
    (h : ∀ i j v, i + j + 1 = vals.length → f i (1 - v) = g j v) :
    ((flip vals).mapIdx f).sum = (vals.mapIdx g).sum := by
  rw [mapIdx_flip h, List.sum_reverse]

theorem index_cast {i j n : ℕ} (h : i + j + 1 = n) : (i : ℝ) = n - 1 - j := by
  have : (i : ℝ) + j + 1 = n := by exact_mod_cast h
  linarith

theorem plusGaps_flip (vals : List ℝ) : plusGaps (flip vals) = (minusGaps vals).reverse := by
  unfold plusGaps minusGaps
  refine mapIdx_flip fun i j v h => ?_
  have hn : (vals.length : ℝ) ≠ 0 := by
    have : vals.length ≠ 0 := by omega
    exact_mod_cast this
  rw [length_flip, index_cast h]
  field_simp
  ring

theorem minusGaps_flip (vals : List ℝ) : minusGaps (flip vals) = (plusGaps vals).reverse := by
  unfold plusGaps minusGaps
  refine mapIdx_flip fun i j v h => ?_
  have hn : (vals.length : ℝ) ≠ 0 := by
    have : vals.length ≠ 0 := by omega
    exact_mod_cast this
  rw [length_flip, index_cast h]
  field_simp
  ring

theorem dPlus_flip (vals : List ℝ) : dPlus (flip vals) = dMinus vals := by
  rw [dPlus, plusGaps_flip, npMax_perm (List.reverse_perm _), dMinus]

theorem dMinus_flip (vals : List ℝ) : dMinus (flip vals) = dPlus vals := by
  rw [dMinus, minusGaps_flip, npMax_perm (List.reverse_perm _), dPlus]

theorem d_cases (vals : List ℝ) : (∃ a b, dPlus vals = .ok a ∧ dMinus vals = .ok b) ∨
    (dPlus vals = .error .valueError ∧ dMinus vals = .error .valueError) := by
  rcases eq_or_ne vals [] with rfl | h
  · right; exact ⟨rfl, rfl⟩
  · left
    obtain ⟨a, ha⟩ := dPlus_exists h
    obtain ⟨b, hb⟩ := dMinus_exists h
    exact ⟨a, b, ha, hb⟩

/-- The alternative of the mirrored problem. -/
def mirrorType : AlternativeType → AlternativeType
  | .right => .left
  | .left => .right
  | .twoTailed => .twoTailed

theorem ks_flip (t : AlternativeType) (vals : List ℝ) :
    ks (mirrorType t) (flip vals) = ks t vals := by
  unfold ks
  rw [dMinus_flip, dPlus_flip]
  rcases d_cases vals with ⟨a, b, ha, hb⟩ | ⟨ha, hb⟩
  · cases t <;> simp [mirrorType, ha, hb, bind, Except.bind, pure, Except.pure]
    rcases lt_trichotomy a b with h | h | h
    · simp [h, h.not_gt]
    · simp [h]
    · simp [h, h.not_gt]
  · cases t <;> simp [mirrorType, ha, hb, bind, Except.bind]

theorem kuiper_flip (vals : List ℝ) : kuiper (flip vals) = kuiper vals := by
  unfold kuiper
  rw [dMinus_flip, dPlus_flip]
  rcases d_cases vals with ⟨a, b, ha, hb⟩ | ⟨ha, hb⟩
  · simp [ha, hb, bind, Except.bind, pure, Except.pure, add_comm]
  · simp [ha, hb, bind, Except.bind]

theorem cvm_flip (vals : List ℝ) : cvm (flip vals) = cvm vals := by
  unfold cvm
  rw [length_flip]
  congr 1
  refine sum_mapIdx_flip fun i j v h => ?_
  have hn : (vals.length : ℝ) ≠ 0 := by
    have : vals.length ≠ 0 := by omega
    exact_mod_cast this
  rw [index_cast h, ← sub_sq_comm]
  congr 1
  field_simp
  ring

theorem sum_flip (vals : List ℝ) : (flip vals).sum = vals.length - vals.sum := by
  rw [flip, List.sum_reverse]
  induction vals with
  | nil => simp
  | cons x l ih => simp only [List.map_cons, List.sum_cons, ih, List.length_cons, Nat.cast_succ]; ring

theorem mean_flip {vals : List ℝ} (h : vals ≠ []) : mean (flip vals) = 1 - mean vals := by
  have hn : (vals.length : ℝ) ≠ 0 := by simpa using h
  unfold mean
  rw [sum_flip, length_flip]
  field_simp

theorem watsonBeta_flip (vals : List ℝ) : watsonBeta (flip vals) = watsonBeta vals := by
  rcases eq_or_ne vals [] with rfl | h
  · simp [flip]
  · rw [watsonBeta, watsonBeta, cvm_flip, length_flip, mean_flip h]
    ring

theorem ad_flip {L S : List ℝ} (h : L.length = S.length) : ad S.reverse L.reverse = ad L S := by
  unfold ad
  rw [List.reverse_reverse, List.length_reverse, ← h]
  congr 2
  apply List.ext_getElem
  · simp [h]
  · intro i _ _
    simp only [List.getElem_mapIdx, List.getElem_zip]
    exact congrArg _ (add_comm _ _)

theorem minToshiyuki_flip (vals : List ℝ) : minToshiyuki (flip vals) = minToshiyuki vals := by
  unfold minToshiyuki
  rw [length_flip, plusGaps_flip, minusGaps_flip]
  congr 1
  have hp : (plusGaps vals).length = vals.length := by simp [plusGaps]
  have hm : (minusGaps vals).length = vals.length := by simp [minusGaps]
  rw [← List.sum_reverse]
  congr 1
  apply List.ext_getElem
  · simp [hp, hm]
  · intro i h1 h2
    simp only [List.length_reverse, List.length_zipWith, hp, hm, length_flip, min_self] at h1
    simp only [List.getElem_reverse, List.getElem_zipWith, List.length_zipWith, List.length_reverse,
      hp, hm, min_self, flip, List.getElem_map, List.length_map]
    have e : vals.length - 1 - (vals.length - 1 - i) = i := by omega
    simp only [e]
    rw [max_comm, mul_comm (1 - vals[i]), sub_sub_cancel]

theorem npDiff_eq_getElem : ∀ (l : List ℝ) (i : ℕ) (h : i + 1 < l.length),
    (npDiff l)[i]'(by rw [npDiff_length]; omega) = l[i + 1] - l[i]
  | [], i, h => by simp at h
  | [_], i, h => by simp at h
  | x :: y :: l, 0, h => by simp [npDiff]
  | x :: y :: l, i + 1, h => by
    simp only [npDiff, List.getElem_cons_succ]
    exact npDiff_eq_getElem (y :: l) i (by simpa using h)

theorem npDiff_flip (c : ℝ) (l : List ℝ) : npDiff ((l.map (c - ·)).reverse) = (npDiff l).reverse := by
  apply List.ext_getElem
  · simp [npDiff_length]
  · intro i h1 h2
    simp only [npDiff_length, List.length_reverse, List.length_map] at h1 h2
    rw [npDiff_eq_getElem _ _ (by simp; omega)]
    simp only [List.getElem_reverse (l := npDiff l)]
    rw [npDiff_eq_getElem]
    · simp only [List.getElem_reverse, List.length_map, List.getElem_map, npDiff_length]
      have e1 : l.length - 1 - (i + 1) = l.length - 1 - 1 - i := by omega
      have e2 : l.length - 1 - 1 - i + 1 = l.length - 1 - i := by omega
      simp only [e1, e2]
      ring
    · rw [npDiff_length]; omega

theorem spacings_flip' (lo hi c : ℝ) (l : List ℝ) :
    spacings (c - hi) (c - lo) ((l.map (c - ·)).reverse) = (spacings lo hi l).reverse := by
  unfold spacings
  rw [← npDiff_flip c]
  simp

theorem spacings_flip (vals : List ℝ) : spacings 0 1 (flip vals) = (spacings 0 1 vals).reverse := by
  have := spacings_flip' 0 1 1 vals
  simpa [flip] using this

theorem greenwoodGamma_flip (vals : List ℝ) : greenwoodGamma (flip vals) = greenwoodGamma vals := by
  unfold greenwoodGamma
  rw [spacings_flip]
  simp only [List.any_reverse, sumSquares, List.map_reverse, List.sum_reverse]

theorem moranGamma_flip (vals : List ℝ) : moranGamma (flip vals) = moranGamma vals := by
  unfold moranGamma
  rw [spacings_flip]
  simp only [length_flip, List.any_reverse, List.map_reverse, List.sum_reverse]

theorem sort_mirror (c : ℝ) (l : List ℝ) :
    sort (l.map (c - ·)) = ((sort l).map (c - ·)).reverse := by
  refine List.Perm.eq_of_pairwise (le := (· ≤ ·)) (fun _ _ _ _ => le_antisymm) (sort_pairwise _) ?_ ?_
  · rw [List.pairwise_reverse, List.pairwise_map]
    exact (sort_pairwise l).imp fun h => by linarith
  · exact (sort_perm _).trans (((sort_perm l).map _).symm.trans (List.reverse_perm _).symm)

theorem map_mirror {F G : ℝ → ℝ} {c : ℝ} (h : ∀ x, G (c - x) = 1 - F x) (l : List ℝ) :
    (sort (l.map (c - ·))).map G = flip ((sort l).map F) := by
  rw [sort_mirror, List.map_reverse, List.map_map, flip, List.map_map]
  congr 1
  apply List.map_congr_left
  intro x _
  simp [h]

/-- The statistic of the mirrored problem. -/
def EdfStat.mirror : EdfStat → EdfStat
  | .ks t => .ks (mirrorType t)
  | s => s

/-- **C91** for every statistic of the transformed sample and every distribution: if `G` is the
distribution function of `c - X` where `F` is that of `X`, the statistic of the mirror image of a
sample for `G` is the statistic of the sample for `F`; the one-sided Kolmogorov-Smirnov statistics
change places. -/
theorem C91_edf {F G : ℝ → ℝ} {c : ℝ} (h : ∀ x, G (c - x) = 1 - F x) (s : EdfStat) (xs : List ℝ) :
    s.mirror.value G (xs.map (c - ·)) = s.value F xs := by
  rw [EdfStat.value_eq, EdfStat.value_eq, map_mirror h]
  cases s with
  | ks t => exact ks_flip t _
  | cvm => simp only [EdfStat.mirror, EdfStat.ofVals, cvm_flip]
  | ad =>
    simp only [EdfStat.mirror, EdfStat.ofVals]
    rw [← ad_flip (by simp)]
    simp only [flip, List.map_reverse, List.map_map, Function.comp_def, sub_sub_cancel,
      List.reverse_reverse]
  | kuiper => exact kuiper_flip _
  | watson => simp only [EdfStat.mirror, EdfStat.ofVals, watsonBeta_flip]
  | minToshiyuki => simp only [EdfStat.mirror, EdfStat.ofVals, minToshiyuki_flip]
  | greenwood => exact greenwoodGamma_flip _
  | moran => exact moranGamma_flip _

/-! ### Student -/

/-- `scipy.stats.t` is symmetric about `0`. -/
structure _root_.Pysatl.Student.StudentLib.Symmetric (lib : StudentLib) : Prop where
  cdf : ∀ df x, lib.cdf df (-x) = 1 - lib.cdf df x
  logs : ∀ df x, lib.logcdf df (-x) = lib.logsf df x

theorem clip_mirror (v : ℝ) : Student.clip (1 - v) = 1 - Student.clip v := by
  have he : Student.eps ≤ 1 - Student.eps := by norm_num [Student.eps]
  unfold Student.clip
  generalize Student.eps = e at *
  rcases le_total v e with h1 | h1
  · rw [max_eq_right h1, min_eq_left he, max_eq_left (by linarith), min_eq_right (by linarith)]
  · rw [max_eq_left h1]
    rcases le_total v (1 - e) with h2 | h2
    · rw [min_eq_left h2, max_eq_left (by linarith), min_eq_left (by linarith)]
    · rw [min_eq_right h2, max_eq_right (by linarith), min_eq_left (by linarith)]
      ring

theorem zhangZa_flip (vals : List ℝ) : Student.zhangZa (flip vals) = Student.zhangZa vals := by
  unfold Student.zhangZa
  rw [length_flip]
  rw [sum_mapIdx_flip (g := fun i v => Real.log (1 - v) / ((i : ℝ) + 1 - 1 / 2)),
    sum_mapIdx_flip (g := fun i v => Real.log v / ((vals.length : ℝ) - ((i : ℝ) + 1) + 1 / 2))]
  · ring
  · intro i j v h
    rw [index_cast h, sub_sub_cancel]
    ring
  · intro i j v h
    rw [index_cast h]
    ring

theorem standardized_mirror {p : Student.Params} (xs : List ℝ) :
    Student.standardized p (xs.map (2 * p.loc - ·)) =
      ((Student.standardized p xs).map (0 - ·)).reverse := by
  unfold Student.standardized
  rw [sort_mirror, List.map_reverse, List.map_map, List.map_map]
  congr 1
  apply List.map_congr_left
  intro x _
  simp only [Function.comp_def]
  ring

/-- The Student statistic of the mirrored problem. -/
def _root_.Pysatl.Student.StudentStat.mirror : StudentStat → StudentStat
  | .ks t => .ks (mirrorType t)
  | s => s

/-- **C91 (partial)** for Student's distribution, which is symmetric about `loc`: mirroring the sample
at `loc` changes no statistic (at `0` for the Lilliefors statistic, which ignores `loc`) and
exchanges the one-sided Kolmogorov-Smirnov statistics.  Missing: Zhang's `Zc` and the chi-square
statistic, for which the claim is false (`C91_refuted_zhangZc`, `C91_refuted_chi2`). -/
theorem C91_student_partial {lib : StudentLib} (hl : lib.Symmetric) (p : Student.Params) (s : StudentStat)
    (h1 : s ≠ .zhangZc) (h2 : ∀ k, s ≠ .chi2 k) (h3 : s = .lilliefors → p.loc = 0) (xs : List ℝ) :
    s.mirror.value lib p (xs.map (2 * p.loc - ·)) = s.value lib p xs := by
  have hv : (Student.standardized p (xs.map (2 * p.loc - ·))).map (lib.cdf p.df) =
      flip ((Student.standardized p xs).map (lib.cdf p.df)) := by
    rw [standardized_mirror, List.map_reverse, List.map_map, flip, List.map_map]
    congr 1
    apply List.map_congr_left
    intro x _
    simp [hl.cdf]
  have hc : (Student.standardized p (xs.map (2 * p.loc - ·))).map (fun x => Student.clip (lib.cdf p.df x)) =
      flip ((Student.standardized p xs).map (fun x => Student.clip (lib.cdf p.df x))) := by
    rw [standardized_mirror, List.map_reverse, List.map_map, flip, List.map_map]
    congr 1
    apply List.map_congr_left
    intro x _
    simp [hl.cdf, clip_mirror]
  cases s with
  | ks t => simp only [StudentStat.value, StudentStat.mirror, hv, ks_flip]
  | andersonDarling =>
    simp only [StudentStat.value, StudentStat.mirror]
    rw [← ad_flip (by simp), standardized_mirror]
    simp only [List.map_reverse, List.map_map, Function.comp_def, zero_sub, hl.logs,
      List.reverse_reverse]
    congr 2
    apply List.map_congr_left
    intro x _
    have := hl.logs p.df (-x)
    rw [neg_neg] at this
    exact this.symm
  | cvm => simp only [StudentStat.value, StudentStat.mirror, hv, cvm_flip]
  | kuiper => simp only [StudentStat.value, StudentStat.mirror, hv, kuiper_flip]
  | watson => simp only [StudentStat.value, StudentStat.mirror, hv, watsonBeta_flip]
  | zhangZc => exact absurd rfl h1
  | zhangZa => simp only [StudentStat.value, StudentStat.mirror, hc, zhangZa_flip]
  | lilliefors =>
    simp only [StudentStat.value, StudentStat.mirror, h3 rfl]
    rw [map_mirror (F := lib.cdf p.df) (c := 2 * 0) (by intro x; simp [hl.cdf])]
    exact ks_flip .twoTailed _
  | chi2 k => exact absurd rfl (h2 k)

/-- A symmetric distribution function and its inverse, for the examples (the Cauchy-like law
`x ↦ 1/2 + x / (2 (1 + |x|))`). -/
noncomputable def toyStudent : StudentLib where
  cdf := fun _ x => 1 / 2 + x / (2 * (1 + |x|))
  logcdf := fun _ x => Real.log (1 / 2 + x / (2 * (1 + |x|)))
  logsf := fun _ x => Real.log (1 / 2 + (-x) / (2 * (1 + |x|)))
  ppf := fun _ q => if q < 1 / 2 then 1 - 1 / (2 * q) else 1 / (2 * (1 - q)) - 1

theorem toyStudent_symmetric : toyStudent.Symmetric where
  cdf := fun df x => by simp only [toyStudent, abs_neg]; ring
  logs := fun df x => by simp only [toyStudent, abs_neg]

example : StudentStat.value toyStudent ⟨3, 5, 2⟩ (.ks .left) ([1, 7, 2].map (2 * 5 - ·)) =
    StudentStat.value toyStudent ⟨3, 5, 2⟩ (.ks .right) [1, 7, 2] :=
  C91_student_partial toyStudent_symmetric ⟨3, 5, 2⟩ (.ks .right) (by simp) (by simp) (by simp) _

/-- **C91 is false** of Zhang's `Zc` statistic: a single observation and its mirror image have the same
value only if the observation is the centre. -/
theorem C91_refuted_zhangZc {lib : StudentLib} (hl : lib.Symmetric) (p : Student.Params) (x : ℝ)
    (hx : lib.cdf p.df ((x - p.loc) / p.scale) ≠ 1 / 2) :
    StudentStat.value lib p .zhangZc ([x].map (2 * p.loc - ·)) ≠ StudentStat.value lib p .zhangZc [x] := by
  have hm : lib.cdf p.df ((2 * p.loc - x - p.loc) / p.scale) =
      1 - lib.cdf p.df ((x - p.loc) / p.scale) := by
    rw [← hl.cdf]; congr 1; ring
  have he : 0 < Student.eps := by norm_num [Student.eps]
  have he1 : Student.eps < 1 / 2 := by norm_num [Student.eps]
  have he2 : Real.log Student.eps ≠ 0 := (Real.log_neg he (by linarith)).ne
  have hs : ∀ y : ℝ, StudentStat.value lib p .zhangZc [y] =
      .ok (Real.log ((1 / Student.clip (lib.cdf p.df ((y - p.loc) / p.scale)) - 1) / Student.eps) ^ 2) := by
    intro y
    simp [StudentStat.value, Student.standardized, sort, Student.zhangZc]
  rw [List.map_singleton, hs, hs, hm, clip_mirror]
  generalize lib.cdf p.df ((x - p.loc) / p.scale) = v at hx
  have hc : Student.eps ≤ Student.clip v ∧ Student.clip v ≤ 1 - Student.eps := by
    unfold Student.clip
    exact ⟨le_min (le_max_right _ _) (by linarith), min_le_right _ _⟩
  have hc2 : Student.clip v ≠ 1 / 2 := by
    unfold Student.clip
    rcases le_total v Student.eps with h1 | h1
    · rw [max_eq_right h1, min_eq_left (by linarith)]; exact he1.ne
    · rw [max_eq_left h1]
      rcases le_total v (1 - Student.eps) with h2 | h2
      · rwa [min_eq_left h2]
      · rw [min_eq_right h2]; intro h; linarith
  generalize Student.clip v = w at hc hc2
  have hw : 0 < w := he.trans_le hc.1
  have hw1 : 0 < 1 - w := by linarith [hc.2]
  have e1 : 1 / w - 1 = (1 - w) / w := by field_simp
  have e2 : 1 / (1 - w) - 1 = w / (1 - w) := by field_simp; ring
  rw [e1, e2]
  intro h
  injection h with h
  rw [Real.log_div (by positivity) he.ne', Real.log_div (by positivity) he.ne',
    Real.log_div hw.ne' hw1.ne', Real.log_div hw1.ne' hw.ne'] at h
  have h3 : (Real.log w - Real.log (1 - w)) * Real.log Student.eps = 0 := by linarith
  rcases mul_eq_zero.1 h3 with h4 | h4
  · have := Real.log_injOn_pos hw hw1 (sub_eq_zero.1 h4)
    exact hc2 (by linarith)
  · exact he2 h4

example : StudentStat.value toyStudent ⟨3, 5, 2⟩ .zhangZc [3] ≠
    StudentStat.value toyStudent ⟨3, 5, 2⟩ .zhangZc [7] := by
  have := C91_refuted_zhangZc toyStudent_symmetric ⟨3, 5, 2⟩ 7 (by norm_num [toyStudent, abs_of_pos])
  norm_num at this
  exact this

/-- **C91 is false** of the chi-square statistic, whose bins contain their lower edge only: of two
observations one of which lies on an edge, the mirror image has another value. -/
theorem C91_refuted_chi2 {lib : StudentLib} {df e : ℝ} (he : 0 < e)
    (h1 : lib.ppf df (1 / 3) = -e) (h2 : lib.ppf df (2 / 3) = e) :
    StudentStat.value lib ⟨df, 0, 1⟩ (.chi2 3) ([-e, 0].map (2 * 0 - ·)) ≠
      StudentStat.value lib ⟨df, 0, 1⟩ (.chi2 3) [-e, 0] := by
  have hq : Student.quantileEdges (lib.ppf df) 3 = [-e, e] := by
    simp only [Student.quantileEdges, List.range_succ, List.range_zero]
    norm_num
    exact ⟨by rw [← h1], by rw [← h2]⟩
  have e0 : -e < 0 := by linarith
  simp only [StudentStat.value, Student.chi2, hq, List.map_cons, List.map_nil, Student.histogramInf]
  norm_num [List.countP_cons, List.filter_cons, he, he.le, e0, e0.le, Student.equalExpected, pearson,
    List.replicate_succ, not_lt.2 he.le, not_le.2 he, not_lt.2 (neg_le_self he.le), not_le.2 e0,
    not_lt.2 e0.le]

example : toyStudent.ppf 3 (1 / 3) = -(1 / 2) ∧ toyStudent.ppf 3 (2 / 3) = 1 / 2 := by
  norm_num [toyStudent]

/-! ### Beta -/

/-- `1 - X` has the beta distribution with exchanged parameters if `X` has one. -/
structure _root_.Pysatl.Beta.BetaLib.Symmetric (lib : BetaLib) : Prop where
  cdf : ∀ a b x, lib.cdf b a (1 - x) = 1 - lib.cdf a b x
  logs : ∀ a b x, lib.logcdf b a (1 - x) = lib.logsf a b x
  betaln : ∀ a b, lib.betaln b a = lib.betaln a b

/-- The beta statistic of the mirrored problem. -/
def _root_.Pysatl.Beta.BetaStat.mirror : BetaStat → BetaStat
  | .ks t => .ks (mirrorType t)
  | s => s

theorem sumsq_mirror (k : ℕ) (c : ℝ) {xs : List ℝ} (h : xs ≠ []) :
    ((xs.map (c - ·)).map fun x => (x - mean (xs.map (c - ·))) ^ k).sum =
      (-1) ^ k * (xs.map fun x => (x - mean xs) ^ k).sum := by
  have e : (fun x : ℝ => c - x) = aff c (-1) := by funext x; simp [aff]; ring
  have hm : mean (xs.map (c - ·)) = c - mean xs := by
    rw [show (xs.map (c - ·)) = xs.map (aff c (-1)) by rw [← e], mean_aff _ _ h]
    simp [aff]; try ring
  rw [hm, List.map_map, ← sum_map_mul]
  congr 1
  apply List.map_congr_left
  intro x _
  simp only [Function.comp_def]
  rw [← mul_pow]
  congr 1
  ring

theorem moment_mirror (k : ℕ) (c : ℝ) {xs : List ℝ} (h : xs ≠ []) :
    moment k (xs.map (c - ·)) = (-1) ^ k * moment k xs := by
  have hs := sumsq_mirror k c h
  unfold moment
  generalize mean (xs.map (c - ·)) = m at hs
  generalize mean xs = m' at hs
  rw [mean, mean, hs, mul_div_assoc]
  simp

theorem var1_mirror (c : ℝ) {xs : List ℝ} (h : xs ≠ []) : var1 (xs.map (c - ·)) = var1 xs := by
  unfold var1
  rw [sumsq_mirror 2 c h]
  simp

theorem mean_mirror (c : ℝ) {xs : List ℝ} (h : xs ≠ []) : mean (xs.map (c - ·)) = c - mean xs := by
  have hn : (xs.length : ℝ) ≠ 0 := by simpa using h
  have : ∀ l : List ℝ, (l.map (c - ·)).sum = l.length * c - l.sum := by
    intro l
    induction l with
    | nil => simp
    | cons x l ih => simp only [List.map_cons, List.sum_cons, ih, List.length_cons, Nat.cast_succ]; ring
  unfold mean
  rw [this, List.length_map]
  field_simp

theorem at_mirror (c : ℝ) (l : List ℝ) {i : ℕ} (h : i < l.length) :
    at_ ((l.map (c - ·)).reverse) i = c - at_ l (l.length - 1 - i) := by
  have h2 : l.length - 1 - i < l.length := by omega
  unfold at_
  rw [List.getD_eq_getElem _ _ (by simpa using h), List.getD_eq_getElem _ _ h2]
  simp

theorem vasicek_mirror (m : ℕ) (c : ℝ) (xs : List ℝ) :
    Beta.vasicek m (xs.map (c - ·)) = Beta.vasicek m xs := by
  simp only [Beta.vasicek, sort_mirror, List.length_map]
  congr 1
  rw [← List.sum_reverse]
  congr 1
  apply List.ext_getElem
  · simp
  · intro i h1 h2
    have hi : i < xs.length := by simpa using h1
    simp only [List.getElem_reverse, List.getElem_map, List.length_map, List.length_range,
      List.getElem_range]
    rw [at_mirror, at_mirror, length_sort]
    · have e1 : xs.length - 1 - min (xs.length - 1) (xs.length - 1 - i + m) = i - m := by omega
      have e2 : xs.length - 1 - (xs.length - 1 - i - m) = min (xs.length - 1) (i + m) := by omega
      rw [e1, e2]
      have : c - at_ (sort xs) (i - m) - (c - at_ (sort xs) (min (xs.length - 1) (i + m))) =
        at_ (sort xs) (min (xs.length - 1) (i + m)) - at_ (sort xs) (i - m) := by ring
      rw [this]
    · rw [length_sort]; omega
    · rw [length_sort]; omega

/-- **C91 (partial)** for the beta family: the statistic of `1 - x` with exchanged parameters is the
statistic of `x`.  Missing: the chi-square statistic (half-open bins, as for Student's distribution)
and the mode statistic (the first of several largest values of the density is taken); the ratio
of the geometric to the arithmetic mean is not a symmetric quantity. -/
theorem C91_beta_partial {lib : BetaLib} (hl : lib.Symmetric) (p : Beta.Params) (s : BetaStat)
    (h1 : ∀ lam, s ≠ .chi2 lam) (h2 : s ≠ .mode) (h3 : s ≠ .ratio) {xs : List ℝ} (hne : xs ≠ []) :
    s.mirror.value lib ⟨p.beta, p.alpha⟩ (xs.map (1 - ·)) = s.value lib p xs := by
  by_cases hx : ∃ x ∈ xs, x < 0 ∨ 1 < x
  · have hy : ∃ x ∈ xs.map (1 - ·), x < 0 ∨ 1 < x := by
      obtain ⟨x, hx, h⟩ := hx
      refine ⟨1 - x, List.mem_map_of_mem (f := fun x => 1 - x) hx, ?_⟩
      rcases h with h | h
      · right; linarith
      · left; linarith
    rw [C64_beta_outside _ _ _ hx, C64_beta_outside _ _ _ hy]
  push Not at hx
  have hy : ∀ x ∈ xs.map (1 - ·), 0 ≤ x ∧ x ≤ 1 := by
    intro y hy
    obtain ⟨x, h, rfl⟩ := List.mem_map.1 hy
    have := hx x h
    constructor <;> linarith
  have hv : Beta.vals lib ⟨p.beta, p.alpha⟩ (xs.map (1 - ·)) = flip (Beta.vals lib p xs) :=
    map_mirror (hl.cdf p.alpha p.beta) xs
  simp only [BetaStat.value, beta_validate_ok hx, beta_validate_ok hy, bind, Except.bind]
  cases s with
  | ks t => simp only [BetaStat.mirror, hv, ks_flip]
  | andersonDarling =>
    simp only [BetaStat.mirror, adOf]
    rw [← ad_flip (by simp), sort_mirror]
    simp only [List.map_reverse, List.map_map, Function.comp_def, hl.logs, List.reverse_reverse]
    congr 2
    apply List.map_congr_left
    intro x _
    have := hl.logs p.beta p.alpha (1 - x)
    rw [sub_sub_cancel] at this
    exact this.symm
  | cvm => simp only [BetaStat.mirror, hv, cvm_flip]
  | lilliefors => simp only [BetaStat.mirror, hv]; exact ks_flip .twoTailed _
  | chi2 lam => exact absurd rfl (h1 lam)
  | watson => simp only [BetaStat.mirror, hv, watsonBeta_flip]
  | kuiper => simp only [BetaStat.mirror, hv, kuiper_flip]
  | momentBased =>
    simp only [BetaStat.mirror, Beta.momentBased, Beta.theoreticalVar, mean_mirror 1 hne,
      var1_mirror 1 hne, List.length_map]
    rw [add_comm p.beta p.alpha, mul_comm p.beta p.alpha]
    by_cases h0 : p.alpha + p.beta = 0
    · simp [h0]
    · have e : 1 - mean xs - p.beta / (p.alpha + p.beta) = -(mean xs - p.alpha / (p.alpha + p.beta)) := by
        field_simp
        ring
      rw [e, mul_neg, neg_div, neg_sq]
  | skewnessKurtosis =>
    have e3 := moment_mirror 3 1 hne
    have e2 := moment_mirror 2 1 hne
    have e4 := moment_mirror 4 1 hne
    norm_num at e2 e3 e4
    have es : skew (xs.map (1 - ·)) = -skew xs := by simp only [skew, e2, e3]; ring
    have ek : kurt (xs.map (1 - ·)) = kurt xs := by simp only [kurt, e2, e4]
    have h5 : Beta.skewUnbiased (xs.map (1 - ·)) = -Beta.skewUnbiased xs := by
      simp only [Beta.skewUnbiased, es, List.length_map]
      split <;> ring
    have h6 : Beta.kurtUnbiased (xs.map (1 - ·)) = Beta.kurtUnbiased xs := by
      simp only [Beta.kurtUnbiased, ek, List.length_map]
    have h7 : Beta.theoreticalSkew ⟨p.beta, p.alpha⟩ = -Beta.theoreticalSkew p := by
      simp only [Beta.theoreticalSkew]
      rw [add_comm p.beta p.alpha, mul_comm p.beta p.alpha]
      ring
    have h8 : Beta.theoreticalKurt ⟨p.beta, p.alpha⟩ = Beta.theoreticalKurt p := by
      simp only [Beta.theoreticalKurt]
      rw [add_comm p.beta p.alpha, mul_comm p.beta p.alpha, sub_sq_comm]
    simp only [BetaStat.mirror, Beta.skewnessKurtosis, h5, h6, h7, h8, List.length_map]
    congr 1
    ring
  | ratio => exact absurd rfl h3
  | entropy m =>
    have h5 : Beta.theoreticalEntropy lib ⟨p.beta, p.alpha⟩ = Beta.theoreticalEntropy lib p := by
      simp only [Beta.theoreticalEntropy]
      rw [add_comm p.beta p.alpha, hl.betaln]
      ring
    simp only [BetaStat.mirror, Beta.entropy, vasicek_mirror, List.length_map, h5]
  | mode => exact absurd rfl h2

/-! ### Uniform -/

theorem uniformCdf_mirror {a b : ℝ} (hab : a < b) (x : ℝ) :
    uniformCdf a b (a + b - x) = 1 - uniformCdf a b x := by
  have h0 : b - a ≠ 0 := by linarith
  unfold uniformCdf
  split_ifs <;> first | linarith | (field_simp; ring)

theorem uniformVals_mirror {a b : ℝ} (hab : a < b) (xs : List ℝ) :
    uniformVals a b (xs.map (a + b - ·)) = flip (uniformVals a b xs) := by
  have h0 : b - a ≠ 0 := by linarith
  unfold uniformVals
  rw [sort_mirror, List.map_reverse, List.map_map, flip, List.map_map]
  congr 1
  apply List.map_congr_left
  intro x _
  simp only [Function.comp_def]
  field_simp
  ring

theorem standard_mirror {a b : ℝ} (hab : a < b) (xs : List ℝ) :
    standard a b (xs.map (a + b - ·)) = (standard a b xs).map (1 - ·) := by
  have h0 : b - a ≠ 0 := by linarith
  unfold standard
  rw [List.map_map, List.map_map]
  apply List.map_congr_left
  intro x _
  simp only [Function.comp_def]
  field_simp
  ring

theorem steinKernel_mirror (x y : ℝ) : steinKernel (1 - x) (1 - y) = steinKernel x y := by
  unfold steinKernel
  rcases le_total x y with h | h
  · rw [max_eq_right h, max_eq_left (by linarith)]; ring
  · rw [max_eq_left h, max_eq_right (by linarith)]; ring

theorem steinU_mirror (std : List ℝ) : steinU (std.map (1 - ·)) = steinU std := by
  simp only [steinU, pairs_map, List.map_map, List.length_map, Function.comp_def, steinKernel_mirror]

theorem legendre_neg (x : ℝ) : ∀ j, legendre j (-x) = (-1) ^ j * legendre j x ∧
    legendre (j + 1) (-x) = (-1) ^ (j + 1) * legendre (j + 1) x
  | 0 => by simp [legendre]
  | j + 1 => by
    obtain ⟨h1, h2⟩ := legendre_neg x j
    refine ⟨h2, ?_⟩
    rw [legendre, legendre, h1, h2]
    ring

theorem phi_mirror (j : ℕ) (x : ℝ) : phi j (1 - x) = (-1) ^ j * phi j x := by
  unfold phi
  split_ifs with h1 h2 h3
  · subst h1; ring
  · subst h2; ring
  · subst h3; ring
  · rw [show 2 * (1 - x) - 1 = -(2 * x - 1) by ring, (legendre_neg _ j).1]
    ring

theorem neyman_mirror (k : ℕ) (std : List ℝ) : neyman k (std.map (1 - ·)) = neyman k std := by
  unfold neyman
  congr 1
  apply List.map_congr_left
  intro j _
  rw [List.map_map, List.length_map]
  have : (std.map (phi (j + 1) ∘ fun x => 1 - x)).sum = (-1) ^ (j + 1) * (std.map (phi (j + 1))).sum := by
    rw [← sum_map_mul]
    congr 1
    apply List.map_congr_left
    intro x _
    simp [phi_mirror]
  rw [this, mul_div_assoc, mul_pow, ← pow_mul, mul_comm (j + 1) 2, pow_mul]
  norm_num

theorem variance_mirror (c : ℝ) {xs : List ℝ} (h : xs ≠ []) :
    variance (xs.map (c - ·)) = variance xs := by
  have e : (fun x : ℝ => c - x) = aff c (-1) := by funext x; simp [aff]; ring
  rw [e, variance_aff _ _ h]
  ring

theorem normPdf_neg (x : ℝ) : normPdf (-x) = normPdf x := by simp [normPdf]

theorem sum_range_reverse (N : ℕ) {f g : ℕ → ℝ} (h : ∀ i < N, f (N - 1 - i) = g i) :
    ((List.range N).map f).sum = ((List.range N).map g).sum := by
  rw [← List.sum_reverse]
  congr 1
  apply List.ext_getElem
  · simp
  · intro i h1 h2
    have hi : i < N := by simpa using h2
    simp only [List.getElem_reverse, List.getElem_map, List.length_map, List.length_range,
      List.getElem_range, h i hi]

theorem bickelRosenblatt_mirror {a b : ℝ} (hab : a < b) (o : Option ℝ) {xs : List ℝ} (hne : xs ≠ []) :
    bickelRosenblatt a b o (xs.map (a + b - ·)) = bickelRosenblatt a b o xs := by
  have hs : standard a b xs ≠ [] := by simpa [standard] using hne
  simp only [bickelRosenblatt, standard_mirror hab, variance_mirror 1 hs, List.length_map, List.map_map,
    Function.comp_def]
  generalize (match o with | none => _ | some h => h) = h
  generalize hN : (1000 : ℕ) = N
  rw [sum_range_reverse N fun i hi => ?_]
  have hc : ((N - 1 - i : ℕ) : ℝ) = 999 - i := by
    have : (N - 1 - i : ℕ) + i = 999 := by omega
    have : ((N - 1 - i : ℕ) : ℝ) + i = 999 := by exact_mod_cast this
    linarith
  rw [hc]
  congr 4
  apply List.map_congr_left
  intro x _
  rw [← normPdf_neg]
  congr 1
  ring

theorem uniformZhang_flip (t : ZhangType) (vals : List ℝ) :
    Uniform.zhang t (flip vals) = Uniform.zhang t vals := by
  cases t with
  | A =>
    simp only [Uniform.zhang, length_flip]
    rw [sum_mapIdx_flip (g := fun i v => Real.log (1 - v) / ((i : ℝ) + 1 - 1 / 2)),
      sum_mapIdx_flip (g := fun i v => Real.log v / ((vals.length : ℝ) - ((i : ℝ) + 1) + 1 / 2))]
    · ring
    · intro i j v h
      rw [index_cast h, sub_sub_cancel]
      ring
    · intro i j v h
      rw [index_cast h]
      ring
  | C =>
    simp only [Uniform.zhang, length_flip]
    rw [sum_mapIdx_flip (g := fun i v => (Real.log (1 - v) / ((i : ℝ) + 1 - 1 / 2)) ^ 2),
      sum_mapIdx_flip (g := fun i v => (Real.log v / ((vals.length : ℝ) - ((i : ℝ) + 1) + 1 / 2)) ^ 2)]
    · ring
    · intro i j v h
      rw [index_cast h, sub_sub_cancel]
      ring
    · intro i j v h
      rw [index_cast h]
      ring
  | K =>
    simp only [Uniform.zhang, length_flip]
    rw [sum_mapIdx_flip (g := fun i v => Real.log ((1 - v) / v) / ((i : ℝ) + 1 - 1 / 2)),
      sum_mapIdx_flip (g := fun i v =>
        Real.log (v / (1 - v)) / ((vals.length : ℝ) - ((i : ℝ) + 1) + 1 / 2)), max_comm]
    · intro i j v h
      rw [index_cast h, sub_sub_cancel]
      congr 1
      ring
    · intro i j v h
      rw [index_cast h, sub_sub_cancel]
      congr 1
      ring

theorem watsonUniform_flip (vals : List ℝ) : watsonUniform (flip vals) = watsonUniform vals := by
  rcases eq_or_ne vals [] with rfl | hne
  · simp [flip]
  have hn : (vals.length : ℝ) ≠ 0 := by simpa using hne
  rw [C57_uniform_partial hne, C57_uniform_partial (by simpa [flip] using hne), watsonBeta_flip,
    length_flip]

theorem zipWith_tail_reverse (s : List ℝ) :
    (List.zipWith (· * ·) s.reverse s.reverse.tail).sum = (List.zipWith (· * ·) s s.tail).sum := by
  rw [← List.sum_reverse (List.zipWith (· * ·) s s.tail)]
  congr 1
  apply List.ext_getElem
  · simp
  · intro i h1 h2
    simp only [List.length_zipWith, List.length_reverse, List.length_tail] at h1 h2
    simp only [List.getElem_zipWith, List.getElem_reverse, List.getElem_tail, List.length_zipWith,
      List.length_tail]
    have e2 : min s.length (s.length - 1) - 1 - i = s.length - 1 - (i + 1) := by omega
    have e1 : s.length - 1 - (i + 1) + 1 = s.length - 1 - i := by omega
    simp only [e2, e1]
    rw [mul_comm]

theorem quesenberryMiller_reverse (s : List ℝ) : quesenberryMiller s.reverse = quesenberryMiller s := by
  unfold quesenberryMiller
  rw [zipWith_tail_reverse, sumSquares, sumSquares, List.map_reverse, List.sum_reverse]

/-- The uniformity statistic of the mirrored problem. -/
def _root_.Pysatl.Uniform.UniStat.mirror : UniStat → UniStat
  | .ks t => .ks (mirrorType t)
  | s => s

/-- **C91 (partial)** for the uniform family: mirroring the sample at the midpoint of the interval
changes no statistic and exchanges the one-sided Kolmogorov-Smirnov statistics.  Missing: the
chi-square statistic (half-open bins, as for Student's distribution) and the Stein statistic for
censored observations, where censoring is one-sided. -/
theorem C91_uniform_partial (s : UniStat) {a b : ℝ} (hab : a < b) (h1 : ∀ lam k, s ≠ .chi2 lam k)
    (h2 : ∀ d, s = .censoredStein d → d.uncensored = true) {xs : List ℝ} (hne : xs ≠ []) :
    s.mirror.value a b (xs.map (a + b - ·)) = s.value a b xs := by
  by_cases hx : ∃ x ∈ xs, x < a ∨ b < x
  · have hy : ∃ x ∈ xs.map (a + b - ·), x < a ∨ b < x := by
      obtain ⟨x, hx, h⟩ := hx
      refine ⟨a + b - x, List.mem_map_of_mem (f := fun x => a + b - x) hx, ?_⟩
      rcases h with h | h
      · right; linarith
      · left; linarith
    simp [UniStat.value, validateUniform_error hx, validateUniform_error hy, bind, Except.bind]
  push Not at hx
  have hy : ∀ x ∈ xs.map (a + b - ·), a ≤ x ∧ x ≤ b := by
    intro y hy
    obtain ⟨x, h, rfl⟩ := List.mem_map.1 hy
    have := hx x h
    constructor <;> linarith
  have hv := map_mirror (uniformCdf_mirror hab) xs
  have hu := uniformVals_mirror hab xs
  have hs := standard_mirror hab xs
  have hsp : spacings a b (sort (xs.map (a + b - ·))) = (spacings a b (sort xs)).reverse := by
    rw [sort_mirror, ← spacings_flip' a b (a + b)]
    simp
  cases s with
  | ks t =>
    simp only [UniStat.mirror, UniStat.value, validateUniform_ok hx, validateUniform_ok hy, bind, Except.bind, hv, ks_flip]
  | andersonDarling =>
    have := C91_edf (uniformCdf_mirror hab) .ad xs
    simp only [UniStat.mirror, UniStat.value, validateUniform_ok hx, validateUniform_ok hy, bind, Except.bind]
    exact this
  | cvm => simp only [UniStat.mirror, UniStat.value, validateUniform_ok hx, validateUniform_ok hy, bind, Except.bind, hv, cvm_flip]
  | lilliefors =>
    simp only [UniStat.mirror, UniStat.value, validateUniform_ok hx, validateUniform_ok hy, bind, Except.bind, hv]
    exact ks_flip .twoTailed _
  | chi2 lam k => exact absurd rfl (h1 lam k)
  | watson => simp only [UniStat.mirror, UniStat.value, validateUniform_ok hx, validateUniform_ok hy, bind, Except.bind, hu, watsonUniform_flip]
  | kuiper => simp only [UniStat.mirror, UniStat.value, validateUniform_ok hx, validateUniform_ok hy, bind, Except.bind, hu, kuiper_flip]
  | greenwood =>
    simp only [UniStat.mirror, UniStat.value, validateUniform_ok hx, validateUniform_ok hy, bind, Except.bind, greenwoodUniform, hu,
      spacings_flip, sumSquares, List.map_reverse, List.sum_reverse]
  | bickelRosenblatt o =>
    simp only [UniStat.mirror, UniStat.value, validateUniform_ok hx, validateUniform_ok hy, bind, Except.bind,
      bickelRosenblatt_mirror hab o hne]
  | zhang t => simp only [UniStat.mirror, UniStat.value, validateUniform_ok hx, validateUniform_ok hy, bind, Except.bind, hu, uniformZhang_flip]
  | stein => simp only [UniStat.mirror, UniStat.value, validateUniform_ok hx, validateUniform_ok hy, bind, Except.bind, hs, steinU_mirror]
  | censoredStein d =>
    simp only [UniStat.mirror, UniStat.value, validateUniform_ok hx, validateUniform_ok hy, bind, Except.bind, Uniform.censoredStein,
      h2 d rfl, if_true, hs, steinU_mirror]
  | neyman k => simp only [UniStat.mirror, UniStat.value, validateUniform_ok hx, validateUniform_ok hy, bind, Except.bind, hs, neyman_mirror]
  | sherman =>
    simp only [UniStat.mirror, UniStat.value, validateUniform_ok hx, validateUniform_ok hy, bind, Except.bind, shermanUniform, hsp,
      List.map_reverse, List.sum_reverse, List.length_map]
  | quesenberryMiller =>
    simp only [UniStat.mirror, UniStat.value, validateUniform_ok hx, validateUniform_ok hy, bind, Except.bind, quesenberryMillerUniform, hsp,
      quesenberryMiller_reverse]

example : UniStat.value (.neyman 4) 1 3 ([1, 5 / 2].map (1 + 3 - ·)) = UniStat.value (.neyman 4) 1 3 [1, 5 / 2] :=
  C91_uniform_partial (.neyman 4) (by norm_num) (by simp) (by simp) (by simp)

end Pysatl.Props
