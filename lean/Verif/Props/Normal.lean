import Verif.Lemmas.Normal
import Verif.Lemmas.Gaussian

/-! # C61 and C63 for the normality statistics -/

namespace Pysatl.Props

open Pysatl.Decision Pysatl.Graph Pysatl.Edf Pysatl.Exponent Pysatl.Normal

/-! ### C61 -/

theorem moment_perm {xs ys : List ℝ} (h : xs.Perm ys) (k : ℕ) : moment k xs = moment k ys := by
  unfold moment
  rw [mean_perm h]
  exact mean_perm (h.map _)

theorem var1_perm {xs ys : List ℝ} (h : xs.Perm ys) : var1 xs = var1 ys := by
  unfold var1
  rw [mean_perm h, (h.map _).sum_eq, h.length_eq]

theorem standardised_perm {xs ys : List ℝ} (h : xs.Perm ys) :
    (standardised xs).Perm (standardised ys) := by
  unfold standardised sd1
  rw [mean_perm h, var1_perm h]
  exact h.map _

theorem cc1_perm (lib : NormLib) {z w : List ℝ} (h : z.Perm w) : cc1 lib z = cc1 lib w := by
  unfold cc1
  dsimp only
  simp only [h.length_eq, (h.map _).sum_eq]
  exact npMax_perm (h.map _)

theorem cc2_perm (lib : NormLib) {z w : List ℝ} (h : z.Perm w) : cc2 lib z = cc2 lib w := by
  unfold cc2
  dsimp only
  simp only [h.length_eq, (h.map _).sum_eq]
  exact npMax_perm (h.map _)

/-- **C61** for the normality statistics. -/
theorem C61_normal (lib : NormLib) (s : NormStat) {xs ys : List ℝ} (h : xs.Perm ys) :
    s.value lib xs = s.value lib ys := by
  have hs := sort_eq_of_perm h
  have hl := h.length_eq
  have hm := mean_perm h
  have hv : var1 xs = var1 ys := var1_perm h
  have hph : phiz lib xs = phiz lib ys := sort_eq_of_perm ((standardised_perm h).map _)
  have hv' : var1' xs = var1' ys := by unfold var1'; rw [hm, hl, (h.map _).sum_eq]
  cases s with
  | ks t => simp only [NormStat.value, ksOf, hs]
  | andersonDarling => simp only [NormStat.value, Normal.andersonDarling, sd1, hs, hm, hv]
  | shapiroWilk => simp only [NormStat.value, Normal.shapiroWilk, hs, hm, hl, (h.map _).sum_eq]
  | cvm => simp only [NormStat.value, cvmOf, hs]
  | lilliefors =>
    simp only [NormStat.value, Normal.lilliefors, sort_eq_of_perm (standardised_perm h)]
  | jarqueBera =>
    have e : (xs.map fun x => x - mean xs).Perm (ys.map fun x => x - mean ys) := by
      rw [hm]; exact h.map _
    simp only [NormStat.value, Normal.jarqueBera, hl, Normal.skew, kurt, moment_perm e]
  | skew => simp only [NormStat.value, skewTest, hl, hs]
  | kurtosis => simp only [NormStat.value, kurtosisTest, hl, hs]
  | dap => simp only [NormStat.value, Normal.dap, skewTest, kurtosisTest, hl, hs]
  | filli => simp only [NormStat.value, Normal.filli, hl, hs]
  | looneyGulledge => simp only [NormStat.value, Normal.looneyGulledge, hl, hs]
  | ryanJoiner w α => simp only [NormStat.value, Normal.ryanJoiner, hl, hs]
  | shapiroFrancia => simp only [NormStat.value, Normal.shapiroFrancia, hl, hs]
  | eppsPulley => simp only [NormStat.value, Normal.eppsPulley, hl, hs]
  | hosking1 => simp only [NormStat.value, guarded, Normal.hosking1, hl, hs]
  | hosking2 => simp only [NormStat.value, hoskingTrimmed, trimmedMoment, hl, hs]
  | hosking3 => simp only [NormStat.value, guarded, hoskingTrimmed, trimmedMoment, hl, hs]
  | hosking4 => simp only [NormStat.value, guarded, hoskingTrimmed, trimmedMoment, hl, hs]
  | zhangWuC => simp only [NormStat.value, guarded, Normal.zhangWuC, hl, hph]
  | zhangWuA => simp only [NormStat.value, guarded, Normal.zhangWuA, hl, hph]
  | glenLeemisBarr => simp only [NormStat.value, guarded, Normal.glenLeemisBarr, hl, hph]
  | doornikHansen => simp only [NormStat.value, Normal.doornikHansen, hl, moment_perm h]
  | robustJarqueBera =>
    simp only [NormStat.value, Normal.robustJarqueBera, hl, hs, (h.map _).sum_eq]
  | bontempsMeddahi1 =>
    simp only [NormStat.value, guarded, Normal.bontempsMeddahi1, hl, hm, hv', List.map_map,
      (h.map _).sum_eq]
  | bontempsMeddahi2 =>
    simp only [NormStat.value, guarded, Normal.bontempsMeddahi2, hl,
      ((standardised_perm h).map _).sum_eq]
  | bonettSeier =>
    simp only [NormStat.value, guarded, Normal.bonettSeier, hl, hm, (h.map _).sum_eq]
  | martinezIglewicz =>
    simp only [NormStat.value, guarded, Normal.martinezIglewicz, hl, hs, List.map_map,
      (h.map _).sum_eq, sort_eq_of_perm (h.map _)]
  | cabanaCabana1 =>
    simp only [NormStat.value, guarded, hl, cc1_perm lib (standardised_perm h)]
  | cabanaCabana2 =>
    have e : (cc2Standardised xs).Perm (cc2Standardised ys) := by
      unfold cc2Standardised
      rw [hl, hm, variance_perm h]
      exact h.map _
    simp only [NormStat.value, guarded, hl, cc2_perm lib e]
  | chenShapiro => simp only [NormStat.value, guarded, Normal.chenShapiro, hl, hs, hv]
  | zhangQ => simp only [NormStat.value, guarded, Normal.zhangQ, hl, hs]
  | coin =>
    simp only [NormStat.value, guarded, Normal.coin, hl, hm, hv', sort_eq_of_perm (h.map _)]
  | dagostino => simp only [NormStat.value, guarded, Normal.dagostino, hl, hs]
  | zhangQStar => simp only [NormStat.value, guarded, Normal.zhangQStar, hl, hs]
  | swrg => simp only [NormStat.value, guarded, Normal.swrg, hl, hs]
  | gmg => simp only [NormStat.value, guarded, Normal.gmg, hl, hm, hs, (h.map _).sum_eq]
  | spiegelhalter =>
    simp only [NormStat.value, guarded, Normal.spiegelhalter, hl, hm, hv, npMax_perm h,
      pyMin_perm h, (h.map _).sum_eq]
  | desgagneLafaye =>
    simp only [NormStat.value, guarded, Normal.desgagneLafaye, hl, hm, List.map_map,
      (h.map _).sum_eq]

/-! ### C63 -/

/-- The classes that standardise the sample. -/
def LocationScaleFree : NormStat → Prop
  | .ks _ => False
  | .cvm => False
  | _ => True

theorem pearsonr_aff (z : List ℝ) (a : ℝ) {b : ℝ} (hb : 0 < b) (l : List ℝ) :
    pearsonr z (l.map (aff a b)) = pearsonr z l := by
  unfold pearsonr
  rw [List.length_map]
  split
  · rfl
  · rename_i hlen
    have h : l ≠ [] := by rintro rfl; simp at hlen
    rw [sumsq_aff a b h, sqrt_sq_mul hb]
    have e : (List.zipWith (fun u v => (u - mean z) * (v - mean (l.map (aff a b)))) z
        (l.map (aff a b))).sum =
        b * (List.zipWith (fun u v => (u - mean z) * (v - mean l)) z l).sum := by
      rw [List.zipWith_map_right]
      simp only [cent_aff a b h]
      generalize mean l = m
      generalize mean z = k
      clear h hlen
      induction z generalizing l with
      | nil => simp
      | cons x z ih =>
        cases l with
        | nil => simp
        | cons y l =>
          simp only [List.zipWith_cons_cons, List.sum_cons, ih l]
          ring
    rw [e, ← mul_assoc, mul_comm (√_) b, mul_assoc, mul_div_mul_left _ _ hb.ne']

theorem groupMean_aff (a : ℝ) {b : ℝ} (hb : 0 < b) (l : List ℝ) (u : ℕ → ℝ) {i : ℕ}
    (hi : i < l.length) : groupMean (l.map (aff a b)) u i = groupMean l u i := by
  have e : (Finset.range (l.map (aff a b)).length).filter
      (fun j => at_ (l.map (aff a b)) j = at_ (l.map (aff a b)) i) =
      (Finset.range l.length).filter fun j => at_ l j = at_ l i := by
    rw [List.length_map]
    refine Finset.filter_congr fun j hj => ?_
    rw [at_aff a b (Finset.mem_range.mp hj), at_aff a b hi]
    unfold aff
    constructor
    · intro h
      exact mul_left_cancel₀ hb.ne' (add_left_cancel h)
    · intro h; rw [h]
  unfold groupMean
  dsimp only
  rw [e]

theorem hoskingStat_scale (t n : ℕ) {b : ℝ} (hb : 0 < b) (l2 l3 l4 : ℝ) :
    hoskingStat t n (b * l2) (b * l3) (b * l4) = hoskingStat t n l2 l3 l4 := by
  unfold hoskingStat
  rw [mul_div_mul_left _ _ hb.ne', mul_div_mul_left _ _ hb.ne']

theorem trimmedMoment_aff {t r : ℕ} (ht : 1 ≤ t) (hr : 2 ≤ r) (a : ℝ) {b : ℝ} (hb : 0 < b)
    (l : List ℝ) : trimmedMoment t r (l.map (aff a b)) = b * trimmedMoment t r l := by
  unfold trimmedMoment
  rw [List.length_map, sort_aff a hb, ← mul_div_assoc]
  congr 1
  have : ∀ i ∈ Finset.Ico 2 l.length, at_ ((sort l).map (aff a b)) (i - 1) *
      pstarmod t r l.length i = a * pstarmod t r l.length i +
        b * (at_ (sort l) (i - 1) * pstarmod t r l.length i) := by
    intro i hi
    have := Finset.mem_Ico.mp hi
    rw [at_aff a b (by rw [length_sort]; omega)]
    unfold aff; ring
  rw [Finset.sum_congr rfl this, Finset.sum_add_distrib, ← Finset.mul_sum, ← Finset.mul_sum,
    sum_pstarmod ht hr, mul_zero, zero_add]

theorem hoskingTrimmed_aff {t : ℕ} (ht : 1 ≤ t) (a : ℝ) {b : ℝ} (hb : 0 < b) (l : List ℝ) :
    hoskingTrimmed t (l.map (aff a b)) = hoskingTrimmed t l := by
  unfold hoskingTrimmed
  rw [trimmedMoment_aff ht (by omega) a hb, trimmedMoment_aff ht (by omega) a hb,
    trimmedMoment_aff ht (by omega) a hb, hoskingStat_scale _ _ hb, List.length_map]

theorem hosking1_aff (a : ℝ) {b : ℝ} (hb : 0 < b) {l : List ℝ} (h : 3 < l.length) :
    hosking1 (l.map (aff a b)) = hosking1 l := by
  have hn : (3 : ℝ) < l.length := by exact_mod_cast h
  unfold hosking1
  dsimp only
  rw [List.length_map, sort_aff a hb, sum_aff, dot_aff, dot_aff, dot_aff, length_sort, sum_fall1,
    sum_fall2, sum_fall3]
  refine Eq.trans ?_ (hoskingStat_scale 0 l.length hb _ _ _)
  set n : ℝ := (l.length : ℝ)
  have h0 : n ≠ 0 := by linarith
  have h1 : n - 1 ≠ 0 := by linarith
  have h2 : n - 2 ≠ 0 := by linarith
  have h3 : n - 3 ≠ 0 := by linarith
  congr 1 <;> (field_simp; ring)

theorem dot_free {c : ℕ → ℝ} {l : List ℝ} (hc : ∑ i ∈ Finset.range l.length, c i = 0) (a : ℝ)
    (b : ℝ) : dot c (l.map (aff a b)) = b * dot c l := by
  rw [dot_aff, hc, mul_zero, zero_add]

/-- **C63**: shifting the sample and multiplying it by a positive number changes no normality
statistic, except those of Kolmogorov-Smirnov and Cramer-von Mises, which are not composite tests.
(For a sample without spread both sides are NaN in the code and `0 / 0 = 0` here.) -/
theorem C63_location_scale {lib : NormLib} (hlib : lib.Symmetric) {s : NormStat}
    (hs : LocationScaleFree s) (a b : ℝ) (hb : 0 < b) (xs : List ℝ) :
    s.value lib (xs.map fun x => a + b * x) = s.value lib xs := by
  change s.value lib (xs.map (aff a b)) = s.value lib xs
  by_cases h : xs = []
  · subst h; rfl
  have hl : (xs.map (aff a b)).length = xs.length := List.length_map _
  have hn : 0 < xs.length := List.length_pos_of_ne_nil h
  have hsort := sort_aff a hb xs
  have hst := standardised_aff a hb h
  have hph : phiz lib (xs.map (aff a b)) = phiz lib xs := by unfold phiz; rw [hst]
  have hsn := sort_ne_nil h
  have hls := length_sort xs
  have hv' : (xs.map (aff a b)).map (fun x => (x - mean (xs.map (aff a b))) /
      √(var1' (xs.map (aff a b)))) = xs.map fun x => (x - mean xs) / √(var1' xs) := by
    rw [var1'_eq _ (by simpa using h), var1'_eq _ h]
    exact hst
  have hg : ∀ v w : Except PyErr ℝ, (3 < xs.length → v = w) →
      guarded (xs.map (aff a b)) v = guarded xs w := by
    intro v w hvw
    unfold guarded
    rw [hl]
    split
    · rw [hvw (by assumption)]
    · rfl
  cases s with
  | ks t => exact hs.elim
  | cvm => exact hs.elim
  | andersonDarling =>
    have e : (sort (xs.map (aff a b))).map (fun y => (y - mean (xs.map (aff a b))) /
        sd1 (xs.map (aff a b))) = (sort xs).map fun y => (y - mean xs) / sd1 xs := by
      rw [hsort, sd1_aff a hb h, map_cent_aff a b h (fun d => d / (b * sd1 xs))]
      refine List.map_congr_left fun x _ => ?_
      rw [mul_div_mul_left _ _ hb.ne']
    simp only [NormStat.value, Normal.andersonDarling, e]
  | shapiroWilk =>
    simp only [NormStat.value, Normal.shapiroWilk, hl, hsort, sumsq_aff a b h]
    split
    · rfl
    · split
      · rfl
      · rw [dot_free (by rw [hls]; exact sum_swCoef hlib (by omega)), mul_pow,
          mul_div_mul_left _ _ (by positivity)]
  | lilliefors => simp only [NormStat.value, Normal.lilliefors, hst]
  | jarqueBera =>
    have e : (xs.map (aff a b)).map (fun x => x - mean (xs.map (aff a b))) =
        (xs.map fun x => x - mean xs).map (aff 0 b) := by
      rw [map_cent_aff a b h (fun d => d), List.map_map]
      refine List.map_congr_left fun x _ => ?_
      simp [aff]
    have h' : (xs.map fun x => x - mean xs) ≠ [] := by simpa using h
    simp only [NormStat.value, Normal.jarqueBera, hl, e, skew_aff 0 hb h', kurt_aff 0 hb h']
  | skew => simp only [NormStat.value, skewTest, hl, hsort, skew_aff a hb hsn]
  | kurtosis => simp only [NormStat.value, kurtosisTest, hl, hsort, kurt_aff a hb hsn]
  | dap =>
    simp only [NormStat.value, Normal.dap, skewTest, kurtosisTest, hl, hsort, skew_aff a hb hsn,
      kurt_aff a hb hsn]
  | filli => simp only [NormStat.value, Normal.filli, hl, hsort, pearsonr_aff _ a hb]
  | looneyGulledge =>
    simp only [NormStat.value, Normal.looneyGulledge, hl, hsort, pearsonr_aff _ a hb]
  | ryanJoiner w α =>
    simp only [NormStat.value, Normal.ryanJoiner, hl, hsort, pearsonr_aff _ a hb]
    congr 2
    refine List.map_congr_left fun i hi => ?_
    rw [groupMean_aff a hb _ _ (by rw [hls]; exact List.mem_range.mp hi)]
  | shapiroFrancia =>
    simp only [NormStat.value, Normal.shapiroFrancia, hl, hsort, sumsq_aff a b hsn]
    rw [dot_free, mul_pow, mul_assoc, mul_div_mul_left _ _ (by positivity)]
    rw [hls]
    refine sum_antisymm fun i hi => ?_
    rw [ppf_blom hlib hi]
  | eppsPulley =>
    have hb2 : (b ^ 2) ≠ 0 := by positivity
    have e1 : ((sort xs).map (aff a b)).map (fun v => Real.exp (-(v - mean ((sort xs).map (aff a b))) ^ 2
        / (4 * variance ((sort xs).map (aff a b))))) = (sort xs).map fun v =>
          Real.exp (-(v - mean (sort xs)) ^ 2 / (4 * variance (sort xs))) := by
      rw [variance_aff a b hsn, map_cent_aff a b hsn
        (fun d => Real.exp (-d ^ 2 / (4 * (b ^ 2 * variance (sort xs)))))]
      refine List.map_congr_left fun x _ => ?_
      congr 1
      rw [mul_pow, neg_mul_eq_mul_neg, mul_left_comm, mul_div_mul_left _ _ hb2]
    have e2 : ∀ k ∈ Finset.range xs.length, ∀ j ∈ Finset.range k,
        Real.exp (-(at_ ((sort xs).map (aff a b)) j - at_ ((sort xs).map (aff a b)) k) ^ 2 /
          (2 * variance ((sort xs).map (aff a b)))) =
        Real.exp (-(at_ (sort xs) j - at_ (sort xs) k) ^ 2 / (2 * variance (sort xs))) := by
      intro k hk j hj
      have hk := Finset.mem_range.mp hk
      have hj := Finset.mem_range.mp hj
      rw [at_aff a b (by omega), at_aff a b (by omega), variance_aff a b hsn]
      congr 1
      rw [show aff a b (at_ (sort xs) j) - aff a b (at_ (sort xs) k) =
        b * (at_ (sort xs) j - at_ (sort xs) k) by unfold aff; ring, mul_pow, neg_mul_eq_mul_neg,
        mul_left_comm, mul_div_mul_left _ _ hb2]
    simp only [NormStat.value, Normal.eppsPulley, hl, hsort, e1]
    rw [Finset.sum_congr rfl fun k hk => Finset.sum_congr rfl (e2 k hk)]
  | hosking1 => exact hg _ _ fun h3 => by rw [hosking1_aff a hb h3]
  | hosking2 => simp only [NormStat.value, hl, hoskingTrimmed_aff le_rfl a hb]
  | hosking3 => exact hg _ _ fun _ => by rw [hoskingTrimmed_aff (by omega) a hb]
  | hosking4 => exact hg _ _ fun _ => by rw [hoskingTrimmed_aff (by omega) a hb]
  | zhangWuC => exact hg _ _ fun _ => by simp only [Normal.zhangWuC, hl, hph]
  | zhangWuA => exact hg _ _ fun _ => by simp only [Normal.zhangWuA, hl, hph]
  | glenLeemisBarr => exact hg _ _ fun _ => by simp only [Normal.glenLeemisBarr, hl, hph]
  | doornikHansen =>
    have e1 := skew_aff a hb h
    have e2 := kurt_aff a hb h
    unfold Normal.skew at e1
    unfold kurt at e2
    simp only [NormStat.value, Normal.doornikHansen, hl]
    rw [show (1.5 : ℝ) = 3 / 2 by norm_num, e1, e2]
  | robustJarqueBera =>
    have e : ((xs.map (aff a b)).map fun x => |x - median ((sort xs).map (aff a b))|).sum =
        b * (xs.map fun x => |x - median (sort xs)|).sum := by
      rw [← sum_map_mul, List.map_map, median_aff a b hsn]
      congr 1
      refine List.map_congr_left fun x _ => ?_
      simp only [Function.comp]
      rw [show aff a b x - aff a b (median (sort xs)) = b * (x - median (sort xs)) by
        unfold aff; ring, abs_mul, abs_of_pos hb]
    simp only [NormStat.value, Normal.robustJarqueBera, hl, hsort, e, moment_aff _ a b hsn]
    rw [show ∀ c S : ℝ, c * (b * S) = b * (c * S) by intros; ring, mul_pow b _ 3,
      mul_pow b _ 4, mul_div_mul_left _ _ (show b ^ 3 ≠ 0 by positivity),
      mul_div_mul_left _ _ (show b ^ 4 ≠ 0 by positivity)]
  | bontempsMeddahi1 => exact hg _ _ fun _ => by simp only [Normal.bontempsMeddahi1, hl, hv']
  | bontempsMeddahi2 => exact hg _ _ fun _ => by simp only [Normal.bontempsMeddahi2, hl, hst]
  | bonettSeier =>
    refine hg _ _ fun _ => ?_
    simp only [Normal.bonettSeier, hl, sumsq_aff a b h, sumabs_aff a hb h]
    congr 1
    rw [mul_div_assoc (b ^ 2), mul_div_assoc b, sqrt_sq_mul hb]
    by_cases h0 : ∀ x ∈ xs, x = mean xs
    · have z1 : (xs.map fun x => (x - mean xs) ^ 2).sum = 0 := by
        refine List.sum_eq_zero fun y hy => ?_
        obtain ⟨x, hx, rfl⟩ := List.mem_map.mp hy
        rw [sub_eq_zero.mpr (h0 x hx)]; norm_num
      have z2 : (xs.map fun x => |x - mean xs|).sum = 0 := by
        refine List.sum_eq_zero fun y hy => ?_
        obtain ⟨x, hx, rfl⟩ := List.mem_map.mp hy
        rw [sub_eq_zero.mpr (h0 x hx)]; norm_num
      rw [z1, z2]; simp
    · push_neg at h0
      obtain ⟨x, hx, hne⟩ := h0
      have hN : (0 : ℝ) < xs.length := by exact_mod_cast hn
      have p1 : 0 < (xs.map fun x => (x - mean xs) ^ 2).sum := by
        refine lt_of_lt_of_le (b := (x - mean xs) ^ 2) ?_ ?_
        · have := sub_ne_zero.mpr hne
          positivity
        · refine List.single_le_sum ?_ _ (List.mem_map_of_mem (f := fun x => (x - mean xs) ^ 2) hx)
          intro y hy
          obtain ⟨x, _, rfl⟩ := List.mem_map.mp hy
          positivity
      have p2 : 0 < (xs.map fun x => |x - mean xs|).sum := by
        refine lt_of_lt_of_le (b := |x - mean xs|) ?_ ?_
        · exact abs_pos.mpr (sub_ne_zero.mpr hne)
        · refine List.single_le_sum ?_ _ (List.mem_map_of_mem (f := fun x => |x - mean xs|) hx)
          intro y hy
          obtain ⟨x, _, rfl⟩ := List.mem_map.mp hy
          positivity
      rw [Real.log_mul hb.ne' (Real.sqrt_pos.mpr (by positivity)).ne',
        Real.log_mul hb.ne' (by positivity)]
      ring
  | martinezIglewicz =>
    refine hg _ _ fun _ => ?_
    have e0 : (xs.map (aff a b)).map (fun x => x - median ((sort xs).map (aff a b))) =
        (xs.map fun x => x - median (sort xs)).map (b * ·) := by
      rw [List.map_map, List.map_map, median_aff a b hsn]
      refine List.map_congr_left fun x _ => ?_
      simp only [Function.comp, aff]; ring
    have e1 : ((xs.map fun x => x - median (sort xs)).map (b * ·)).map (fun v => |v|) =
        ((xs.map fun x => x - median (sort xs)).map fun v => |v|).map (aff 0 b) := by
      simp only [List.map_map]
      refine List.map_congr_left fun x _ => ?_
      simp only [Function.comp, aff, abs_mul, abs_of_pos hb, zero_add]
    simp only [Normal.martinezIglewicz, hl, hsort, e0, e1, sort_aff 0 hb]
    rw [median_aff 0 b (sort_ne_nil (by simpa using h))]
    simp only [List.map_map, Function.comp_def, aff, zero_add]
    set M := median (sort xs)
    set A := median (sort (xs.map fun x => |x - M|))
    have q : ∀ x : ℝ, b * (x - M) / (9 * (b * A)) = (x - M) / (9 * A) := fun x => by
      rw [mul_left_comm, mul_div_mul_left _ _ hb.ne']
    simp only [q, mul_pow, mul_assoc, sum_map_mul]
    congr 1
    generalize (xs.map fun x => (x - M) ^ 2 * (1 - ((x - M) / (9 * A)) ^ 2) ^ 4).sum = t1
    generalize (xs.map fun x => (1 - ((x - M) / (9 * A)) ^ 2) *
      (1 - 5 * ((x - M) / (9 * A)) ^ 2)).sum = t2
    generalize (xs.map fun x => (x - M) ^ 2).sum = t3
    rw [mul_left_comm, mul_div_assoc (b ^ 2) t3, mul_div_assoc (b ^ 2) (_ * t1),
      mul_div_mul_left _ _ (show b ^ 2 ≠ 0 by positivity)]
  | cabanaCabana1 => exact hg _ _ fun _ => by rw [hst]
  | cabanaCabana2 =>
    refine hg _ _ fun _ => ?_
    have e : cc2Standardised (xs.map (aff a b)) = cc2Standardised xs := by
      unfold cc2Standardised
      dsimp only
      rw [hl, variance_aff a b h, mul_left_comm, mul_div_assoc, sqrt_sq_mul hb,
        map_cent_aff a b h (fun d => d / (b * _))]
      refine List.map_congr_left fun x _ => ?_
      rw [mul_div_mul_left _ _ hb.ne']
    rw [e]
  | chenShapiro =>
    refine hg _ _ fun _ => ?_
    simp only [Normal.chenShapiro, hl, hsort, npDiff_aff, var1_aff a b h, sqrt_sq_mul hb]
    congr 3
    have e : ∀ (g : ℕ → ℝ) (l : List ℝ), ((l.map (b * ·)).mapIdx fun i d => d / g i).sum =
        b * (l.mapIdx fun i d => d / g i).sum := by
      intro g l
      induction l generalizing g with
      | nil => simp
      | cons x l ih =>
        simp only [List.map_cons, List.mapIdx_cons, List.sum_cons]
        rw [ih fun i => g (i + 1)]
        ring
    rw [e (fun i => lib.ppf (blom xs.length (i + 1)) - lib.ppf (blom xs.length i)),
      mul_left_comm, mul_div_mul_left _ _ hb.ne']
  | zhangQ =>
    refine hg _ _ fun _ => ?_
    simp only [Normal.zhangQ, hl, hsort]
    split
    · rfl
    · rw [dot_free (by rw [hls]; exact sum_zqA _ hn),
        dot_free (by rw [hls]; exact sum_zqB (by omega) fun i hi => ppf_blom hlib hi),
        mul_div_mul_left _ _ hb.ne']
  | coin => exact hg _ _ fun _ => by simp only [Normal.coin, hl, hv']
  | dagostino =>
    refine hg _ _ fun _ => ?_
    simp only [Normal.dagostino, hl, hsort]
    have hvar := variance_eq _ (show (sort xs).map (aff a b) ≠ [] by simpa using hsn)
    have hvar0 := variance_eq _ hsn
    rw [List.length_map, hls] at hvar
    rw [hls] at hvar0
    rw [hvar, hvar0, dot_free (by rw [hls]; exact sum_dagostino _), variance_aff a b hsn,
      sqrt_sq_mul hb, mul_left_comm ((xs.length : ℝ) ^ 2), mul_div_mul_left _ _ hb.ne']
  | zhangQStar =>
    refine hg _ _ fun _ => ?_
    simp only [Normal.zhangQStar, hl, hsort, ← List.map_reverse]
    split
    · rfl
    · rw [dot_free (by rw [List.length_reverse, hls]; exact sum_zqA _ hn),
        dot_free (by rw [List.length_reverse, hls]
                     exact sum_zqB (by omega) fun i hi => ppf_blom hlib hi),
        neg_mul_eq_mul_neg, neg_mul_eq_mul_neg, mul_div_mul_left _ _ hb.ne']
  | swrg =>
    refine hg _ _ fun _ => ?_
    simp only [Normal.swrg, hl, hsort, sumsq_aff a b hsn]
    rw [dot_free, mul_pow, mul_div_mul_left _ _ (by positivity)]
    rw [hls, ← Finset.sum_div, sum_swrgStar hlib, zero_div]
  | gmg =>
    refine hg _ _ fun _ => ?_
    have e : ((xs.map (aff a b)).map fun x => |x - median ((sort xs).map (aff a b))|).sum =
        b * (xs.map fun x => |x - median (sort xs)|).sum := by
      rw [← sum_map_mul, List.map_map, median_aff a b hsn]
      congr 1
      refine List.map_congr_left fun x _ => ?_
      simp only [Function.comp]
      rw [show aff a b x - aff a b (median (sort xs)) = b * (x - median (sort xs)) by
        unfold aff; ring, abs_mul, abs_of_pos hb]
    simp only [Normal.gmg, hl, hsort, e, sumsq_aff a b h]
    rw [mul_div_assoc (b ^ 2), sqrt_sq_mul hb, mul_left_comm _ b, mul_div_assoc b (√(Real.pi / 2) * _),
      mul_div_mul_left _ _ hb.ne']
  | spiegelhalter =>
    refine hg _ _ fun _ => ?_
    obtain ⟨mx, hmx⟩ := npMax_exists h
    obtain ⟨mn, hmn⟩ := pyMin_exists h
    simp only [Normal.spiegelhalter, hl, npMax_aff a hb, pyMin_aff a hb, hmx, hmn,
      var1_aff a b h, sqrt_sq_mul hb, sumabs_aff a hb h, Except.map, bind, Except.bind]
    rw [show aff a b mx - aff a b mn = b * (mx - mn) by unfold aff; ring,
      mul_div_mul_left _ _ hb.ne', mul_assoc b, mul_assoc b, mul_div_mul_left _ _ hb.ne']
  | desgagneLafaye =>
    refine hg _ _ fun _ => ?_
    have hvar := variance_eq _ (show xs.map (aff a b) ≠ [] by simpa using h)
    have hvar0 := variance_eq _ h
    rw [hl] at hvar
    have e : (xs.map (aff a b)).map (fun x => (x - mean (xs.map (aff a b))) / (b * √(variance xs))) =
        xs.map fun x => (x - mean xs) / √(variance xs) := by
      rw [map_cent_aff a b h (fun d => d / (b * √(variance xs)))]
      refine List.map_congr_left fun x _ => ?_
      rw [mul_div_mul_left _ _ hb.ne']
    simp only [Normal.desgagneLafaye, hl, hvar, hvar0, variance_aff a b h, sqrt_sq_mul hb, e]

/-- The hypothesis of `C63_location_scale` holds of the standard normal distribution. -/
example (a b : ℝ) (hb : 0 < b) :
    NormStat.shapiroWilk.value scipyNorm ([3, 1, 4, 1, 5].map fun x => a + b * x) =
      NormStat.shapiroWilk.value scipyNorm [3, 1, 4, 1, 5] :=
  C63_location_scale (s := .shapiroWilk) scipyNorm_symmetric trivial a b hb _

theorem exists_far : ∃ t : ℝ, Phi (t - 1) = 9 / 10 ∧ 9 / 10 < Phi (t + 1) ∧ Phi (t + 1) ≤ 1 := by
  obtain ⟨x, hx⟩ := Phi_surj (p := 9 / 10) (by norm_num) (by norm_num)
  refine ⟨x + 1, by simpa using hx, ?_, ProbabilityTheory.cdf_le_one _ _⟩
  rw [← hx]
  exact Phi_strictMono (by linarith)

theorem Phi_zero : Phi 0 = 1 / 2 := by
  have := Phi_neg 0
  rw [neg_zero] at this
  linarith

theorem sort_pair {x y : ℝ} (h : x ≤ y) : sort [x, y] = [x, y] := by
  simp [sort, List.insertionSort, h]

theorem npMax_pair (x y : ℝ) : npMax [x, y] = .ok (max x y) := by
  simp [npMax, List.max?]

theorem ks_pair (u w : ℝ) : ks .twoTailed [u, w] =
    .ok (max (max (1 / 2 - u) (1 - w)) (max u (w - 1 / 2))) := by
  have h1 : dPlus [u, w] = .ok (max (1 / 2 - u) (1 - w)) := by
    unfold dPlus plusGaps
    rw [← npMax_pair]
    norm_num
  have h2 : dMinus [u, w] = .ok (max u (w - 1 / 2)) := by
    unfold dMinus minusGaps
    rw [← npMax_pair]
    norm_num
  rw [ks_two h1 h2]

/-- **C63, refuted** for Kolmogorov-Smirnov and Cramer-von Mises: a shift of the sample changes the
value. -/
theorem C63_refuted_ks_cvm : ∃ a : ℝ,
    NormStat.cvm.value scipyNorm ([-1, 1].map fun x => a + 1 * x) ≠
      NormStat.cvm.value scipyNorm [-1, 1] ∧
    (NormStat.ks .twoTailed).value scipyNorm ([-1, 1].map fun x => a + 1 * x) ≠
      (NormStat.ks .twoTailed).value scipyNorm [-1, 1] := by
  obtain ⟨t, h1, h2, h3⟩ := exists_far
  have p1 : 1 / 2 < Phi 1 := by rw [← Phi_zero]; exact Phi_strictMono one_pos
  have p2 : Phi 1 ≤ 1 := ProbabilityTheory.cdf_le_one _ _
  have p3 := Phi_neg 1
  have e1 : ([-1, 1] : List ℝ).map (fun x => t + 1 * x) = [t - 1, t + 1] := by
    simp [sub_eq_add_neg]
  refine ⟨t, ?_, ?_⟩
  · rw [e1]
    simp only [NormStat.value, cvmOf, cvm, sort_pair (show t - 1 ≤ t + 1 by linarith),
      sort_pair (show (-1 : ℝ) ≤ 1 by norm_num), scipyNorm]
    intro h
    simp only [Except.ok.injEq, Option.some.injEq, List.map_cons, List.map_nil, List.mapIdx_cons,
      List.mapIdx_nil, List.sum_cons, List.sum_nil, List.length_cons, List.length_nil, h1, p3] at h
    norm_num at h
    nlinarith
  · rw [e1]
    simp only [NormStat.value, ksOf, sort_pair (show t - 1 ≤ t + 1 by linarith),
      sort_pair (show (-1 : ℝ) ≤ 1 by norm_num), scipyNorm, List.map_cons, List.map_nil, ks_pair,
      Except.map, h1, p3]
    intro h
    simp only [Except.ok.injEq, Option.some.injEq] at h
    have l1 : (9 / 10 : ℝ) ≤ max (max (1 / 2 - 9 / 10) (1 - Phi (t + 1)))
        (max (9 / 10) (Phi (t + 1) - 1 / 2)) := le_max_of_le_right (le_max_left _ _)
    rw [h] at l1
    have l2 : max (max (1 / 2 - (1 - Phi 1)) (1 - Phi 1)) (max (1 - Phi 1) (Phi 1 - 1 / 2)) ≤
        (1 / 2 : ℝ) := by
      refine max_le (max_le ?_ ?_) (max_le ?_ ?_) <;> linarith
    linarith

end Pysatl.Props
