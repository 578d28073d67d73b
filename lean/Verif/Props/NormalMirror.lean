import Verif.Lemmas.NormalMirror
import Verif.Model.NormalTail
import Verif.Lemmas.Gaussian
import Mathlib.MeasureTheory.Integral.IntervalIntegral.Basic

/-! # C115: the normality statistics and the reflected sample -/

namespace Pysatl.Props

open Pysatl.Decision Pysatl.Graph Pysatl.Edf Pysatl.Exponent Pysatl.Normal

/-- What the theorem uses of `scipy.stats`: the standard normal distribution is symmetric about zero
and charges both sides of every point; the beta distribution with exchanged parameters is the
reflected one. -/
structure _root_.Pysatl.Normal.NormLib.Mirror (lib : NormLib) : Prop extends lib.Symmetric where
  cdf : ∀ x, lib.cdf (-x) = 1 - lib.cdf x
  cdf_pos : ∀ x, 0 < lib.cdf x
  logcdf : ∀ x, lib.logcdf (-x) = lib.logsf x
  betaCdf : ∀ p, 0 < p → p < 1 → ∀ a b : ℕ, 1 ≤ a → 1 ≤ b →
    lib.betaCdf (1 - p) a b = 1 - lib.betaCdf p b a

/-- The classes whose value does not tell a sample from its mirror image. -/
def MirrorFree : NormStat → Prop
  | .ks .right | .ks .left | .skew | .cabanaCabana1 | .cabanaCabana2 | .zhangQ | .zhangQStar => False
  | _ => True

theorem cdf_lt_one {lib : NormLib} (h : lib.Mirror) (x : ℝ) : lib.cdf x < 1 := by
  have := h.cdf_pos (-x)
  rw [h.cdf] at this
  linarith

theorem phiz_mirror {lib : NormLib} (h : lib.Mirror) (xs : List ℝ) :
    phiz lib (mirror xs) = comirror (phiz lib xs) := by
  unfold phiz comirror
  rw [standardised_mirror, map_mirror, ← sort_antitone (fun x y hxy => by linarith), List.map_map]
  congr 1
  exact List.map_congr_left fun x _ => h.cdf x

theorem phiz_mem {lib : NormLib} (h : lib.Mirror) {xs : List ℝ} {p : ℝ} (hp : p ∈ phiz lib xs) :
    0 < p ∧ p < 1 := by
  have := (sort_perm _).mem_iff.mp hp
  obtain ⟨z, -, rfl⟩ := List.mem_map.mp this
  exact ⟨h.cdf_pos z, cdf_lt_one h z⟩

theorem length_phiz (lib : NormLib) (xs : List ℝ) : (phiz lib xs).length = xs.length := by
  unfold phiz; rw [length_sort]; simp [standardised]

theorem map_comirror {lib : NormLib} (h : lib.Mirror) (l : List ℝ) :
    ((mirror l).reverse).map lib.cdf = comirror (l.map lib.cdf) := by
  unfold comirror
  rw [List.map_reverse, map_mirror, List.map_map]
  congr 1
  exact List.map_congr_left fun x _ => h.cdf x

theorem hosking1_mirror {l : List ℝ} (h : 3 < l.length) :
    hosking1 (mirror l) = hosking1 l := by
  have hn : (3 : ℝ) < l.length := by exact_mod_cast h
  unfold hosking1
  dsimp only
  have hs : ((mirror (sort l)).reverse).sum = -(sort l).sum := by
    rw [← dot_one, dot_mirror, dot_one]
  rw [length_mirror, sort_mirror, hs, dot_mirror, dot_mirror, dot_mirror, length_sort]
  have hl := length_sort l
  have e1 : dot (fun i => ((l.length - 1 - i : ℕ) : ℝ)) (sort l) =
      (l.length - 1) * (sort l).sum - dot (fun i => (i : ℝ)) (sort l) := by
    rw [dot_congr (d := fun i => ((l.length : ℝ) - 1) * 1 + (-1) * i) fun i hi => by
      rw [cast_reflect (by omega)]; ring, dot_lin _ _ (fun _ => 1) (fun i => (i : ℝ)), dot_one]
    ring
  have e2 : dot (fun i => ((l.length - 1 - i : ℕ) : ℝ) * (((l.length - 1 - i : ℕ) : ℝ) - 1))
      (sort l) = (l.length - 1) * (l.length - 2) * (sort l).sum -
        2 * (l.length - 2) * dot (fun i => (i : ℝ)) (sort l) +
        dot (fun i => (i : ℝ) * (i - 1)) (sort l) := by
    rw [dot_congr (d := fun i => 1 * ((((l.length : ℝ) - 1) * (l.length - 2)) * 1 +
      (-(2 * ((l.length : ℝ) - 2))) * i) + 1 * ((i : ℝ) * (i - 1))) fun i hi => by
      rw [cast_reflect (by omega)]; ring,
      dot_lin _ _ (fun i => (((l.length : ℝ) - 1) * (l.length - 2)) * 1 +
        (-(2 * ((l.length : ℝ) - 2))) * (i : ℝ)) (fun i => (i : ℝ) * (i - 1)),
      dot_lin _ _ (fun _ => 1) (fun i => (i : ℝ)), dot_one]
    ring
  have e3 : dot (fun i => ((l.length - 1 - i : ℕ) : ℝ) * (((l.length - 1 - i : ℕ) : ℝ) - 1) *
      (((l.length - 1 - i : ℕ) : ℝ) - 2)) (sort l) =
        (l.length - 1) * (l.length - 2) * (l.length - 3) * (sort l).sum -
        3 * (l.length - 2) * (l.length - 3) * dot (fun i => (i : ℝ)) (sort l) +
        3 * (l.length - 3) * dot (fun i => (i : ℝ) * (i - 1)) (sort l) -
        dot (fun i => (i : ℝ) * (i - 1) * (i - 2)) (sort l) := by
    rw [dot_congr (d := fun i => 1 * ((((l.length : ℝ) - 1) * (l.length - 2) * (l.length - 3)) * 1 +
      (-(3 * ((l.length : ℝ) - 2) * (l.length - 3))) * i) + 1 * (3 * ((l.length : ℝ) - 3) *
        ((i : ℝ) * (i - 1)) + (-1) * ((i : ℝ) * (i - 1) * (i - 2)))) fun i hi => by
      rw [cast_reflect (by omega)]; ring,
      dot_lin _ _ (fun i => (((l.length : ℝ) - 1) * (l.length - 2) * (l.length - 3)) * 1 +
        (-(3 * ((l.length : ℝ) - 2) * (l.length - 3))) * (i : ℝ))
        (fun i => 3 * ((l.length : ℝ) - 3) * ((i : ℝ) * (i - 1)) +
          (-1) * ((i : ℝ) * (i - 1) * (i - 2))),
      dot_lin _ _ (fun _ => 1) (fun i => (i : ℝ)), dot_lin _ _ (fun i => (i : ℝ) * (i - 1))
        (fun i => (i : ℝ) * (i - 1) * (i - 2)), dot_one]
    ring
  rw [e1, e2, e3]
  generalize (sort l).sum = S0
  generalize dot (fun i => (i : ℝ)) (sort l) = S1
  generalize dot (fun i => (i : ℝ) * (i - 1)) (sort l) = S2
  generalize dot (fun i => (i : ℝ) * (i - 1) * (i - 2)) (sort l) = S3
  unfold hoskingStat
  dsimp only
  set n : ℝ := (l.length : ℝ)
  have h0 : n ≠ 0 := by linarith
  have h1 : n - 1 ≠ 0 := by linarith
  have h2 : n - 2 ≠ 0 := by linarith
  have h3 : n - 3 ≠ 0 := by linarith
  have a2 : 2 * (-((n - 1) * S0 - S1) / (n * (n - 1))) - -S0 / n =
      2 * (S1 / (n * (n - 1))) - S0 / n := by field_simp; ring
  have a3 : 6 * (-((n - 1) * (n - 2) * S0 - 2 * (n - 2) * S1 + S2) / (n * (n - 1) * (n - 2))) -
      6 * (-((n - 1) * S0 - S1) / (n * (n - 1))) + -S0 / n =
      -(6 * (S2 / (n * (n - 1) * (n - 2))) - 6 * (S1 / (n * (n - 1))) + S0 / n) := by
    field_simp; ring
  have a4 : 20 * (-((n - 1) * (n - 2) * (n - 3) * S0 - 3 * (n - 2) * (n - 3) * S1 +
      3 * (n - 3) * S2 - S3) / (n * (n - 1) * (n - 2) * (n - 3))) -
      30 * (-((n - 1) * (n - 2) * S0 - 2 * (n - 2) * S1 + S2) / (n * (n - 1) * (n - 2))) +
      12 * (-((n - 1) * S0 - S1) / (n * (n - 1))) - -S0 / n =
      20 * (S3 / (n * (n - 1) * (n - 2) * (n - 3))) - 30 * (S2 / (n * (n - 1) * (n - 2))) +
      12 * (S1 / (n * (n - 1))) - S0 / n := by
    field_simp; ring
  rw [a2, a3, a4, neg_div, neg_sq]

theorem hoskingTrimmed_mirror (t : ℕ) (l : List ℝ) :
    hoskingTrimmed t (mirror l) = hoskingTrimmed t l := by
  unfold hoskingTrimmed hoskingStat
  rw [trimmedMoment_mirror (by omega), trimmedMoment_mirror (by omega),
    trimmedMoment_mirror (by omega), length_mirror]
  dsimp only
  norm_num [neg_div]

theorem eppsPulley_mirror (l : List ℝ) : Normal.eppsPulley (mirror l) = Normal.eppsPulley l := by
  have hv : variance (mirror (sort l)).reverse = variance (sort l) :=
    (variance_perm (List.reverse_perm _)).trans (variance_mirror _)
  unfold Normal.eppsPulley
  dsimp only
  rw [length_mirror, sort_mirror, hv, mean_reverse, List.map_reverse, List.sum_reverse,
    map_cent_mirror (sort l) (sort l) fun d => Real.exp (-d ^ 2 / (4 * variance (sort l)))]
  have hb : ∑ k ∈ Finset.range l.length, ∑ j ∈ Finset.range k,
      Real.exp (-(at_ (mirror (sort l)).reverse j - at_ (mirror (sort l)).reverse k) ^ 2 /
        (2 * variance (sort l))) = ∑ k ∈ Finset.range l.length, ∑ j ∈ Finset.range k,
      Real.exp (-(at_ (sort l) j - at_ (sort l) k) ^ 2 / (2 * variance (sort l))) := by
    rw [← sum_pairs_reflect (F := fun j k =>
      Real.exp (-(at_ (sort l) j - at_ (sort l) k) ^ 2 / (2 * variance (sort l))))
      (fun i j => by rw [← neg_sub, neg_sq])]
    refine Finset.sum_congr rfl fun k hk => Finset.sum_congr rfl fun j hj => ?_
    have := Finset.mem_range.mp hk
    have := Finset.mem_range.mp hj
    rw [at_mirror_reverse (by rw [length_sort]; omega),
      at_mirror_reverse (by rw [length_sort]; omega), length_sort]
    congr 2
    ring
  rw [hb]
  simp only [neg_sq]

theorem zhangWuC_mirror {lib : NormLib} (h : lib.Mirror) (l : List ℝ) :
    zhangWuC lib (mirror l) = zhangWuC lib l := by
  unfold zhangWuC
  dsimp only
  rw [phiz_mirror h, comirror, sum_mapIdx_reverse, mapIdx_map, length_mirror, List.length_map,
    length_phiz]
  congr 1
  refine mapIdx_congr fun i hi => ?_
  obtain ⟨h0, h1⟩ := phiz_mem h (List.getElem_mem hi)
  have hil : i < l.length := by rwa [length_phiz] at hi
  generalize (phiz lib l)[i] = p at h0 h1
  rw [cast_reflect hil, ← neg_sq (Real.log ((1 / p - 1) / _)), ← Real.log_inv]
  congr 2
  have hi' : (i : ℝ) + 1 ≤ l.length := by exact_mod_cast hil
  have hi0 : (0 : ℝ) ≤ i := Nat.cast_nonneg i
  set n : ℝ := (l.length : ℝ)
  have hp : p ≠ 0 := h0.ne'
  have hq : 1 - p ≠ 0 := by linarith
  have b1 : (n - 0.5) / (n - 1 - i + 1 - 0.75) - 1 = (i + 0.25) / (n - i - 0.75) := by
    rw [show n - 1 - (i : ℝ) + 1 - 0.75 = n - i - 0.75 by ring, div_sub_one (by linarith)]
    congr 1
    ring
  have b2 : (n - 0.5) / ((i : ℝ) + 1 - 0.75) - 1 = (n - i - 0.75) / (i + 0.25) := by
    rw [show (i : ℝ) + 1 - 0.75 = i + 0.25 by ring, div_sub_one (by linarith)]
    congr 1
    ring
  have c1 : (1 : ℝ) / (1 - p) - 1 = p / (1 - p) := by field_simp; ring
  have c2 : (1 : ℝ) / p - 1 = (1 - p) / p := by field_simp
  rw [b1, b2, c1, c2, inv_div]
  have hx : n - (i : ℝ) - 0.75 ≠ 0 := by linarith
  have hy : (i : ℝ) + 0.25 ≠ 0 := by linarith
  field_simp

theorem zhangWuA_mirror {lib : NormLib} (h : lib.Mirror) (l : List ℝ) :
    zhangWuA lib (mirror l) = zhangWuA lib l := by
  unfold zhangWuA
  dsimp only
  rw [phiz_mirror h, comirror, sum_mapIdx_reverse, mapIdx_map, length_mirror, List.length_map,
    length_phiz]
  congr 4
  refine mapIdx_congr fun i hi => ?_
  have hil : i < l.length := by rwa [length_phiz] at hi
  rw [cast_reflect hil, show 1 - (1 - (phiz lib l)[i]) = (phiz lib l)[i] by ring,
    show (l.length : ℝ) - (l.length - 1 - i + 1) + 0.5 = i + 1 - 0.5 by ring,
    show (l.length : ℝ) - 1 - i + 1 - 0.5 = l.length - (i + 1) + 0.5 by ring, add_comm]

theorem glenLeemisBarr_mirror {lib : NormLib} (h : lib.Mirror) (l : List ℝ) :
    glenLeemisBarr lib (mirror l) = glenLeemisBarr lib l := by
  have hp : (phiz lib (mirror l)).mapIdx (fun i p => lib.betaCdf p (i + 1)
      ((mirror l).length - (i + 1) + 1)) = comirror ((phiz lib l).mapIdx fun i p =>
        lib.betaCdf p (i + 1) (l.length - (i + 1) + 1)) := by
    rw [phiz_mirror h, length_mirror]
    unfold comirror
    rw [mapIdx_reverse, mapIdx_map, List.length_map, length_phiz]
    congr 1
    refine List.ext_getElem (by simp) fun i h1 h2 => ?_
    have hi : i < l.length := by simpa [length_phiz] using h1
    simp only [List.getElem_mapIdx, List.getElem_map]
    obtain ⟨h0, h1⟩ := phiz_mem h (List.getElem_mem (l := phiz lib l) (n := i)
      (by rwa [length_phiz]))
    rw [h.betaCdf _ h0 h1 _ _ (by omega) (by omega), show l.length - (l.length - 1 - i + 1) + 1 =
      i + 1 by omega, show l.length - 1 - i + 1 = l.length - (i + 1) + 1 by omega]
  have hs : ∀ m : List ℝ, sort (comirror m) = comirror (sort m) := fun m => by
    unfold comirror
    rw [← sort_antitone (fun x y hxy => by linarith)]
    exact sort_eq_of_perm (List.reverse_perm _)
  unfold glenLeemisBarr
  dsimp only
  rw [hp, hs, length_mirror]
  set m := sort ((phiz lib l).mapIdx fun i p => lib.betaCdf p (i + 1) (l.length - (i + 1) + 1)) with hm
  have hml : m.length = l.length := by rw [hm, length_sort]; simp [length_phiz]
  congr 2
  rw [comirror, sum_mapIdx_reverse, mapIdx_map, List.length_map, hml]
  congr 1
  refine mapIdx_congr fun i hi => ?_
  rw [cast_reflect (by omega), show 1 - (1 - m[i]) = m[i] by ring]
  ring

theorem skewZ_neg (n b : ℝ) (hb : b * √(((n + 1) * (n + 3)) / (6 * (n - 2))) ≠ 0) :
    skewZ n (-b) = -skewZ n b := by
  unfold skewZ
  dsimp only
  rw [neg_mul, if_neg (neg_ne_zero.mpr hb), if_neg hb, neg_div, log_asinh_odd, mul_neg]

theorem skewZ_sq (n b : ℝ) : skewZ n (-b) * skewZ n (-b) = skewZ n b * skewZ n b := by
  by_cases hb : b * √(((n + 1) * (n + 3)) / (6 * (n - 2))) = 0
  · have : skewZ n (-b) = skewZ n b := by
      unfold skewZ
      dsimp only
      rw [neg_mul, hb, neg_zero]
    rw [this]
  · rw [skewZ_neg n b hb]; ring

theorem dhZ1_neg (s n : ℝ) : dhZ1 (-s) n = -dhZ1 s n := by
  unfold dhZ1
  dsimp only
  rw [neg_mul, neg_div, log_asinh_odd, mul_neg]

theorem dhZ2_neg (s k n : ℝ) : dhZ2 (-s) k n = dhZ2 s k n := by
  unfold dhZ2
  simp only [neg_sq]

theorem sort_skew_mirror (l : List ℝ) : skew (sort (mirror l)) = -skew (sort l) := by
  rw [skew_perm (sort_perm _), skew_perm (sort_perm l), skew_mirror]

theorem sort_kurt_mirror (l : List ℝ) : kurt (sort (mirror l)) = kurt (sort l) := by
  rw [kurt_perm (sort_perm _), kurt_perm (sort_perm l), kurt_mirror]

theorem filliMedian_reflect {n i : ℕ} (hn : 2 ≤ n) (hi : i < n) :
    filliMedian n (n - 1 - i) = 1 - filliMedian n i := by
  unfold filliMedian
  by_cases h0 : i = 0
  · rw [if_pos (by omega), if_neg (by omega), if_pos h0]; ring
  · by_cases h1 : i = n - 1
    · rw [if_neg (by omega), if_pos (by omega), if_pos h1]
    · rw [if_neg (by omega), if_neg (by omega), if_neg h1, if_neg h0, cast_reflect hi]
      have : (0 : ℝ) < (n : ℝ) + 0.365 := by positivity
      field_simp
      ring

theorem filliMedian_pos {n i : ℕ} (hn : 2 ≤ n) : 0 < filliMedian n i := by
  unfold filliMedian
  have hnr : (2 : ℝ) ≤ n := by exact_mod_cast hn
  split
  · positivity
  · split
    · have : (1 / 2 : ℝ) ^ (1 / (n : ℝ)) < 1 :=
        Real.rpow_lt_one (by norm_num) (by norm_num) (by positivity)
      linarith
    · have : (0 : ℝ) ≤ i := Nat.cast_nonneg i
      apply div_pos <;> linarith

theorem ppf_filli {lib : NormLib} (h : lib.Symmetric) {n i : ℕ} (hn : 2 ≤ n) (hi : i < n) :
    lib.ppf (filliMedian n (n - 1 - i)) = -lib.ppf (filliMedian n i) := by
  have h1 := filliMedian_pos (i := n - 1 - i) hn
  rw [filliMedian_reflect hn hi] at h1 ⊢
  exact h.ppf _ (filliMedian_pos hn) (by linarith)

theorem rjOrder_reflect (α : RjAlpha) {n i : ℕ} (hi : i < n) :
    rjOrder α n (n - 1 - i) = 1 - rjOrder α n i := by
  have hn : (1 : ℝ) ≤ n := by exact_mod_cast (by omega : 1 ≤ n)
  have : (0 : ℝ) < (n : ℝ) - 2 * α.val + 1 := by
    cases α <;> simp only [RjAlpha.val] <;> linarith
  unfold rjOrder
  rw [cast_reflect hi, one_sub_div this.ne']
  congr 1
  ring

theorem rjOrder_pos (α : RjAlpha) {n i : ℕ} (hi : i < n) : 0 < rjOrder α n i := by
  have hn : (1 : ℝ) ≤ n := by exact_mod_cast (by omega : 1 ≤ n)
  have h0 : (0 : ℝ) ≤ i := Nat.cast_nonneg i
  unfold rjOrder
  apply div_pos <;> (cases α <;> simp only [RjAlpha.val] <;> linarith)

theorem groupMean_reflect (α : RjAlpha) {l : List ℝ} {i : ℕ} (hi : i < l.length) :
    groupMean (mirror l).reverse (rjOrder α l.length) (l.length - 1 - i) =
      1 - groupMean l (rjOrder α l.length) i := by
  have hc : (∑ j ∈ (Finset.range (mirror l).reverse.length).filter
      (fun j => at_ (mirror l).reverse j = at_ (mirror l).reverse (l.length - 1 - i)),
      rjOrder α l.length j) = ∑ j ∈ (Finset.range l.length).filter (fun j => at_ l j = at_ l i),
      (1 - rjOrder α l.length j) ∧
      ((Finset.range (mirror l).reverse.length).filter
      (fun j => at_ (mirror l).reverse j = at_ (mirror l).reverse (l.length - 1 - i))).card =
      ((Finset.range l.length).filter (fun j => at_ l j = at_ l i)).card := by
    have hl : (mirror l).reverse.length = l.length := by rw [List.length_reverse, length_mirror]
    have m1 : ∀ j ∈ (Finset.range (mirror l).reverse.length).filter
        (fun j => at_ (mirror l).reverse j = at_ (mirror l).reverse (l.length - 1 - i)),
        l.length - 1 - j ∈ (Finset.range l.length).filter (fun j => at_ l j = at_ l i) := by
      intro j hj
      simp only [Finset.mem_filter, Finset.mem_range, hl] at hj ⊢
      refine ⟨by omega, ?_⟩
      have h2 := hj.2
      rw [at_mirror_reverse hj.1, at_mirror_reverse (by omega),
        show l.length - 1 - (l.length - 1 - i) = i by omega] at h2
      linarith
    have m2 : ∀ j ∈ (Finset.range l.length).filter (fun j => at_ l j = at_ l i),
        l.length - 1 - j ∈ (Finset.range (mirror l).reverse.length).filter
        (fun j => at_ (mirror l).reverse j = at_ (mirror l).reverse (l.length - 1 - i)) := by
      intro j hj
      simp only [Finset.mem_filter, Finset.mem_range, hl] at hj ⊢
      refine ⟨by omega, ?_⟩
      rw [at_mirror_reverse (by omega), at_mirror_reverse (by omega),
        show l.length - 1 - (l.length - 1 - i) = i by omega,
        show l.length - 1 - (l.length - 1 - j) = j by omega, hj.2]
    have m3 : ∀ j ∈ (Finset.range (mirror l).reverse.length).filter
        (fun j => at_ (mirror l).reverse j = at_ (mirror l).reverse (l.length - 1 - i)),
        j < l.length := by
      intro j hj
      simp only [Finset.mem_filter, Finset.mem_range, hl] at hj
      exact hj.1
    constructor
    · refine Finset.sum_nbij' (fun j => l.length - 1 - j) (fun j => l.length - 1 - j) m1 m2
        (fun j hj => ?_) (fun j hj => ?_) (fun j hj => ?_)
      · have := m3 j hj; omega
      · have := Finset.mem_range.mp (Finset.mem_filter.mp hj).1; omega
      · have := m3 j hj
        rw [rjOrder_reflect α this]; ring
    · refine Finset.card_nbij' (fun j => l.length - 1 - j) (fun j => l.length - 1 - j) m1 m2
        (fun j hj => ?_) (fun j hj => ?_)
      · have := m3 j hj; dsimp only; omega
      · have := Finset.mem_range.mp (Finset.mem_filter.mp hj).1; dsimp only; omega
  unfold groupMean
  dsimp only
  rw [hc.1, hc.2, Finset.sum_sub_distrib, Finset.sum_const, nsmul_eq_mul, mul_one, sub_div, div_self]
  have : i ∈ (Finset.range l.length).filter (fun j => at_ l j = at_ l i) := by simp [hi]
  exact_mod_cast (Finset.card_pos.mpr ⟨i, this⟩).ne'

theorem groupMean_pos (α : RjAlpha) {l : List ℝ} {i : ℕ} (hi : i < l.length) :
    0 < groupMean l (rjOrder α l.length) i := by
  have : i ∈ (Finset.range l.length).filter (fun j => at_ l j = at_ l i) := by simp [hi]
  unfold groupMean
  refine div_pos (Finset.sum_pos (fun j hj => rjOrder_pos α ?_) ⟨i, this⟩) ?_
  · exact Finset.mem_range.mp (Finset.mem_filter.mp hj).1
  · exact_mod_cast Finset.card_pos.mpr ⟨i, this⟩

theorem coinA_antisymm (lib : NormLib) {n i : ℕ} (hi : i < n) :
    coinA lib n (n - 1 - i) = -coinA lib n i := by
  unfold coinA
  by_cases h : i < n / 2
  · rw [if_neg (by omega), if_neg (by omega), if_pos h, neg_neg]
    congr 1
    omega
  · by_cases h2 : n % 2 = 1 ∧ i = n / 2
    · rw [if_neg (by omega), if_pos ⟨h2.1, by omega⟩, if_neg h, if_pos h2, neg_zero]
    · rw [if_pos (by omega), if_neg h, if_neg h2, show n - 1 - i = n - i - 1 by omega]

theorem chenShapiro_mirror {lib : NormLib} (h : lib.Symmetric) (l : List ℝ) :
    chenShapiro lib (mirror l) = chenShapiro lib l := by
  unfold chenShapiro
  dsimp only
  rw [length_mirror, sort_mirror, npDiff_mirror, var1_mirror, sum_mapIdx_reverse, length_npDiff,
    length_sort]
  congr 4
  refine mapIdx_congr fun i hi => ?_
  rw [length_npDiff, length_sort] at hi
  rw [show l.length - 1 - 1 - i + 1 = l.length - 1 - i by omega, ppf_blom h (by omega),
    show l.length - 1 - 1 - i = l.length - 1 - (i + 1) by omega, ppf_blom h (by omega)]
  congr 1
  ring

theorem antisymm_cube {c : ℕ → ℝ} {n : ℕ} (hc : ∀ i < n, c (n - 1 - i) = -c i) :
    ∀ i < n, c (n - 1 - i) ^ 3 = -c i ^ 3 := fun i hi => by rw [hc i hi]; ring

/-- **C115**: the normality statistics give a sample and its mirror image the same value, except
skewness, the one-sided Kolmogorov-Smirnov distances, Cabana-Cabana and Zhang's Q. -/
theorem C115_mirror {lib : NormLib} (h : lib.Mirror) {s : NormStat} (hs : MirrorFree s)
    (xs : List ℝ) : s.value lib (xs.map fun x => -x) = s.value lib xs := by
  change s.value lib (mirror xs) = s.value lib xs
  by_cases h0 : xs = []
  · subst h0; rfl
  have hl := length_mirror xs
  have hls := length_sort xs
  have hsn := sort_ne_nil h0
  have hsym := h.toSymmetric
  have hsq : ((mirror (sort xs)).reverse.map fun v => (v - mean (mirror (sort xs)).reverse) ^ 2).sum =
      ((sort xs).map fun v => (v - mean (sort xs)) ^ 2).sum := by
    rw [mean_reverse, List.map_reverse, List.sum_reverse, sumsq_mirror]
  have hg : ∀ v w : Except PyErr ℝ, (3 < xs.length → v = w) →
      guarded (mirror xs) v = guarded xs w := by
    intro v w hvw
    unfold guarded
    rw [hl]
    split
    · rw [hvw (by assumption)]
    · rfl
  have hmed : median (mirror (sort xs)).reverse = -median (sort xs) := median_mirror hsn
  have habs : ((mirror xs).map fun x => |x - -median (sort xs)|) =
      xs.map fun x => |x - median (sort xs)| := by
    rw [map_mirror]
    refine List.map_congr_left fun x _ => ?_
    rw [← abs_neg]; congr 1; ring
  cases s with
  | ks t =>
    cases t with
    | right => exact hs.elim
    | left => exact hs.elim
    | twoTailed =>
      simp only [NormStat.value, ksOf, sort_mirror, map_comirror h, ks_comirror, otherSide]
  | cvm => simp only [NormStat.value, cvmOf, sort_mirror, map_comirror h, cvm_comirror]
  | andersonDarling =>
    simp only [NormStat.value, Normal.andersonDarling, sort_mirror, sd1_mirror]
    rw [List.map_reverse, map_cent_mirror (sort xs) xs fun d => d / sd1 xs, List.map_reverse,
      List.map_reverse]
    set w := (sort xs).map fun y => (y - mean xs) / sd1 xs with hw
    have e : (sort xs).map (fun x => -(x - mean xs) / sd1 xs) = mirror w := by
      rw [hw, mirror, List.map_map]
      refine List.map_congr_left fun x _ => ?_
      simp only [Function.comp, neg_div]
    rw [e, map_mirror, map_mirror]
    have e1 : (w.map fun x => lib.logcdf (-x)) = w.map lib.logsf :=
      List.map_congr_left fun x _ => h.logcdf x
    have e2 : (w.map fun x => lib.logsf (-x)) = w.map lib.logcdf :=
      List.map_congr_left fun x _ => by rw [← h.logcdf, neg_neg]
    rw [e1, e2, ad_swap _ _ (by simp)]
  | shapiroWilk =>
    simp only [NormStat.value, Normal.shapiroWilk, hl, sort_mirror, sumsq_mirror]
    split
    · rfl
    · split
      · rfl
      · rw [dot_mirror_antisymm]
        intro i hi
        rw [hls] at hi ⊢
        exact swCoef_antisymm hsym (by omega) hi
  | lilliefors =>
    simp only [NormStat.value, Normal.lilliefors, standardised_mirror, sort_mirror, map_comirror h,
      ks_comirror, otherSide]
  | jarqueBera =>
    have e : (mirror xs).map (fun x => x - mean (mirror xs)) =
        mirror (xs.map fun x => x - mean xs) := by
      rw [map_cent_mirror xs xs fun d => d, mirror, List.map_map]; rfl
    simp only [NormStat.value, Normal.jarqueBera, hl, e, skew_mirror, kurt_mirror, neg_sq]
  | skew => exact hs.elim
  | kurtosis => simp only [NormStat.value, kurtosisTest, hl, sort_kurt_mirror]
  | dap =>
    simp only [NormStat.value, Normal.dap, skewTest, kurtosisTest, hl, sort_kurt_mirror,
      sort_skew_mirror]
    by_cases h8 : xs.length < 8
    · simp only [if_pos h8, bind, Except.bind]
    · simp only [if_neg h8, if_neg (show ¬xs.length < 5 by omega), bind, Except.bind, pure,
        Except.pure, skewZ_sq]
  | filli =>
    simp only [NormStat.value, Normal.filli, hl, sort_mirror]
    rcases lt_or_ge xs.length 2 with h2 | h2
    · have e : (mirror (sort xs)).reverse.length < 2 := by
        rw [List.length_reverse, length_mirror, hls]; exact h2
      simp only [pearsonr, if_pos e, if_pos (show (sort xs).length < 2 by rw [hls]; exact h2)]
    · have e := pearsonr_mirror ((List.range xs.length).map fun i : ℕ =>
        lib.ppf (filliMedian xs.length i)) (sort xs) (by simp [hls])
      rw [scores_mirror fun i hi => ppf_filli hsym h2 hi] at e
      rw [e]
  | looneyGulledge =>
    simp only [NormStat.value, Normal.looneyGulledge, hl, sort_mirror]
    have e := pearsonr_mirror ((List.range xs.length).map fun i : ℕ =>
      lib.ppf (blom xs.length i)) (sort xs) (by simp [hls])
    rw [scores_mirror fun i hi => ppf_blom hsym hi] at e
    rw [e]
  | ryanJoiner w α =>
    simp only [NormStat.value, Normal.ryanJoiner, hl, sort_mirror]
    cases w with
    | false =>
      have e := pearsonr_mirror ((List.range xs.length).map fun i : ℕ =>
        lib.ppf (rjOrder α xs.length i)) (sort xs) (by simp [hls])
      rw [scores_mirror fun i hi => by
        have h1 := rjOrder_pos α (show xs.length - 1 - i < xs.length by omega)
        rw [rjOrder_reflect α hi] at h1 ⊢
        exact hsym.ppf _ (rjOrder_pos α hi) (by linarith)] at e
      simp only [Bool.false_eq_true, if_false]
      rw [e]
    | true =>
      have e := pearsonr_mirror ((List.range xs.length).map fun i : ℕ =>
        lib.ppf (groupMean (sort xs) (rjOrder α xs.length) i)) (sort xs) (by simp [hls])
      simp only [if_true]
      rw [← e]
      congr 3
      refine List.ext_getElem (by simp [mirror]) fun i h1 h2 => ?_
      have hi : i < xs.length := by simpa using h1
      simp only [mirror, List.getElem_reverse, List.getElem_map, List.getElem_range,
        List.length_map, List.length_range]
      have hi' : xs.length - 1 - i < (sort xs).length := by rw [hls]; omega
      have r := groupMean_reflect α hi'
      have p1 := groupMean_pos α hi'
      have p2 : 0 < groupMean (mirror (sort xs)).reverse (rjOrder α (sort xs).length)
          ((sort xs).length - 1 - (xs.length - 1 - i)) := by
        have := groupMean_pos α (l := (mirror (sort xs)).reverse)
          (i := (sort xs).length - 1 - (xs.length - 1 - i))
          (by rw [List.length_reverse, length_mirror, hls]; omega)
        rwa [List.length_reverse, length_mirror] at this
      rw [r] at p2
      rw [hls] at r p1 p2
      rw [show xs.length - 1 - (xs.length - 1 - i) = i by omega] at r
      change lib.ppf (groupMean (mirror (sort xs)).reverse (rjOrder α xs.length) i) = _
      rw [r, hsym.ppf _ p1 (by linarith)]
  | shapiroFrancia =>
    simp only [NormStat.value, Normal.shapiroFrancia, hl, sort_mirror, hsq]
    rw [dot_mirror_antisymm]
    intro i hi
    rw [hls] at hi ⊢
    rw [ppf_blom hsym hi]
  | eppsPulley => simp only [NormStat.value, eppsPulley_mirror]
  | hosking1 => exact hg _ _ fun h3 => by rw [hosking1_mirror h3]
  | hosking2 => simp only [NormStat.value, hl, hoskingTrimmed_mirror]
  | hosking3 => exact hg _ _ fun _ => by rw [hoskingTrimmed_mirror]
  | hosking4 => exact hg _ _ fun _ => by rw [hoskingTrimmed_mirror]
  | zhangWuC => exact hg _ _ fun _ => by rw [zhangWuC_mirror h]
  | zhangWuA => exact hg _ _ fun _ => by rw [zhangWuA_mirror h]
  | glenLeemisBarr => exact hg _ _ fun _ => by rw [glenLeemisBarr_mirror h]
  | doornikHansen =>
    have e : moment 3 (mirror xs) / moment 2 (mirror xs) ^ (1.5 : ℝ) =
        -(moment 3 xs / moment 2 xs ^ (1.5 : ℝ)) := by
      rw [moment_mirror, moment_mirror]; norm_num [neg_div]
    have e2 : moment 4 (mirror xs) / moment 2 (mirror xs) ^ 2 = moment 4 xs / moment 2 xs ^ 2 := by
      rw [moment_mirror, moment_mirror]; norm_num
    simp only [NormStat.value, Normal.doornikHansen, hl, e, e2, dhZ1_neg, dhZ2_neg, neg_sq]
  | robustJarqueBera =>
    have m : ∀ k, moment k (mirror (sort xs)).reverse = (-1) ^ k * moment k (sort xs) := fun k => by
      rw [moment_perm (List.reverse_perm _), moment_mirror]
    simp only [NormStat.value, Normal.robustJarqueBera, hl, sort_mirror, hmed, habs, m]
    norm_num [neg_div]
  | bontempsMeddahi1 =>
    refine hg _ _ fun _ => ?_
    have e : (mirror xs).map (fun x => (x - mean (mirror xs)) / √(var1' (mirror xs))) =
        mirror (xs.map fun x => (x - mean xs) / √(var1' xs)) := by
      rw [var1'_mirror, map_cent_mirror xs xs fun d => d / √(var1' xs), mirror, List.map_map]
      refine List.map_congr_left fun x _ => ?_
      simp only [Function.comp, neg_div]
    simp only [Normal.bontempsMeddahi1, hl, e]
    rw [map_mirror, map_mirror]
    have e3 : ∀ k : List ℝ, (k.map fun v => he3 (-v) / √6).sum = -(k.map fun v => he3 v / √6).sum := by
      intro k
      rw [← neg_one_mul, ← sum_map_mul]
      congr 1
      refine List.map_congr_left fun v _ => ?_
      unfold he3; ring
    have e4 : ∀ v, he4 (-v) = he4 v := fun v => by unfold he4; ring
    simp only [e3, e4, neg_sq]
  | bontempsMeddahi2 =>
    refine hg _ _ fun _ => ?_
    simp only [Normal.bontempsMeddahi2, hl, standardised_mirror]
    rw [map_mirror, map_mirror, map_mirror, map_mirror]
    have e3 : ∀ k : List ℝ, (k.map fun v => he3 (-v) / √6).sum = -(k.map fun v => he3 v / √6).sum := by
      intro k
      rw [← neg_one_mul, ← sum_map_mul]
      congr 1
      refine List.map_congr_left fun v _ => ?_
      unfold he3; ring
    have e5 : ∀ k : List ℝ, (k.map fun v => he5 (-v) / (2 * √30)).sum =
        -(k.map fun v => he5 v / (2 * √30)).sum := by
      intro k
      rw [← neg_one_mul, ← sum_map_mul]
      congr 1
      refine List.map_congr_left fun v _ => ?_
      unfold he5; ring
    have e4 : ∀ v, he4 (-v) = he4 v := fun v => by unfold he4; ring
    have e6 : ∀ v, he6 (-v) = he6 v := fun v => by unfold he6; ring
    simp only [e3, e4, e5, e6, neg_sq]
  | bonettSeier =>
    refine hg _ _ fun _ => ?_
    simp only [Normal.bonettSeier, hl, sumsq_mirror, sumabs_mirror]
  | martinezIglewicz =>
    refine hg _ _ fun _ => ?_
    have e : (mirror xs).map (fun x => x - -median (sort xs)) =
        mirror (xs.map fun x => x - median (sort xs)) := by
      rw [map_mirror, mirror, List.map_map]
      refine List.map_congr_left fun x _ => ?_
      simp only [Function.comp]; ring
    simp only [Normal.martinezIglewicz, hl, sort_mirror, hmed, e]
    simp only [map_mirror, abs_neg, neg_div, neg_sq]
  | cabanaCabana1 => exact hs.elim
  | cabanaCabana2 => exact hs.elim
  | chenShapiro => exact hg _ _ fun _ => by rw [chenShapiro_mirror hsym]
  | zhangQ => exact hs.elim
  | coin =>
    refine hg _ _ fun _ => ?_
    have e : (mirror xs).map (fun x => (x - mean (mirror xs)) / √(var1' (mirror xs))) =
        mirror (xs.map fun x => (x - mean xs) / √(var1' xs)) := by
      rw [var1'_mirror, map_cent_mirror xs xs fun d => d / √(var1' xs), mirror, List.map_map]
      refine List.map_congr_left fun x _ => ?_
      simp only [Function.comp, neg_div]
    have hz : (sort (xs.map fun x => (x - mean xs) / √(var1' xs))).length = xs.length := by
      rw [length_sort, List.length_map]
    simp only [Normal.coin, hl, e, sort_mirror]
    rw [dot_mirror_antisymm (fun i hi => by rw [hz] at hi ⊢; exact coinA_antisymm lib hi),
      dot_mirror_antisymm (fun i hi => by
        rw [hz] at hi ⊢; rw [coinA_antisymm lib hi]; ring)]
  | dagostino =>
    refine hg _ _ fun _ => ?_
    simp only [Normal.dagostino, hl, sort_mirror]
    rw [mean_reverse, mean_mirror, List.map_reverse, List.sum_reverse, sumpow2_mirror, neg_sq,
      dot_mirror_antisymm]
    intro i hi
    rw [hls] at hi ⊢
    rw [cast_reflect hi]
    ring
  | zhangQStar => exact hs.elim
  | swrg =>
    refine hg _ _ fun _ => ?_
    simp only [Normal.swrg, hl, sort_mirror, hsq]
    rw [dot_mirror_antisymm]
    intro i hi
    rw [hls] at hi ⊢
    rw [swrgStar_antisymm hsym hi, neg_div]
  | gmg =>
    refine hg _ _ fun _ => ?_
    simp only [Normal.gmg, hl, sort_mirror, hmed, habs, sumsq_mirror]
  | spiegelhalter =>
    refine hg _ _ fun _ => ?_
    obtain ⟨mx, hmx⟩ := npMax_exists h0
    obtain ⟨mn, hmn⟩ := pyMin_exists h0
    simp only [Normal.spiegelhalter, hl, npMax_mirror, pyMin_mirror, hmx, hmn, var1_mirror,
      sumabs_mirror, Except.map, bind, Except.bind, pure, Except.pure]
    rw [show -mn - -mx = mx - mn by ring]
  | desgagneLafaye =>
    refine hg _ _ fun _ => ?_
    simp only [Normal.desgagneLafaye, hl, sumpow2_mirror]
    set v := (xs.map (· ^ 2)).sum / (xs.length : ℝ) - mean xs ^ 2 with hv
    have e : (mirror xs).map (fun x => (x - mean (mirror xs)) / √v) =
        mirror (xs.map fun x => (x - mean xs) / √v) := by
      rw [map_cent_mirror xs xs fun d => d / √v, mirror, List.map_map]
      refine List.map_congr_left fun x _ => ?_
      simp only [Function.comp, neg_div]
    have hm2 : mean (mirror xs) ^ 2 = mean xs ^ 2 := by rw [mean_mirror, neg_sq]
    rw [hm2]
    simp only [← hv, e, map_mirror, abs_neg, neg_sq]

/-- The two one-sided Kolmogorov-Smirnov distances change places. -/
theorem C115_ks_sides {lib : NormLib} (h : lib.Mirror) (xs : List ℝ) :
    (NormStat.ks .right).value lib (xs.map fun x => -x) = (NormStat.ks .left).value lib xs := by
  change (NormStat.ks .right).value lib (mirror xs) = _
  simp only [NormStat.value, ksOf, sort_mirror, map_comirror h, ks_comirror, otherSide]

/-- Zhang's `Q*` is Zhang's `Q` of the mirror image. -/
theorem C115_zhang (lib : NormLib) (xs : List ℝ) :
    NormStat.zhangQStar.value lib xs = NormStat.zhangQ.value lib (xs.map fun x => -x) := by
  change _ = NormStat.zhangQ.value lib (mirror xs)
  have e : ∀ c : ℕ → ℝ, dot c (mirror (sort xs)).reverse = -dot c (sort xs).reverse := fun c => by
    rw [← neg_one_mul, ← zero_add (-1 * _), show (0 : ℝ) = 0 * ∑ i ∈ Finset.range
      (sort xs).reverse.length, c i by ring, ← dot_aff, mirror_eq, List.map_reverse]
  simp only [NormStat.value, guarded, Normal.zhangQ, Normal.zhangQStar, length_mirror, sort_mirror, e]

/-! ### The skewness statistic -/

theorem skewZ_pos {n : ℝ} (hn : 8 ≤ n) {b : ℝ} (hb : 0 ≤ b) : 0 < skewZ n b := by
  unfold skewZ
  dsimp only
  set c := √(((n + 1) * (n + 3)) / (6 * (n - 2)))
  set β := 3 * (n ^ 2 + 27 * n - 70) * (n + 1) * (n + 3) / ((n - 2) * (n + 5) * (n + 7) * (n + 9))
    with hβ
  have hd : 0 < (n - 2) * (n + 5) * (n + 7) * (n + 9) := by
    have : 0 < n - 2 := by linarith
    positivity
  have h3 : 3 < β := by
    rw [hβ, lt_div_iff₀ hd]
    nlinarith [mul_nonneg (mul_nonneg (sub_nonneg.mpr hn) (sub_nonneg.mpr hn)) (sub_nonneg.mpr hn),
      mul_nonneg (sub_nonneg.mpr hn) (sub_nonneg.mpr hn)]
  have hw : 1 < -1 + √(2 * (β - 1)) := by
    have : 2 < √(2 * (β - 1)) := Real.lt_sqrt_of_sq_lt (by linarith)
    linarith
  generalize -1 + √(2 * (β - 1)) = w at hw
  have hlog : 0 < Real.log w := Real.log_pos hw
  have hdel : 0 < 1 / √(0.5 * Real.log w) := by positivity
  have hal : 0 < √(2 / (w - 1)) := Real.sqrt_pos.mpr (div_pos two_pos (by linarith))
  refine mul_pos hdel (Real.log_pos ?_)
  have hy : 0 < (if b * c = 0 then 1 else b * c) := by
    split
    · exact one_pos
    · rename_i hne
      exact lt_of_le_of_ne (mul_nonneg hb (Real.sqrt_nonneg _)) (Ne.symm hne)
  generalize (if b * c = 0 then 1 else b * c) = y at hy
  have hq : 0 < y / √(2 / (w - 1)) := by positivity
  have : 1 ≤ √((y / √(2 / (w - 1))) ^ 2 + 1) := by
    rw [Real.one_le_sqrt]; nlinarith [sq_nonneg (y / √(2 / (w - 1)))]
  linarith

theorem skew_sort_sign {xs : List ℝ} (h : 0 < (xs.map fun x => (x - mean xs) ^ 3).sum) :
    0 < skew (sort xs) := by
  rw [skew_perm (sort_perm xs)]
  have hne : xs ≠ [] := by rintro rfl; simp at h
  have hn : (0 : ℝ) < xs.length := by exact_mod_cast List.length_pos_of_ne_nil hne
  have h2 : 0 < moment 2 xs := by
    refine lt_of_le_of_ne (moment_two_nonneg xs) fun h0 => ?_
    have hz : (xs.map fun x => (x - mean xs) ^ 2).sum = 0 := by
      unfold moment at h0
      rw [mean, List.length_map, eq_comm, div_eq_zero_iff] at h0
      exact h0.resolve_right hn.ne'
    have hall : ∀ x ∈ xs, x - mean xs = 0 := by
      intro x hx
      have h1 : (x - mean xs) ^ 2 ≤ (xs.map fun x => (x - mean xs) ^ 2).sum := by
        refine List.single_le_sum ?_ _ (List.mem_map_of_mem (f := fun x => (x - mean xs) ^ 2) hx)
        intro y hy
        obtain ⟨x, _, rfl⟩ := List.mem_map.mp hy
        positivity
      rw [hz] at h1
      exact pow_eq_zero_iff (two_ne_zero) |>.mp (le_antisymm h1 (sq_nonneg _))
    have : (xs.map fun x => (x - mean xs) ^ 3).sum = 0 := by
      refine List.sum_eq_zero fun y hy => ?_
      obtain ⟨x, hx, rfl⟩ := List.mem_map.mp hy
      rw [hall x hx]; norm_num
    linarith
  unfold skew
  refine div_pos ?_ (Real.rpow_pos_of_pos h2 _)
  unfold moment
  rw [mean, List.length_map]
  exact div_pos h hn

/-- The skewness statistic is odd: reflecting a sample with a long right tail turns its positive value
into the negative one. -/
theorem C115_skew (lib : NormLib) {xs : List ℝ} (hn : 8 ≤ xs.length)
    (h : 0 < (xs.map fun x => (x - mean xs) ^ 3).sum) :
    ∃ v, 0 < v ∧ NormStat.skew.value lib xs = .ok (some v) ∧
      NormStat.skew.value lib (xs.map fun x => -x) = .ok (some (-v)) := by
  have hs := skew_sort_sign h
  have hn' : (8 : ℝ) ≤ xs.length := by exact_mod_cast hn
  refine ⟨skewZ xs.length (skew (sort xs)), skewZ_pos hn' hs.le, ?_, ?_⟩
  · simp only [NormStat.value, skewTest, if_neg (show ¬xs.length < 8 by omega), Except.map]
  · change NormStat.skew.value lib (mirror xs) = _
    simp only [NormStat.value, skewTest, length_mirror, if_neg (show ¬xs.length < 8 by omega),
      Except.map, sort_skew_mirror]
    rw [skewZ_neg]
    have : 0 < √((((xs.length : ℝ) + 1) * (xs.length + 3)) / (6 * (xs.length - 2))) :=
      Real.sqrt_pos.mpr (div_pos (by positivity) (by linarith))
    positivity

/-- The statistic of a sample without skewness is positive: the code replaces the skewness `0` by a
positive number. -/
theorem C115_skew_zero (lib : NormLib) {xs : List ℝ} (hn : 8 ≤ xs.length)
    (h : (xs.map fun x => (x - mean xs) ^ 3).sum = 0) :
    ∃ v, 0 < v ∧ NormStat.skew.value lib xs = .ok (some v) := by
  have hs : skew (sort xs) = 0 := by
    rw [skew_perm (sort_perm xs)]
    unfold skew moment mean
    unfold mean at h
    rw [h]; simp
  have hn' : (8 : ℝ) ≤ xs.length := by exact_mod_cast hn
  refine ⟨skewZ xs.length (skew (sort xs)), skewZ_pos hn' hs.ge, ?_⟩
  simp only [NormStat.value, skewTest, if_neg (show ¬xs.length < 8 by omega), Except.map]

/-- A sample and its mirror image: the right-tailed skewness criterion can reject the first and, at the
same critical value, accepts the second. -/
theorem C115_refuted_skew (lib : NormLib) : ∃ (xs : List ℝ) (c v w : ℝ),
    NormStat.skew.alternative = .right ∧
    NormStat.skew.value lib xs = .ok (some v) ∧
    NormStat.skew.value lib (xs.map fun x => -x) = .ok (some w) ∧ c < v ∧ w < c := by
  obtain ⟨v, hv, h1, h2⟩ := C115_skew lib (xs := [0, 0, 0, 0, 0, 0, 0, 1]) (by simp)
    (by simp only [mean, List.map, List.sum_cons, List.sum_nil, List.length]; norm_num)
  exact ⟨_, 0, v, -v, rfl, h1, h2, hv, by linarith⟩

/-! ### The hypotheses hold of `scipy.stats` -/

theorem incBeta_symm (p : ℝ) {a b : ℕ} : incBeta (1 - p) a b = 1 - incBeta p b a := by
  unfold incBeta
  set f : ℕ → ℕ → ℝ → ℝ := fun a b x => x ^ (a - 1) * (1 - x) ^ (b - 1) with hf
  have hc : ∀ a b, Continuous (f a b) := fun a b => by rw [hf]; fun_prop
  have sub : ∀ u v, ∫ x in u..v, f a b x = ∫ x in (1 - v)..(1 - u), f b a x := by
    intro u v
    rw [← intervalIntegral.integral_comp_sub_left (fun x => f b a x) 1]
    refine intervalIntegral.integral_congr fun x _ => ?_
    simp only [hf]
    ring
  have hpos : 0 < ∫ x in (0 : ℝ)..1, f b a x := by
    refine intervalIntegral.intervalIntegral_pos_of_pos_on ((hc b a).intervalIntegrable _ _) ?_ one_pos
    intro x hx
    have h1 := hx.1
    have h2 : 0 < 1 - x := by linarith [hx.2]
    simp only [hf]
    positivity
  change (∫ x in (0 : ℝ)..(1 - p), f a b x) / (∫ x in (0 : ℝ)..1, f a b x) =
    1 - (∫ x in (0 : ℝ)..p, f b a x) / ∫ x in (0 : ℝ)..1, f b a x
  rw [sub, sub, show (1 : ℝ) - (1 - p) = p by ring, sub_zero, sub_self,
    ← intervalIntegral.integral_add_adjacent_intervals ((hc b a).intervalIntegrable 0 p)
      ((hc b a).intervalIntegrable p 1)] at *
  field_simp
  ring

theorem scipyNorm_mirror : scipyNorm.Mirror where
  toSymmetric := scipyNorm_symmetric
  cdf x := Phi_neg x
  cdf_pos x := lt_of_le_of_lt (ProbabilityTheory.cdf_nonneg _ (x - 1))
    (Phi_strictMono (show x - 1 < x by linarith))
  logcdf x := by simp only [scipyNorm]; rw [Phi_neg]
  betaCdf p _ _ a b _ _ := incBeta_symm p

/-- The value of Filliben's statistic on a concrete sample and on its mirror image. -/
example : NormStat.filli.value scipyNorm [-1, -4, -2] = NormStat.filli.value scipyNorm [1, 4, 2] := by
  have := C115_mirror scipyNorm_mirror (s := .filli) trivial [1, 4, 2]
  simpa using this

end Pysatl.Props
