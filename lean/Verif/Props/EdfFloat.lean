import Verif.Model.EdfFloat
import Verif.Lemmas.Float64Error
import Verif.Props.Edf

/-!
# C143: rounding errors of distances between distribution functions
-/

namespace Pysatl.Props

open Pysatl.Edf Pysatl.Decision Pysatl.Graph Pysatl.Spec

/-- The maxima of two lists that are close term by term are close. -/
theorem npMax_close {l l' : List ℝ} {δ m m' : ℝ} (hlen : l.length = l'.length)
    (hcl : ∀ i (h : i < l.length) (h' : i < l'.length), |l[i] - l'[i]| ≤ δ)
    (h : npMax l = .ok m) (h' : npMax l' = .ok m') : |m - m'| ≤ δ := by
  obtain ⟨a, b⟩ := npMax_eq_ok.1 h
  obtain ⟨a', b'⟩ := npMax_eq_ok.1 h'
  obtain ⟨i, hi, rfl⟩ := List.getElem_of_mem a
  obtain ⟨j, hj, rfl⟩ := List.getElem_of_mem a'
  have k1 := abs_le.1 (hcl i hi (by omega))
  have k2 := abs_le.1 (hcl j (by omega) hj)
  have k3 := b _ (List.getElem_mem (l := l) (n := j) (by omega))
  have k4 := b' _ (List.getElem_mem (l := l') (n := i) (by omega))
  exact abs_le.2 ⟨by linarith, by linarith⟩

/-- A rounded fraction of `[0,1]` is in `[0,1]` and within `2^-54`. -/
theorem round_frac {fl : ℝ → ℝ} (hfl : RoundsToNearest fl) {x : ℝ} (h0 : 0 ≤ x) (h1 : x ≤ 1) :
    0 ≤ fl x ∧ fl x ≤ 1 ∧ |fl x - x| ≤ (2 : ℝ) ^ (-54 : ℤ) :=
  ⟨hfl.nonneg h0, hfl.le_float isFloat64_one h1, hfl.error_unit_abs (abs_le.2 ⟨by linarith, h1⟩)⟩

/-- A rounded difference of a rounded fraction and a value of `[0,1]`. -/
theorem round_gap {fl : ℝ → ℝ} (hfl : RoundsToNearest fl) {x g f ε : ℝ} (h0 : 0 ≤ x) (h1 : x ≤ 1)
    (g0 : 0 ≤ g) (g1 : g ≤ 1) (hg : |g - f| ≤ ε) :
    |fl (fl x - g)| ≤ 1 ∧ |fl (fl x - g) - (x - f)| ≤ ε + (2 : ℝ) ^ (-53 : ℤ) ∧
    |fl (g - fl x)| ≤ 1 ∧ |fl (g - fl x) - (f - x)| ≤ ε + (2 : ℝ) ^ (-53 : ℤ) := by
  obtain ⟨a0, a1, a2⟩ := round_frac hfl h0 h1
  have k1 : |fl x - g| ≤ 1 := abs_le.2 ⟨by linarith, by linarith⟩
  have k2 : |g - fl x| ≤ 1 := abs_le.2 ⟨by linarith, by linarith⟩
  have e1 := hfl.error_unit_abs k1
  have e2 := hfl.error_unit_abs k2
  have n1 : IsFloat64 (-1 : ℝ) := isFloat64_one.neg
  have u1 := hfl.le_float isFloat64_one (abs_le.1 k1).2
  have u2 := hfl.float_le n1 (abs_le.1 k1).1
  have v1 := hfl.le_float isFloat64_one (abs_le.1 k2).2
  have v2 := hfl.float_le n1 (abs_le.1 k2).1
  have hp : (2 : ℝ) ^ (-53 : ℤ) = 2 * (2 : ℝ) ^ (-54 : ℤ) := by norm_num
  rw [hp]
  generalize (2 : ℝ) ^ (-54 : ℤ) = u at *
  rw [abs_le] at e1 e2 a2 hg
  exact ⟨abs_le.2 ⟨u2, u1⟩, abs_le.2 ⟨by linarith, by linarith⟩, abs_le.2 ⟨v2, v1⟩,
    abs_le.2 ⟨by linarith, by linarith⟩⟩

/-- Rounded and exact one-sided distances. -/
theorem rounded_sides {fl : ℝ → ℝ} (hfl : RoundsToNearest fl) {F G : ℝ → ℝ} {ε : ℝ} {rvs : List ℝ}
    (hG : ∀ x ∈ rvs, 0 ≤ G x ∧ G x ≤ 1 ∧ |G x - F x| ≤ ε) (hne : rvs ≠ []) :
    ∃ p m P M, npMax (Rounded.plusGaps fl ((sort rvs).map G)) = .ok p ∧
      npMax (Rounded.minusGaps fl ((sort rvs).map G)) = .ok m ∧
      dPlus ((sort rvs).map F) = .ok P ∧ dMinus ((sort rvs).map F) = .ok M ∧
      |p| ≤ 1 ∧ |m| ≤ 1 ∧ IsFloat64 p ∧ IsFloat64 m ∧
      |p - P| ≤ ε + (2 : ℝ) ^ (-53 : ℤ) ∧ |m - M| ≤ ε + (2 : ℝ) ^ (-53 : ℤ) := by
  have hlen : (sort rvs).length = rvs.length := (sort_perm rvs).length_eq
  have hpos : 0 < (sort rvs).length := by rw [hlen]; exact List.length_pos_iff.2 hne
  have hvF : (sort rvs).map F ≠ [] := by
    rw [← List.length_pos_iff, List.length_map]; exact hpos
  have hn : (0 : ℝ) < (sort rvs).length := by exact_mod_cast hpos
  obtain ⟨P, hP⟩ := dPlus_exists hvF
  obtain ⟨M, hM⟩ := dMinus_exists hvF
  obtain ⟨p, hp⟩ := npMax_exists (l := Rounded.plusGaps fl ((sort rvs).map G)) (by
    rw [← List.length_pos_iff, Rounded.plusGaps, List.length_mapIdx, List.length_map]; exact hpos)
  obtain ⟨m, hm⟩ := npMax_exists (l := Rounded.minusGaps fl ((sort rvs).map G)) (by
    rw [← List.length_pos_iff, Rounded.minusGaps, List.length_mapIdx, List.length_map]; exact hpos)
  have key : ∀ i (h : i < (sort rvs).length), 0 ≤ G (sort rvs)[i] ∧ G (sort rvs)[i] ≤ 1 ∧
      |G (sort rvs)[i] - F (sort rvs)[i]| ≤ ε := fun i h =>
    hG _ ((sort_perm rvs).mem_iff.1 (List.getElem_mem h))
  have fr : ∀ i < (sort rvs).length, 0 ≤ ((i : ℝ) + 1) / (sort rvs).length ∧
      ((i : ℝ) + 1) / (sort rvs).length ≤ 1 ∧ 0 ≤ (i : ℝ) / (sort rvs).length ∧
      (i : ℝ) / (sort rvs).length ≤ 1 := by
    intro i hi
    have h1 : (i : ℝ) + 1 ≤ (sort rvs).length := by exact_mod_cast hi
    exact ⟨by positivity, (div_le_one hn).2 h1, by positivity, (div_le_one hn).2 (by linarith)⟩
  have gp : ∀ i (h : i < (Rounded.plusGaps fl ((sort rvs).map G)).length),
      (Rounded.plusGaps fl ((sort rvs).map G))[i] =
        fl (fl (((i : ℝ) + 1) / (sort rvs).length) -
          G ((sort rvs)[i]'(by simpa [Rounded.plusGaps] using h))) := by
    intro i h
    simp [Rounded.plusGaps]
  have gm : ∀ i (h : i < (Rounded.minusGaps fl ((sort rvs).map G)).length),
      (Rounded.minusGaps fl ((sort rvs).map G))[i] =
        fl (G ((sort rvs)[i]'(by simpa [Rounded.minusGaps] using h)) -
          fl ((i : ℝ) / (sort rvs).length)) := by
    intro i h
    simp [Rounded.minusGaps]
  refine ⟨p, m, P, M, hp, hm, hP, hM, ?_, ?_, ?_, ?_, ?_, ?_⟩
  · obtain ⟨i, hi, rfl⟩ := List.getElem_of_mem (npMax_eq_ok.1 hp).1
    rw [gp]
    have hi' : i < (sort rvs).length := by simpa [Rounded.plusGaps] using hi
    exact (round_gap hfl (fr i hi').1 (fr i hi').2.1 (key i hi').1 (key i hi').2.1 (key i hi').2.2).1
  · obtain ⟨i, hi, rfl⟩ := List.getElem_of_mem (npMax_eq_ok.1 hm).1
    rw [gm]
    have hi' : i < (sort rvs).length := by simpa [Rounded.minusGaps] using hi
    exact (round_gap hfl (fr i hi').2.2.1 (fr i hi').2.2.2 (key i hi').1 (key i hi').2.1
      (key i hi').2.2).2.2.1
  · obtain ⟨i, hi, rfl⟩ := List.getElem_of_mem (npMax_eq_ok.1 hp).1
    rw [gp]
    exact (hfl _).1
  · obtain ⟨i, hi, rfl⟩ := List.getElem_of_mem (npMax_eq_ok.1 hm).1
    rw [gm]
    exact (hfl _).1
  · refine npMax_close (by simp [Rounded.plusGaps, plusGaps]) ?_ hp hP
    intro i h h'
    have hi' : i < (sort rvs).length := by simpa [Rounded.plusGaps] using h
    rw [gp]
    simp only [plusGaps, List.getElem_mapIdx, List.getElem_map, List.length_map]
    exact (round_gap hfl (fr i hi').1 (fr i hi').2.1 (key i hi').1 (key i hi').2.1 (key i hi').2.2).2.1
  · refine npMax_close (by simp [Rounded.minusGaps, minusGaps]) ?_ hm hM
    intro i h h'
    have hi' : i < (sort rvs).length := by simpa [Rounded.minusGaps] using h
    rw [gm]
    simp only [minusGaps, List.getElem_mapIdx, List.getElem_map, List.length_map]
    exact (round_gap hfl (fr i hi').2.2.1 (fr i hi').2.2.2 (key i hi').1 (key i hi').2.1
      (key i hi').2.2).2.2.2

/-- **C143** (Kolmogorov-Smirnov).  Every operation is rounded to the nearest double precision
number, in any way on ties, and the distribution function is computed with an absolute error of at
most `ε`.  The two-tailed, right and left statistics are then within `ε + 2^-53` of the suprema over
the real line of the distances between the fraction of observations at or below `x` and `F x`,
whatever the size of the sample. -/
theorem C143_ks {fl : ℝ → ℝ} (hfl : RoundsToNearest fl) {F G : ℝ → ℝ} (hc : Continuous F)
    (hm : Monotone F) (h01 : ∀ x, 0 ≤ F x ∧ F x ≤ 1) {ε : ℝ} {rvs : List ℝ} (hne : rvs ≠ [])
    (hG : ∀ x ∈ rvs, 0 ≤ G x ∧ G x ≤ 1 ∧ |G x - F x| ≤ ε) :
    ∃ d p m D P M, Rounded.ksOf fl .twoTailed G rvs = .ok d ∧
      Rounded.ksOf fl .right G rvs = .ok p ∧ Rounded.ksOf fl .left G rvs = .ok m ∧
      IsLUB (Set.range fun x => |fracLe rvs x - F x|) D ∧
      IsLUB (Set.range fun x => fracLe rvs x - F x) P ∧
      IsLUB (Set.range fun x => F x - fracLe rvs x) M ∧
      |d - D| ≤ ε + (2 : ℝ) ^ (-53 : ℤ) ∧ |p - P| ≤ ε + (2 : ℝ) ^ (-53 : ℤ) ∧
      |m - M| ≤ ε + (2 : ℝ) ^ (-53 : ℤ) := by
  obtain ⟨p, m, P, M, hp, hmm, hP, hM, -, -, -, -, e1, e2⟩ := rounded_sides hfl hG hne
  obtain ⟨D', P', M', k1, k2, k3, l1, l2, l3, -⟩ := C55_sup_distance hc hm h01 hne
  unfold ksOf at k1 k2 k3
  rw [ks_two hP hM] at k1
  rw [ks_right hP hM] at k2
  rw [ks_left hM] at k3
  injection k1 with k1
  injection k2 with k2
  injection k3 with k3
  subst k1 k2 k3
  refine ⟨max p m, p, m, _, P, M, ?_, ?_, ?_, l1, l2, l3, ?_, e1, e2⟩
  · simp only [Rounded.ksOf, Rounded.ks, hp, hmm]
    show (Except.ok (if p > m then p else m) : Except PyErr ℝ) = _
    congr 1
    split
    · rw [max_eq_left (le_of_lt (by assumption))]
    · rw [max_eq_right (by linarith)]
  · simp only [Rounded.ksOf, Rounded.ks, hp, hmm]
    rfl
  · simp only [Rounded.ksOf, Rounded.ks, hmm]
    rfl
  · refine (abs_max_sub_max_le_max _ _ _ _).trans (max_le e1 e2)

/-- **C143** (Kuiper).  The Kuiper statistics are within `2 ε + 2^-51` of the sum of the largest
upward and the largest downward distance, whatever the size of the sample. -/
theorem C143_kuiper {fl : ℝ → ℝ} (hfl : RoundsToNearest fl) {F G : ℝ → ℝ} (hc : Continuous F)
    (hm : Monotone F) (h01 : ∀ x, 0 ≤ F x ∧ F x ≤ 1) {ε : ℝ} {rvs : List ℝ} (hne : rvs ≠ [])
    (hG : ∀ x ∈ rvs, 0 ≤ G x ∧ G x ≤ 1 ∧ |G x - F x| ≤ ε) :
    ∃ k P M, Rounded.kuiperOf fl G rvs = .ok k ∧
      IsLUB (Set.range fun x => fracLe rvs x - F x) P ∧
      IsLUB (Set.range fun x => F x - fracLe rvs x) M ∧
      |k - (P + M)| ≤ 2 * ε + (2 : ℝ) ^ (-51 : ℤ) := by
  obtain ⟨p, m, P, M, hp, hmm, hP, hM, bp, bm, fp, fm, e1, e2⟩ := rounded_sides hfl hG hne
  obtain ⟨D', P', M', k1, k2, k3, l1, l2, l3, -⟩ := C55_sup_distance hc hm h01 hne
  unfold ksOf at k2 k3
  rw [ks_right hP hM] at k2
  rw [ks_left hM] at k3
  injection k2 with k2
  injection k3 with k3
  subst k2 k3
  refine ⟨fl (p + m), P, M, ?_, l2, l3, ?_⟩
  · simp only [Rounded.kuiperOf, hp, hmm]
    rfl
  · have b : |p + m| ≤ 2 := (abs_add_le _ _).trans (by linarith)
    have e3 := hfl.error_add fp fm (b.trans (by
      calc (2 : ℝ) = (2 : ℝ) ^ (1 : ℤ) := by norm_num
        _ ≤ (2 : ℝ) ^ (1023 : ℤ) := zpow_le_zpow_right₀ (by norm_num) (by norm_num)))
    have h51 : (2 : ℝ) ^ (-51 : ℤ) = 4 * (2 : ℝ) ^ (-53 : ℤ) := by norm_num
    have hu : (0 : ℝ) < (2 : ℝ) ^ (-53 : ℤ) := by positivity
    rw [h51]
    generalize (2 : ℝ) ^ (-53 : ℤ) = u at *
    have e4 : |fl (p + m) - (p + m)| ≤ 2 * u := e3.trans (by nlinarith)
    rw [abs_le] at e1 e2 e4
    exact abs_le.2 ⟨by linarith, by linarith⟩

/-- One rounded term of the Cramér-von Mises statistic. -/
theorem round_square {fl : ℝ → ℝ} (hfl : RoundsToNearest fl) {x g f ε : ℝ} (h0 : 0 ≤ x)
    (h1 : x ≤ 1) (f0 : 0 ≤ f) (f1 : f ≤ 1) (g0 : 0 ≤ g) (g1 : g ≤ 1) (hg : |g - f| ≤ ε) :
    0 ≤ fl (fl (fl x - g) ^ 2) ∧
      |fl (fl (fl x - g) ^ 2) - (x - f) ^ 2| ≤ 2 * ε + (2 : ℝ) ^ (-51 : ℤ) := by
  obtain ⟨a, b, -⟩ := round_gap hfl h0 h1 g0 g1 hg
  generalize fl (fl x - g) = d at *
  have hd : d ^ 2 ≤ 1 := by rw [← sq_abs]; nlinarith [abs_nonneg d]
  obtain ⟨c0, c1, c2⟩ := round_frac hfl (sq_nonneg d) hd
  refine ⟨c0, ?_⟩
  have h51 : (2 : ℝ) ^ (-51 : ℤ) = 8 * (2 : ℝ) ^ (-54 : ℤ) := by norm_num
  have h53 : (2 : ℝ) ^ (-53 : ℤ) = 2 * (2 : ℝ) ^ (-54 : ℤ) := by norm_num
  rw [h53] at b
  rw [h51]
  have hu : (0 : ℝ) < (2 : ℝ) ^ (-54 : ℤ) := by positivity
  generalize (2 : ℝ) ^ (-54 : ℤ) = u at *
  have e0 : 0 ≤ ε := (abs_nonneg _).trans hg
  have k : |d ^ 2 - (x - f) ^ 2| ≤ 2 * (ε + 2 * u) := by
    rw [show d ^ 2 - (x - f) ^ 2 = (d + (x - f)) * (d - (x - f)) by ring, abs_mul]
    have k1 : |d + (x - f)| ≤ 2 := by
      have : |x - f| ≤ 1 := abs_le.2 ⟨by linarith, by linarith⟩
      exact (abs_add_le _ _).trans (by linarith)
    exact mul_le_mul k1 b (abs_nonneg _) (by norm_num)
  rw [abs_le] at c2 k
  exact abs_le.2 ⟨by linarith, by linarith⟩

/-- The accumulated error of the Cramér-von Mises statistic. -/
theorem cvm_accumulate {u n ε e q a t s r : ℝ} (hu : 0 < u) (hu1 : u * 2 ^ 54 = 1) (hn1 : 1 ≤ n)
    (hn : n ≤ 2 ^ 40) (e0 : 0 ≤ ε) (he : 0 ≤ e) (hq : 0 ≤ q) (ha : |a - q| ≤ u)
    (ht : |t - e| ≤ n * (2 * ε + 8 * u)) (hs : |s - t| ≤ 2 * (n - 1) * (2 * u) * t)
    (hr : |r - (a + s)| ≤ 2 * u * |a + s|) :
    |r - (q + e)| ≤ n * (3 * ε + 16 * u * (1 + (q + e))) := by
  have hu2 : u ≤ 1 / 2 ^ 54 := by rw [le_div_iff₀ (by norm_num)]; exact hu1.le
  have hnu : 4 * n * u ≤ 1 / 2 ^ 12 := by
    have : n * u ≤ 2 ^ 40 * u := mul_le_mul_of_nonneg_right hn hu.le
    have h2 : (2 : ℝ) ^ 40 * u * 2 ^ 14 = 1 := by rw [← hu1]; ring
    norm_num at h2 this ⊢
    linarith
  set d := n * (2 * ε + 8 * u) with hd
  have hd0 : 0 ≤ d := by positivity
  have t1 : t ≤ e + d := by linarith [(abs_le.1 ht).2]
  have h1 : 2 * (n - 1) * (2 * u) * t ≤ 4 * n * u * (e + d) := by
    have c : 2 * (n - 1) * (2 * u) ≤ 4 * n * u := by nlinarith
    have c0 : 0 ≤ 2 * (n - 1) * (2 * u) := by
      have : 0 ≤ n - 1 := by linarith
      positivity
    exact (mul_le_mul_of_nonneg_left t1 c0).trans (mul_le_mul_of_nonneg_right c (by linarith))
  have h2 : 4 * n * u * d ≤ 1 / 2 ^ 12 * d := mul_le_mul_of_nonneg_right hnu hd0
  set X := u + d * (1 + 1 / 2 ^ 12) + 4 * n * u * e with hX
  have hX0 : 0 ≤ X := by positivity
  have x1 : |a + s - (q + e)| ≤ X := by
    rw [show a + s - (q + e) = (a - q) + ((s - t) + (t - e)) by ring]
    have := abs_add_le (a - q) ((s - t) + (t - e))
    have := abs_add_le (s - t) (t - e)
    rw [hX]
    linarith
  have x2 : |a + s| ≤ q + e + X := by
    have := abs_add_le (a + s - (q + e)) (q + e)
    rw [sub_add_cancel, abs_of_nonneg (add_nonneg hq he)] at this
    linarith
  have x3 : |r - (q + e)| ≤ 2 * u * (q + e + X) + X := by
    rw [show r - (q + e) = (r - (a + s)) + (a + s - (q + e)) by ring]
    have h3 := abs_add_le (r - (a + s)) (a + s - (q + e))
    have h4 : 2 * u * |a + s| ≤ 2 * u * (q + e + X) := mul_le_mul_of_nonneg_left x2 (by linarith)
    linarith
  refine x3.trans ?_
  have x4 : 2 * u * X ≤ 1 / 2 ^ 12 * X := mul_le_mul_of_nonneg_right (by linarith) hX0
  have y1 : X ≤ n * (2.01 * ε + 9.1 * u + 4 * u * e) := by
    rw [hX, hd]
    have : u ≤ n * u := by nlinarith
    have : 0 ≤ n * ε := by positivity
    have : 0 ≤ n * u := by positivity
    norm_num
    nlinarith
  have y2 : 2 * u * (q + e) ≤ n * (2 * u * (q + e)) := by
    have : 0 ≤ 2 * u * (q + e) := by positivity
    nlinarith
  have z1 : 0 ≤ n * ε := by positivity
  have z2 : 0 ≤ n * u := by positivity
  have z3 : 0 ≤ n * (u * e) := by positivity
  have z4 : 0 ≤ n * (u * q) := by positivity
  nlinarith

/-- **C143** (Cramér-von Mises).  Every operation is rounded, the terms are added in any order and
grouping, and the distribution function is computed with an absolute error of at most `ε`.  For up
to `2^40` observations the statistic is within `n (3 ε + 2^-50 (1 + W))` of
`W = n ∫ (Fₙ - F)² dF`. -/
theorem C143_cvm {fl : ℝ → ℝ} (hfl : RoundsToNearest fl) {sum : List ℝ → ℝ}
    (hsum : ∀ l, l ≠ [] → SumsTo fl l (sum l)) {F G : ℝ → ℝ} (hm : Monotone F)
    (h01 : ∀ x, 0 ≤ F x ∧ F x ≤ 1) {ε : ℝ} (hε : ε ≤ 1) {rvs : List ℝ} (hne : rvs ≠ [])
    (hn40 : rvs.length ≤ 2 ^ 40)
    (hG : ∀ x ∈ rvs, 0 ≤ G x ∧ G x ≤ 1 ∧ |G x - F x| ≤ ε) :
    let W := rvs.length * ∫ u in (0 : ℝ)..1, (fracLe (rvs.map F) u - u) ^ 2
    |Rounded.cvmOf fl sum G rvs - W| ≤ rvs.length * (3 * ε + (2 : ℝ) ^ (-50 : ℤ) * (1 + W)) := by
  intro W
  have hlen : (sort rvs).length = rvs.length := (sort_perm rvs).length_eq
  have hpos : 0 < (sort rvs).length := by rw [hlen]; exact List.length_pos_iff.2 hne
  have hn : (0 : ℝ) < (sort rvs).length := by exact_mod_cast hpos
  have hn1 : (1 : ℝ) ≤ (sort rvs).length := by exact_mod_cast hpos
  have hW : W = cvmOf F rvs := (C56_integral hm h01 hne).symm
  have key : ∀ i (h : i < (sort rvs).length), 0 ≤ G (sort rvs)[i] ∧ G (sort rvs)[i] ≤ 1 ∧
      |G (sort rvs)[i] - F (sort rvs)[i]| ≤ ε := fun i h =>
    hG _ ((sort_perm rvs).mem_iff.1 (List.getElem_mem h))
  have fr : ∀ i < (sort rvs).length, 0 ≤ (2 * ((i : ℝ) + 1) - 1) / (2 * (sort rvs).length) ∧
      (2 * ((i : ℝ) + 1) - 1) / (2 * (sort rvs).length) ≤ 1 := by
    intro i hi
    have h1 : (i : ℝ) + 1 ≤ (sort rvs).length := by exact_mod_cast hi
    have h0 : (0 : ℝ) ≤ i := by positivity
    exact ⟨div_nonneg (by linarith) (by linarith), (div_le_one (by linarith)).2 (by linarith)⟩
  set T := Rounded.cvmTerms fl ((sort rvs).map G) with hT
  have hTlen : T.length = (sort rvs).length := by simp [hT, Rounded.cvmTerms]
  have hTn : T ≠ [] := by rw [← List.length_pos_iff, hTlen]; exact hpos
  have hTf : ∀ x ∈ T, IsFloat64 x := by
    intro x hx
    obtain ⟨i, hi, rfl⟩ := List.getElem_of_mem hx
    simp only [hT, Rounded.cvmTerms, List.getElem_mapIdx]
    exact (hfl _).1
  -- the exact terms
  set E := ((sort rvs).map F).mapIdx
    fun i v => ((2 * ((i : ℝ) + 1) - 1) / (2 * ((sort rvs).map F).length) - v) ^ 2 with hE
  have hElen : E.length = (sort rvs).length := by simp [hE]
  have hcv : cvmOf F rvs = 1 / (12 * (sort rvs).length) + E.sum := by
    rw [cvmOf, cvm, List.length_map]
    simp [hE]
  have term : ∀ i (h : i < T.length) (h' : i < E.length), 0 ≤ T[i] ∧
      |T[i] - E[i]| ≤ 2 * ε + (2 : ℝ) ^ (-51 : ℤ) := by
    intro i h h'
    have hi' : i < (sort rvs).length := by rwa [hTlen] at h
    simp only [hT, hE, Rounded.cvmTerms, List.getElem_mapIdx, List.getElem_map, List.length_map]
    exact round_square hfl (fr i hi').1 (fr i hi').2 (h01 _).1 (h01 _).2 (key i hi').1
      (key i hi').2.1 (key i hi').2.2
  have hTabs : (T.map (|·|)).sum = T.sum := by
    congr 1
    conv_rhs => rw [← List.map_id T]
    refine List.map_congr_left fun x hx => ?_
    obtain ⟨i, hi, rfl⟩ := List.getElem_of_mem hx
    exact abs_of_nonneg (term i hi (by omega)).1
  have hT0 : 0 ≤ T.sum := List.sum_nonneg (by
    intro x hx
    obtain ⟨i, hi, rfl⟩ := List.getElem_of_mem hx
    exact (term i hi (by omega)).1)
  have hTE : |T.sum - E.sum| ≤ (sort rvs).length * (2 * ε + (2 : ℝ) ^ (-51 : ℤ)) := by
    rw [sum_eq_fin T, sum_eq_fin E]
    have : (∑ i : Fin E.length, E[i]) = ∑ i : Fin T.length, E[(i : ℕ)]'(by omega) := by
      refine Fintype.sum_equiv (finCongr (by omega)) _ _ ?_
      intro i
      rfl
    rw [this, ← Finset.sum_sub_distrib]
    refine (Finset.abs_sum_le_sum_abs _ _).trans ?_
    refine (Finset.sum_le_sum fun (i : Fin T.length) _ => (term i i.2 (by omega)).2).trans ?_
    rw [Finset.sum_const, Finset.card_univ, Fintype.card_fin, nsmul_eq_mul, hTlen]
  have hE0 : 0 ≤ E.sum := List.sum_nonneg (by
    intro x hx
    obtain ⟨i, hi, rfl⟩ := List.getElem_of_mem hx
    simp only [hE, List.getElem_mapIdx]
    positivity)
  have e0 : 0 ≤ ε := by
    obtain ⟨x, hx⟩ := List.exists_mem_of_ne_nil _ hne
    exact (abs_nonneg _).trans (hG x hx).2.2
  have hN : ((sort rvs).length : ℝ) ≤ 2 ^ 40 := by rw [hlen]; exact_mod_cast hn40
  have hE1 : E.sum ≤ (sort rvs).length := by
    rw [sum_eq_fin E]
    refine (Finset.sum_le_sum (g := fun _ => (1 : ℝ)) ?_).trans ?_
    · intro i _
      have hi' : (i : ℕ) < (sort rvs).length := by rw [← hElen]; exact i.2
      simp only [hE, Fin.getElem_fin, List.getElem_mapIdx, List.getElem_map, List.length_map]
      rw [← sq_abs]
      have a := fr i hi'
      have b := h01 ((sort rvs)[(i : ℕ)])
      have c : |(2 * (((i : ℕ) : ℝ) + 1) - 1) / (2 * (sort rvs).length) - F (sort rvs)[(i : ℕ)]| ≤ 1 :=
        abs_le.2 ⟨by linarith [a.1, b.2], by linarith [a.2, b.1]⟩
      nlinarith [abs_nonneg ((2 * (((i : ℕ) : ℝ) + 1) - 1) / (2 * (sort rvs).length) -
        F (sort rvs)[(i : ℕ)])]
    · simp [hElen]
  have h1000 : (2 : ℝ) ^ (100 : ℕ) ≤ (2 : ℝ) ^ (1000 : ℤ) := by
    rw [← zpow_natCast]
    exact zpow_le_zpow_right₀ (by norm_num) (by norm_num)
  have hTA : T.sum ≤ (2 : ℝ) ^ (100 : ℕ) := by
    have : (2 : ℝ) ^ (-51 : ℤ) ≤ 1 := by norm_num
    have h3 := (abs_le.1 hTE).2
    have : ((sort rvs).length : ℝ) * (2 * ε + (2 : ℝ) ^ (-51 : ℤ)) ≤ 2 ^ 40 * 3 :=
      mul_le_mul hN (by linarith) (by positivity) (by norm_num)
    have h4 : (2 : ℝ) ^ 40 * 3 + 2 ^ 40 ≤ 2 ^ 100 := by norm_num
    linarith
  obtain ⟨fs, -, es⟩ := (hsum T hTn).error hfl hTf (by
    have : T.length ≤ 2 ^ 40 := by rw [hTlen, hlen]; exact hn40
    norm_num at this ⊢
    omega) (by rw [hTabs]; exact hTA.trans h1000)
  rw [hTabs, hTlen] at es
  have hWW : W = 1 / (12 * (sort rvs).length) + E.sum := by rw [hW, hcv]
  have hcr : Rounded.cvmOf fl sum G rvs = fl (fl (1 / (12 * (sort rvs).length)) + sum T) := by
    rw [Rounded.cvmOf, hlen]
  have hq0 : 0 ≤ 1 / (12 * ((sort rvs).length : ℝ)) := by positivity
  have hq1 : 1 / (12 * ((sort rvs).length : ℝ)) ≤ 1 := by
    rw [div_le_one (by positivity)]; linarith
  obtain ⟨c0, c1, c2⟩ := round_frac hfl hq0 hq1
  have fq : IsFloat64 (fl (1 / (12 * ((sort rvs).length : ℝ)))) := (hfl _).1
  rw [hcr, hWW]
  rw [← hlen]
  generalize fl (1 / (12 * ((sort rvs).length : ℝ))) = a at *
  generalize (1 / (12 * ((sort rvs).length : ℝ))) = q at *
  generalize sum T = s at *
  generalize T.sum = t at *
  generalize E.sum = e at *
  generalize ((sort rvs).length : ℝ) = n at *
  have h50 : (2 : ℝ) ^ (-50 : ℤ) = 16 * (2 : ℝ) ^ (-54 : ℤ) := by norm_num
  have h51 : (2 : ℝ) ^ (-51 : ℤ) = 8 * (2 : ℝ) ^ (-54 : ℤ) := by norm_num
  have h53 : (2 : ℝ) ^ (-53 : ℤ) = 2 * (2 : ℝ) ^ (-54 : ℤ) := by norm_num
  have hu : (0 : ℝ) < (2 : ℝ) ^ (-54 : ℤ) := by positivity
  have hu1 : (2 : ℝ) ^ (-54 : ℤ) * 2 ^ 54 = 1 := by norm_num
  rw [h53] at es
  rw [h51] at hTE
  rw [h50]
  have big : |a + s| ≤ (2 : ℝ) ^ (1023 : ℤ) := by
    have b1 : (2 : ℝ) ^ (102 : ℕ) ≤ (2 : ℝ) ^ (1023 : ℤ) := by
      rw [← zpow_natCast]
      exact zpow_le_zpow_right₀ (by norm_num) (by norm_num)
    refine le_trans ?_ b1
    have b2 : 2 * (n - 1) * (2 * (2 : ℝ) ^ (-54 : ℤ)) ≤ 1 := by nlinarith
    have b3 := mul_le_of_le_one_left hT0 b2
    have b4 := abs_add_le a s
    have b5 : |a| ≤ 1 := abs_le.2 ⟨by linarith, c1⟩
    have b6 : |s| ≤ t + t := by
      have := abs_add_le (s - t) t
      rw [sub_add_cancel, abs_of_nonneg hT0] at this
      linarith
    have b7 : 2 * (2 : ℝ) ^ 100 + 1 ≤ 2 ^ 102 := by norm_num
    linarith
  have er := hfl.error_add fq fs big
  rw [h53] at er
  exact cvm_accumulate hu hu1 hn1 hN e0 hE0 hq0 c2 hTE es er

/-- The hypotheses of the three theorems hold of the uniform law, its distribution function rounded,
a sample of three observations, and sums from left to right. -/
example : ∃ fl : ℝ → ℝ, ∃ sum : List ℝ → ℝ, RoundsToNearest fl ∧
    (∀ l, l ≠ [] → SumsTo fl l (sum l)) ∧
    Continuous (fun x : ℝ => max 0 (min 1 x)) ∧ Monotone (fun x : ℝ => max 0 (min 1 x)) ∧
    (∀ x ∈ [(0.3 : ℝ), 0.1, 0.9], 0 ≤ fl (max 0 (min 1 x)) ∧ fl (max 0 (min 1 x)) ≤ 1 ∧
      |fl (max 0 (min 1 x)) - max 0 (min 1 x)| ≤ (2 : ℝ) ^ (-54 : ℤ)) := by
  obtain ⟨fl, hfl⟩ := exists_rounding
  refine ⟨fl, fun l => l.tail.foldl (fun a x => fl (a + x)) (l.headD 0), hfl, ?_, by fun_prop, ?_, ?_⟩
  · intro l hl
    obtain ⟨a, l, rfl⟩ := List.exists_cons_of_ne_nil hl
    have : ∀ (l l₀ : List ℝ) (s : ℝ), SumsTo fl l₀ s →
        SumsTo fl (l₀ ++ l) (l.foldl (fun a x => fl (a + x)) s) := by
      intro l
      induction l with
      | nil => intro l₀ s hs; simpa using hs
      | cons x l ih =>
        intro l₀ s hs
        rw [List.foldl_cons, show l₀ ++ x :: l = (l₀ ++ [x]) ++ l by simp]
        exact ih _ _ (SumsTo.add hs (SumsTo.one x) (List.Perm.refl _))
    exact this l [a] a (SumsTo.one a)
  · exact fun a b h => max_le_max le_rfl (min_le_min le_rfl h)
  · intro x _
    exact round_frac hfl (le_max_left _ _) (max_le (by norm_num) (min_le_left _ _))

end Pysatl.Props
