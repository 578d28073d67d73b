import Verif.Props.NormalReturn
import Verif.Lemmas.Gaussian
import Verif.Spec.Hermite

/-! # C102: statistics built from Hermite polynomials -/

namespace Pysatl.Props

open Pysatl.Decision Pysatl.Graph Pysatl.Edf Pysatl.Exponent Pysatl.Normal Pysatl.Spec
open Polynomial (hermite aeval)

theorem hermite_list : hermite 2 = Polynomial.X ^ 2 - 1 ∧ hermite 3 = Polynomial.X ^ 3 - 3 * Polynomial.X ∧
    hermite 4 = Polynomial.X ^ 4 - 6 * Polynomial.X ^ 2 + 3 ∧
    hermite 5 = Polynomial.X ^ 5 - 10 * Polynomial.X ^ 3 + 15 * Polynomial.X ∧
    hermite 6 = Polynomial.X ^ 6 - 15 * Polynomial.X ^ 4 + 45 * Polynomial.X ^ 2 - 15 ∧
    hermite 7 = Polynomial.X ^ 7 - 21 * Polynomial.X ^ 5 + 105 * Polynomial.X ^ 3 - 105 * Polynomial.X ∧
    hermite 8 = Polynomial.X ^ 8 - 28 * Polynomial.X ^ 6 + 210 * Polynomial.X ^ 4 -
      420 * Polynomial.X ^ 2 + 105 := by
  have h2 : hermite 2 = Polynomial.X ^ 2 - 1 := by
    rw [Polynomial.hermite_succ, Polynomial.hermite_one]; simp; ring
  have h3 : hermite 3 = Polynomial.X ^ 3 - 3 * Polynomial.X := by
    rw [Polynomial.hermite_succ, h2]; simp; ring
  have h4 : hermite 4 = Polynomial.X ^ 4 - 6 * Polynomial.X ^ 2 + 3 := by
    rw [Polynomial.hermite_succ, h3]; simp; ring
  have h5 : hermite 5 = Polynomial.X ^ 5 - 10 * Polynomial.X ^ 3 + 15 * Polynomial.X := by
    rw [Polynomial.hermite_succ, h4]; simp; ring
  have h6 : hermite 6 = Polynomial.X ^ 6 - 15 * Polynomial.X ^ 4 + 45 * Polynomial.X ^ 2 - 15 := by
    rw [Polynomial.hermite_succ, h5]; simp; ring
  have h7 : hermite 7 = Polynomial.X ^ 7 - 21 * Polynomial.X ^ 5 + 105 * Polynomial.X ^ 3 -
      105 * Polynomial.X := by
    rw [Polynomial.hermite_succ, h6]; simp; ring
  refine ⟨h2, h3, h4, h5, h6, h7, ?_⟩
  rw [Polynomial.hermite_succ, h7]; simp; ring

theorem sqrt_factor {a b c : ℝ} (hb : 0 ≤ b) (h : a = b ^ 2 * c) : √a = b * √c := by
  rw [h, Real.sqrt_mul (by positivity), Real.sqrt_sq hb]

theorem normHermite_zero (x : ℝ) : normHermite 0 x = 1 := by simp [normHermite]
theorem normHermite_one (x : ℝ) : normHermite 1 x = x := by simp [normHermite]
theorem normHermite_two (x : ℝ) : normHermite 2 x = (x ^ 2 - 1) / √2 := by
  rw [normHermite, hermite_list.1]
  simp
theorem normHermite_three (x : ℝ) : normHermite 3 x = he3 x / √6 := by
  rw [normHermite, hermite_list.2.1]
  simp [he3, Nat.factorial, map_ofNat]
theorem normHermite_four (x : ℝ) : normHermite 4 x = he4 x / (2 * √6) := by
  rw [← sqrt_factor (a := 24) (by norm_num) (by norm_num)]
  rw [normHermite, hermite_list.2.2.1]
  simp [he4, Nat.factorial, map_ofNat]
theorem normHermite_five (x : ℝ) : normHermite 5 x = he5 x / (2 * √30) := by
  rw [← sqrt_factor (a := 120) (by norm_num) (by norm_num)]
  rw [normHermite, hermite_list.2.2.2.1]
  simp [he5, Nat.factorial, map_ofNat]
theorem normHermite_six (x : ℝ) : normHermite 6 x = he6 x / (12 * √5) := by
  rw [← sqrt_factor (a := 720) (by norm_num) (by norm_num)]
  rw [normHermite, hermite_list.2.2.2.2.1]
  simp [he6, Nat.factorial, map_ofNat]
theorem normHermite_seven (x : ℝ) : normHermite 7 x = he7 x / (12 * √35) := by
  rw [← sqrt_factor (a := 5040) (by norm_num) (by norm_num)]
  rw [normHermite, hermite_list.2.2.2.2.2.1]
  simp [he7, Nat.factorial, map_ofNat]
theorem normHermite_eight (x : ℝ) : normHermite 8 x = he8 x / (24 * √70) := by
  rw [← sqrt_factor (a := 40320) (by norm_num) (by norm_num)]
  rw [normHermite, hermite_list.2.2.2.2.2.2]
  simp [he8, Nat.factorial, map_ofNat]

theorem standardised_eq (xs : List ℝ) : standardised xs = studentised xs := rfl

theorem var1'_eq {xs : List ℝ} : var1' xs = var1 xs := by
  unfold var1' var1
  congr 1
  rcases Nat.eq_zero_or_pos xs.length with h | h
  · rw [List.length_eq_zero_iff.1 h]; simp
  have hn : (xs.length : ℝ) ≠ 0 := by exact_mod_cast h.ne'
  have e : (xs.map fun x => (x - mean xs) ^ 2).sum =
      (xs.map (· ^ 2)).sum - 2 * mean xs * xs.sum + xs.length * mean xs ^ 2 := by
    generalize mean xs = m
    induction xs with
    | nil => simp
    | cons x xs ih =>
      rcases Nat.eq_zero_or_pos xs.length with h0 | h0
      · rw [List.length_eq_zero_iff.1 h0]; simp; ring
      · simp only [List.map_cons, List.sum_cons, ih h0 (by exact_mod_cast h0.ne'), List.length_cons]
        push_cast; ring
  rw [e]
  unfold mean
  field_simp
  ring

theorem hermiteMoment_sq {z : List ℝ} {n : ℕ} (hz : z.length = n) (j : ℕ) :
    hermiteMoment z j ^ 2 = (z.map (normHermite j)).sum ^ 2 / n := by
  rw [hermiteMoment, div_pow, Real.sq_sqrt (Nat.cast_nonneg _), hz]

theorem length_studentised (xs : List ℝ) : (studentised xs).length = xs.length := by
  simp [studentised]

/-- **C102**, Bontemps-Meddahi with two polynomials: the squared normalised moments of the third and
fourth orthonormal Hermite polynomials, added. -/
theorem C102_bontempsMeddahi1 (lib : NormLib) {xs : List ℝ} (h : 4 ≤ xs.length) :
    NormStat.value lib .bontempsMeddahi1 xs =
      .ok (some (∑ j ∈ Finset.Icc 3 4, hermiteMoment (studentised xs) j ^ 2)) := by
  have e : ∑ j ∈ Finset.Icc 3 4, hermiteMoment (studentised xs) j ^ 2 = Normal.bontempsMeddahi1 xs := by
    rw [show Finset.Icc 3 4 = {3, 4} from rfl]
    rw [Finset.sum_pair (by norm_num), hermiteMoment_sq (length_studentised xs),
      hermiteMoment_sq (length_studentised xs), funext normHermite_three, funext normHermite_four,
      ← standardised_eq]
    unfold Normal.bontempsMeddahi1 standardised sd1
    rw [var1'_eq]
    ring
  simp only [NormStat.value, guarded, if_pos (show 3 < xs.length by omega), e]
  rfl

/-- **C102**, Bontemps-Meddahi with four polynomials. -/
theorem C102_bontempsMeddahi2 (lib : NormLib) {xs : List ℝ} (h : 4 ≤ xs.length) :
    NormStat.value lib .bontempsMeddahi2 xs =
      .ok (some (∑ j ∈ Finset.Icc 3 6, hermiteMoment (studentised xs) j ^ 2)) := by
  have e : ∑ j ∈ Finset.Icc 3 6, hermiteMoment (studentised xs) j ^ 2 = Normal.bontempsMeddahi2 xs := by
    rw [show Finset.Icc 3 6 = {3, 4, 5, 6} from rfl]
    rw [Finset.sum_insert (by decide), Finset.sum_insert (by decide), Finset.sum_pair (by norm_num)]
    simp only [hermiteMoment_sq (length_studentised xs)]
    rw [funext normHermite_three, funext normHermite_four, funext normHermite_five,
      funext normHermite_six, ← standardised_eq]
    unfold Normal.bontempsMeddahi2
    ring
  simp only [NormStat.value, guarded, if_pos (show 3 < xs.length by omega), e]
  rfl

theorem npMax_greatest {l : List ℝ} (h : l ≠ []) : ∃ v, Edf.npMax l = .ok v ∧ IsGreatest {x | x ∈ l} v := by
  obtain ⟨v, hv⟩ := npMax_exists h
  exact ⟨v, hv, npMax_eq_ok.1 hv⟩

theorem sum_map_div (z : List ℝ) (f : ℝ → ℝ) (c : ℝ) : (z.map fun v => f v / c).sum = (z.map f).sum / c := by
  induction z with
  | nil => simp
  | cons x z ih => simp [ih, add_div]

theorem hermiteMoments (z : List ℝ) :
    hermiteMoment z 3 = (z.map he3).sum / (√6 * √(z.length : ℝ)) ∧
    hermiteMoment z 4 = (z.map he4).sum / (2 * √6 * √(z.length : ℝ)) ∧
    hermiteMoment z 5 = (z.map he5).sum / (2 * √30 * √(z.length : ℝ)) ∧
    hermiteMoment z 6 = (z.map he6).sum / (12 * √5 * √(z.length : ℝ)) ∧
    hermiteMoment z 7 = (z.map he7).sum / (12 * √35 * √(z.length : ℝ)) ∧
    hermiteMoment z 8 = (z.map he8).sum / (24 * √70 * √(z.length : ℝ)) := by
  unfold hermiteMoment
  rw [funext normHermite_three, funext normHermite_four, funext normHermite_five, funext normHermite_six,
    funext normHermite_seven, funext normHermite_eight]
  simp only [sum_map_div, div_div, and_self]

theorem cabanaS_eq (Φ φ : ℝ → ℝ) (z : List ℝ) (v : ℝ) :
    cabanaS Φ φ z v = Φ v * hermiteMoment z 3 - φ v * (hermiteMoment z 4 + hermiteMoment z 5 * v / √2 +
      hermiteMoment z 6 * (v ^ 2 - 1) / √6 + hermiteMoment z 7 * (v ^ 3 - 3 * v) / (2 * √6) +
      hermiteMoment z 8 * (v ^ 4 - 6 * v ^ 2 + 3) / (2 * √30)) := by
  unfold cabanaS
  rw [show Finset.Icc 1 5 = {1, 2, 3, 4, 5} from rfl]
  rw [Finset.sum_insert (by decide), Finset.sum_insert (by decide), Finset.sum_insert (by decide),
    Finset.sum_pair (by norm_num)]
  norm_num only
  rw [normHermite_zero, normHermite_one, normHermite_two, normHermite_three, normHermite_four]
  have e1 : √6 = √2 * √3 := by rw [← Real.sqrt_mul (by norm_num)]; norm_num
  have e2 : √30 = √5 * √6 := by rw [← Real.sqrt_mul (by norm_num)]; norm_num
  have e3 : √(4 : ℝ) = 2 := by rw [show (4 : ℝ) = 2 ^ 2 by norm_num, Real.sqrt_sq (by norm_num)]
  have h2 : √(2 : ℝ) ≠ 0 := by positivity
  have h3 : √(3 : ℝ) ≠ 0 := by positivity
  have h5 : √(5 : ℝ) ≠ 0 := by positivity
  rw [e2, e1, e3]
  unfold he3 he4
  simp only [Real.sqrt_one]
  field_simp
  ring

theorem guarded_ok {xs : List ℝ} (h : 4 ≤ xs.length) (v : Except PyErr ℝ) : guarded xs v = v.map some := by
  simp only [guarded, if_pos (show 3 < xs.length by omega)]

/-- **C102**, Cabana and Cabana's statistic against asymmetry. -/
theorem C102_cabana1 (lib : NormLib) {xs : List ℝ} (h : 4 ≤ xs.length) :
    ∃ v, NormStat.value lib .cabanaCabana1 xs = .ok (some v) ∧
      IsGreatest ((fun t => |cabanaS lib.cdf lib.pdf (studentised xs) t|) '' {t | t ∈ studentised xs}) v := by
  have hne : studentised xs ≠ [] := by
    intro h0
    have := length_studentised xs
    rw [h0] at this
    simp at this
    omega
  obtain ⟨v, h1, h2⟩ := npMax_greatest (l := (studentised xs).map fun t =>
    |cabanaS lib.cdf lib.pdf (studentised xs) t|) (by simpa using hne)
  refine ⟨v, ?_, ?_⟩
  · simp only [NormStat.value, guarded_ok h]
    rw [standardised_eq]
    have : cc1 lib (studentised xs) = .ok v := by
      rw [← h1]
      unfold cc1
      simp only [cabanaS_eq, hermiteMoments (studentised xs)]
    rw [this]; rfl
  · convert h2 using 1
    ext y
    simp

/-- The process of the code: the last term of the sum is there twice. -/
noncomputable def cabanaKCode (Φ φ : ℝ → ℝ) (z : List ℝ) (v : ℝ) : ℝ :=
  cabanaK Φ φ z v - φ v * ((√(5 / 4) * normHermite 3 v + normHermite 5 v) * hermiteMoment z 8)

theorem cabanaK_eq (Φ φ : ℝ → ℝ) (z : List ℝ) (v : ℝ) :
    cabanaK Φ φ z v = -φ v * hermiteMoment z 3 + (Φ v - v * φ v) * hermiteMoment z 4 -
      φ v * ((√2 * 1 + normHermite 2 v) * hermiteMoment z 5 +
        (√(3 / 2) * v + normHermite 3 v) * hermiteMoment z 6 +
        (√(4 / 3) * normHermite 2 v + normHermite 4 v) * hermiteMoment z 7 +
        (√(5 / 4) * normHermite 3 v + normHermite 5 v) * hermiteMoment z 8) := by
  unfold cabanaK
  rw [show Finset.Icc 2 5 = {2, 3, 4, 5} from rfl]
  rw [Finset.sum_insert (by decide), Finset.sum_insert (by decide), Finset.sum_pair (by norm_num)]
  norm_num only
  rw [normHermite_zero, normHermite_one]
  ring

theorem cc2Standardised_eq {xs : List ℝ} (h : 0 < xs.length) : cc2Standardised xs = studentised xs := by
  have hn : (xs.length : ℝ) ≠ 0 := by exact_mod_cast h.ne'
  unfold cc2Standardised studentised
  have : (xs.length : ℝ) * variance xs = (xs.map fun y => (y - sampleMean xs) ^ 2).sum := by
    unfold variance
    field_simp
    rfl
  simp only [this]
  rfl

/-- What the code computes: the textbook process with its last term counted twice. -/
theorem cabana2_value (lib : NormLib) {xs : List ℝ} (h : 4 ≤ xs.length) :
    ∃ v, NormStat.value lib .cabanaCabana2 xs = .ok (some v) ∧
      IsGreatest ((fun t => |cabanaKCode lib.cdf lib.pdf (studentised xs) t|) '' {t | t ∈ studentised xs}) v := by
  have hne : studentised xs ≠ [] := by
    intro h0
    have := length_studentised xs
    rw [h0] at this
    simp at this
    omega
  obtain ⟨v, h1, h2⟩ := npMax_greatest (l := (studentised xs).map fun t =>
    |cabanaKCode lib.cdf lib.pdf (studentised xs) t|) (by simpa using hne)
  refine ⟨v, ?_, ?_⟩
  · simp only [NormStat.value, guarded_ok h]
    rw [cc2Standardised_eq (by omega)]
    have : cc2 lib (studentised xs) = .ok v := by
      rw [← h1]
      unfold cc2
      simp only [cabanaKCode, cabanaK_eq, hermiteMoment, ← normHermite_three, ← normHermite_four,
        ← normHermite_five, ← normHermite_six, ← normHermite_seven, ← normHermite_eight, ← normHermite_two]
      congr 2
      funext t
      congr 1
      ring
    rw [this]; rfl
  · convert h2 using 1
    ext y
    simp

theorem studentised_witness : studentised [-1, -1, 1, 1] = [-(√3 / 2), -(√3 / 2), √3 / 2, √3 / 2] := by
  have e : (([-1, -1, 1, 1] : List ℝ).map fun y => (y - sampleMean [-1, -1, 1, 1]) ^ 2).sum /
      ((([-1, -1, 1, 1] : List ℝ).length : ℝ) - 1) = 4 / 3 := by
    norm_num [sampleMean]
  have hs : √(4 / 3 : ℝ) = 2 / √3 := by
    rw [Real.sqrt_div (by norm_num), show (4 : ℝ) = 2 ^ 2 by norm_num, Real.sqrt_sq (by norm_num)]
  unfold studentised
  rw [e, hs]
  norm_num [sampleMean]
  norm_num [neg_div]

theorem he_witness : he3 (√3 / 2) = -(9 / 4) * (√3 / 2) ∧ he4 (√3 / 2) = -(15 / 16) ∧
    he5 (√3 / 2) = 129 / 16 * (√3 / 2) ∧ he6 (√3 / 2) = 687 / 64 ∧ he8 (√3 / 2) = -(26463 / 256) := by
  have h : (√3 : ℝ) ^ 2 = 3 := Real.sq_sqrt (by norm_num)
  have h2 : (√3 / 2 : ℝ) ^ 2 = 3 / 4 := by rw [div_pow, h]; norm_num
  generalize (√3 / 2 : ℝ) = s at *
  unfold he3 he4 he5 he6 he8
  have e3 : s ^ 3 = 3 / 4 * s := by rw [pow_succ, h2]
  have e4 : s ^ 4 = 9 / 16 := by rw [show s ^ 4 = (s ^ 2) ^ 2 by ring, h2]; norm_num
  have e5 : s ^ 5 = 9 / 16 * s := by rw [pow_succ, e4]
  have e6 : s ^ 6 = 27 / 64 := by rw [show s ^ 6 = (s ^ 2) ^ 3 by ring, h2]; norm_num
  have e8 : s ^ 8 = 81 / 256 := by rw [show s ^ 8 = (s ^ 2) ^ 4 by ring, h2]; norm_num
  rw [e3, e4, e5, e6, e8, h2]
  refine ⟨by ring, by norm_num, by ring, by norm_num, by norm_num⟩

/-- The decisive comparison: two processes at the points `s` and `-s`. -/
theorem cabana_compare {c p t α β : ℝ} (hc : 1 / 2 ≤ c) (hp : 0 < p) (ht : t < 0) (hα : α < 0) (hβ : 0 < β) :
    max |c * t + p * α| |t - (c * t + p * α)| < |c * t + p * α - p * β| := by
  have h1 : p * α < 0 := mul_neg_of_pos_of_neg hp hα
  have h2 : 0 < p * β := mul_pos hp hβ
  have h3 : c * t ≤ t / 2 := by nlinarith
  rw [abs_of_neg (show c * t + p * α - p * β < 0 by linarith), abs_of_neg (show c * t + p * α < 0 by linarith)]
  refine max_lt (by linarith) (abs_lt.2 ⟨by linarith, by linarith⟩)

theorem moments_witness : hermiteMoment (studentised [-1, -1, 1, 1]) 3 = 0 ∧
    hermiteMoment (studentised [-1, -1, 1, 1]) 4 = -(15 / 16) / √6 ∧
    hermiteMoment (studentised [-1, -1, 1, 1]) 5 = 0 ∧
    hermiteMoment (studentised [-1, -1, 1, 1]) 6 = 229 / (128 * √5) ∧
    hermiteMoment (studentised [-1, -1, 1, 1]) 7 = 0 ∧
    hermiteMoment (studentised [-1, -1, 1, 1]) 8 = -(8821 / 1024) / √70 := by
  have hh := hermiteMoments (studentised [-1, -1, 1, 1])
  rw [studentised_witness] at hh ⊢
  obtain ⟨w3, w4, w5, w6, w8⟩ := he_witness
  obtain ⟨h3, h4, h5, h6, h7, h8⟩ := hh
  have hl : √((([-(√3 / 2), -(√3 / 2), √3 / 2, √3 / 2] : List ℝ).length : ℕ) : ℝ) = 2 := by
    rw [show ((([-(√3 / 2), -(√3 / 2), √3 / 2, √3 / 2] : List ℝ).length : ℕ) : ℝ) = 2 ^ 2 by norm_num,
      Real.sqrt_sq (by norm_num)]
  rw [hl] at h3 h4 h5 h6 h7 h8
  have o3 : he3 (-(√3 / 2)) = -he3 (√3 / 2) := by unfold he3; ring
  have o4 : he4 (-(√3 / 2)) = he4 (√3 / 2) := by unfold he4; ring
  have o5 : he5 (-(√3 / 2)) = -he5 (√3 / 2) := by unfold he5; ring
  have o6 : he6 (-(√3 / 2)) = he6 (√3 / 2) := by unfold he6; ring
  have o7 : he7 (-(√3 / 2)) = -he7 (√3 / 2) := by unfold he7; ring
  have o8 : he8 (-(√3 / 2)) = he8 (√3 / 2) := by unfold he8; ring
  refine ⟨?_, ?_, ?_, ?_, ?_, ?_⟩
  · rw [h3]; simp [o3]
  · rw [h4]; simp only [List.map_cons, List.map_nil, List.sum_cons, List.sum_nil, o4, w4]
    have : √(6 : ℝ) ≠ 0 := by positivity
    field_simp
    norm_num
  · rw [h5]; simp [o5]
  · rw [h6]; simp only [List.map_cons, List.map_nil, List.sum_cons, List.sum_nil, o6, w6]
    have : √(5 : ℝ) ≠ 0 := by positivity
    field_simp
    norm_num
  · rw [h7]; simp [o7]
  · rw [h8]; simp only [List.map_cons, List.map_nil, List.sum_cons, List.sum_nil, o8, w8]
    have : √(70 : ℝ) ≠ 0 := by positivity
    field_simp
    norm_num

/-- **C102 (refuted)**, Cabana and Cabana's statistic against wrong kurtosis: for the sample
-1, -1, 1, 1 it is larger than the supremum of the process, because the last term is added twice. -/
theorem C102_refuted_cabana2 : ∃ v w, NormStat.value scipyNorm .cabanaCabana2 [-1, -1, 1, 1] = .ok (some v) ∧
    IsGreatest ((fun t => |cabanaK Phi scipyNorm.pdf (studentised [-1, -1, 1, 1]) t|) ''
      {t | t ∈ studentised [-1, -1, 1, 1]}) w ∧ w < v := by
  obtain ⟨v, hv, hg⟩ := cabana2_value scipyNorm (xs := [-1, -1, 1, 1]) (by simp)
  set z := studentised [-1, -1, 1, 1] with hz
  have hmem : ∀ t, t ∈ z ↔ t = √3 / 2 ∨ t = -(√3 / 2) := fun t => by
    rw [hz, studentised_witness]; simp; tauto
  obtain ⟨m3, m4, m5, m6, m7, m8⟩ := moments_witness
  rw [← hz] at m3 m4 m5 m6 m7 m8
  obtain ⟨w3, w4, w5, w6, w8⟩ := he_witness
  have hpos : 0 < scipyNorm.pdf (√3 / 2) := ProbabilityTheory.gaussianPDFReal_pos _ _ _ one_ne_zero
  have heven : scipyNorm.pdf (-(√3 / 2)) = scipyNorm.pdf (√3 / 2) := scipyNorm_symmetric.pdf _
  have hhalf : 1 / 2 ≤ Phi (√3 / 2) := by
    have h0 := Phi_neg 0
    have h1 := Phi_strictMono (show (0 : ℝ) < √3 / 2 by positivity)
    rw [neg_zero] at h0
    linarith
  set p := scipyNorm.pdf (√3 / 2)
  set c := Phi (√3 / 2)
  set t := hermiteMoment z 4
  set A := (√(3 / 2) * (√3 / 2) + normHermite 3 (√3 / 2)) * hermiteMoment z 6
  set B := (√(5 / 4) * normHermite 3 (√3 / 2) + normHermite 5 (√3 / 2)) * hermiteMoment z 8
  have o3 : normHermite 3 (-(√3 / 2)) = -normHermite 3 (√3 / 2) := by
    rw [normHermite_three, normHermite_three]; unfold he3; ring
  have o5 : normHermite 5 (-(√3 / 2)) = -normHermite 5 (√3 / 2) := by
    rw [normHermite_five, normHermite_five]; unfold he5; ring
  have k1 : cabanaK Phi scipyNorm.pdf z (√3 / 2) = c * t + p * (-(√3 / 2) * t - A - B) := by
    rw [cabanaK_eq, m3, m5, m7]; ring
  have k2 : cabanaK Phi scipyNorm.pdf z (-(√3 / 2)) = t - (c * t + p * (-(√3 / 2) * t - A - B)) := by
    rw [cabanaK_eq, m3, m5, m7, heven, Phi_neg, o3, o5]; ring
  have k3 : cabanaKCode Phi scipyNorm.pdf z (√3 / 2) = c * t + p * (-(√3 / 2) * t - A - B) - p * B := by
    rw [cabanaKCode, k1]
  have ht : t < 0 := by
    rw [m4, neg_div]; exact neg_neg_of_pos (by positivity)
  have q2 : √(2 : ℝ) ^ 2 = 2 := Real.sq_sqrt (by norm_num)
  have q3 : √(3 : ℝ) ^ 2 = 3 := Real.sq_sqrt (by norm_num)
  have q5 : √(5 : ℝ) ^ 2 = 5 := Real.sq_sqrt (by norm_num)
  have q7 : √(7 : ℝ) ^ 2 = 7 := Real.sq_sqrt (by norm_num)
  have p2 : 0 < √(2 : ℝ) := by positivity
  have p3 : 0 < √(3 : ℝ) := by positivity
  have p5 : 0 < √(5 : ℝ) := by positivity
  have p7 : 0 < √(7 : ℝ) := by positivity
  have s6 : √(6 : ℝ) = √2 * √3 := by rw [← Real.sqrt_mul (by norm_num)]; norm_num
  have s30 : √(30 : ℝ) = √2 * √3 * √5 := by
    rw [← Real.sqrt_mul (by norm_num), ← Real.sqrt_mul (by norm_num)]; norm_num
  have s70 : √(70 : ℝ) = √2 * √5 * √7 := by
    rw [← Real.sqrt_mul (by norm_num), ← Real.sqrt_mul (by norm_num)]; norm_num
  have s32 : √(3 / 2 : ℝ) = √3 / √2 := Real.sqrt_div (by norm_num) _
  have s54 : √(5 / 4 : ℝ) = √5 / 2 := by
    rw [Real.sqrt_div (by norm_num), show (4 : ℝ) = 2 ^ 2 by norm_num, Real.sqrt_sq (by norm_num)]
  have vt : -(√3 / 2) * t = 15 / (32 * √2) := by
    rw [m4, s6]; field_simp; norm_num
  have vA : A = 687 / (1024 * √2 * √5) := by
    have e : √(3 / 2) * (√3 / 2) + normHermite 3 (√3 / 2) = 3 / (8 * √2) := by
      rw [normHermite_three, w3, s6, s32]; field_simp; rw [q3]; norm_num
    simp only [A]
    rw [m6, e]; field_simp; norm_num
  have vB : B = 449871 / (655360 * √7) := by
    have e : √(5 / 4) * normHermite 3 (√3 / 2) + normHermite 5 (√3 / 2) = -51 / (64 * √2 * √5) := by
      rw [normHermite_three, normHermite_five, w3, w5, s6, s30, s54]; field_simp; rw [q5]; norm_num
    simp only [B]
    rw [m8, e, s70]; field_simp; rw [q2, q5]; norm_num
  have hβ : 0 < B := by
    rw [vB]; positivity
  have hα : -(√3 / 2) * t - A - B < 0 := by
    rw [vt, vA, vB]
    have b2 : 7 / 5 ≤ √(2 : ℝ) := Real.le_sqrt_of_sq_le (by norm_num)
    have b5 : √(5 : ℝ) ≤ 9 / 4 := Real.sqrt_le_iff.2 ⟨by norm_num, by norm_num⟩
    have b7 : √(7 : ℝ) ≤ 27 / 10 := Real.sqrt_le_iff.2 ⟨by norm_num, by norm_num⟩
    have e1 : 15 / (32 * √(2 : ℝ)) ≤ 15 / (32 * (7 / 5)) := by gcongr
    have e2 : 449871 / (655360 * (27 / 10)) ≤ 449871 / (655360 * √(7 : ℝ)) := by gcongr
    have b2' : √(2 : ℝ) ≤ 3 / 2 := Real.sqrt_le_iff.2 ⟨by norm_num, by norm_num⟩
    have e3 : 687 / (1024 * (3 / 2) * (9 / 4)) ≤ 687 / (1024 * √(2 : ℝ) * √5) := by gcongr
    norm_num at e1 e2 e3
    linarith
  have hcmp := cabana_compare (c := c) (p := p) (t := t) (α := -(√3 / 2) * t - A - B) (β := B) hhalf hpos
    ht hα hβ
  refine ⟨v, max |cabanaK Phi scipyNorm.pdf z (√3 / 2)| |cabanaK Phi scipyNorm.pdf z (-(√3 / 2))|, hv, ?_, ?_⟩
  · constructor
    · rcases le_total |cabanaK Phi scipyNorm.pdf z (√3 / 2)| |cabanaK Phi scipyNorm.pdf z (-(√3 / 2))| with h | h
      · rw [max_eq_right h]; exact ⟨_, (hmem _).2 (Or.inr rfl), rfl⟩
      · rw [max_eq_left h]; exact ⟨_, (hmem _).2 (Or.inl rfl), rfl⟩
    · rintro _ ⟨t, ht, rfl⟩
      rcases (hmem t).1 ht with rfl | rfl
      · exact le_max_left _ _
      · exact le_max_right _ _
  · rw [k1, k2]
    refine hcmp.trans_le ?_
    rw [← k3]
    exact hg.2 ⟨_, (hmem _).2 (Or.inl rfl), rfl⟩

/-- Non-vacuity: a sample of four values is long enough for all four statistics. -/
example : (4 : ℕ) ≤ ([-1, -1, 1, 1] : List ℝ).length := by simp

end Pysatl.Props
