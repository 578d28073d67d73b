import Verif.Lemmas.Float64Error
import Verif.Model.CriticalFloat
import Verif.Lemmas.Decision

/-! # Helper lemmas: interpolation in double precision -/

namespace Pysatl.Spec

theorem two_pow_min : (2 : ℝ) ^ (-1021 : ℤ) = 2 ^ 53 * (2 : ℝ) ^ (-1074 : ℤ) := by
  rw [show (-1021 : ℤ) = 53 + -1074 by norm_num, zpow_add₀ (by norm_num)]; norm_cast

/-- Half of a number that is not among the smallest ones is a number. -/
theorem IsFloat64.half {x : ℝ} (hx : IsFloat64 x) (h : (2 : ℝ) ^ (-1021 : ℤ) ≤ x) : IsFloat64 (x / 2) := by
  obtain ⟨m, e, hm, h1, h2, rfl⟩ := hx
  have he : -1073 ≤ e := by
    by_contra hc
    have he : e = -1074 := by omega
    subst he
    have h3 : (m : ℝ) < 2 ^ 53 := by
      have := (abs_lt.1 hm).2
      exact_mod_cast this
    have h5 : (0 : ℝ) < (2 : ℝ) ^ (-1074 : ℤ) := by positivity
    rw [two_pow_min] at h
    have := lt_of_mul_lt_mul_right (lt_of_le_of_lt h (mul_lt_mul_of_pos_right h3 h5)) h5.le
    exact lt_irrefl _ this
  refine ⟨m, e - 1, hm, by omega, by omega, ?_⟩
  rw [zpow_sub₀ (by norm_num), zpow_one]; ring

/-- The number below one half. -/
theorem float64_lt_half {t : ℝ} (ht : IsFloat64 t) (h : t < 1 / 2) : t ≤ 1 / 2 - (2 : ℝ) ^ (-54 : ℤ) := by
  by_contra hc
  have hc := not_le.1 hc
  obtain ⟨j, hj⟩ := float64_multiple ht (-2) (by
    refine le_trans ?_ hc.le
    norm_num)
  have e54 : (2 : ℝ) ^ (-2 - 52 : ℤ) = 1 / 2 ^ 54 := by norm_num
  have e54' : (2 : ℝ) ^ (-54 : ℤ) = 1 / 2 ^ 54 := by norm_num
  rw [e54] at hj
  rw [e54', hj] at hc
  rw [hj] at h
  have h1 : (j : ℝ) < 2 ^ 53 := by
    have : (j : ℝ) * (1 / 2 ^ 54) * 2 ^ 54 < 1 / 2 * 2 ^ 54 := mul_lt_mul_of_pos_right h (by positivity)
    linarith
  have h2 : ((2 ^ 53 - 1 : ℤ) : ℝ) < j := by
    have : (1 / 2 - 1 / 2 ^ 54 : ℝ) * 2 ^ 54 < (j : ℝ) * (1 / 2 ^ 54) * 2 ^ 54 :=
      mul_lt_mul_of_pos_right hc (by positivity)
    push_cast; linarith
  have h1' : j < 2 ^ 53 := by exact_mod_cast h1
  have h2' : 2 ^ 53 - 1 < j := by exact_mod_cast h2
  omega

/-- Among the smallest numbers: an odd multiple of the smallest one. -/
theorem RoundsToNearest.half_sum_odd {fl : ℝ → ℝ} (h : RoundsToNearest fl) {η u : ℝ}
    (hη : η = (2 : ℝ) ^ (-1074 : ℤ)) (hu0 : 0 < u) (hu1 : u * 2 ^ 54 = 1) (k : ℤ) (hk0 : 0 ≤ k)
    (hk1 : 2 * k + 1 < 2 ^ 53) :
    fl ((2 * k + 1) * η * (1 / 2 - u)) + fl ((2 * k + 1) * η * (1 / 2)) ≤ (2 * k + 1) * η := by
  have hη0 : 0 < η := by rw [hη]; positivity
  have float (j : ℤ) (h1 : 0 ≤ j) (h2 : j ≤ 2 ^ 53) : IsFloat64 (j * η) := by
    rw [hη]; exact isFloat64_le j _ (by rwa [abs_of_nonneg h1]) (by norm_num) (by norm_num)
  have e2 : fl ((2 * k + 1) * η * (1 / 2)) ≤ (k + 1) * η := by
    have := float (k + 1) (by omega) (by omega)
    push_cast at this
    refine h.le_float this ?_
    have : ((k : ℝ) + 1) * η - (2 * k + 1) * η * (1 / 2) = η / 2 := by ring
    linarith
  have e1 : fl ((2 * k + 1) * η * (1 / 2 - u)) ≤ k * η := by
    by_contra hc
    obtain ⟨j, hj⟩ := RoundsToNearest.multiple_min (h ((2 * k + 1) * η * (1 / 2 - u))).1
    have hnear := (h ((2 * k + 1) * η * (1 / 2 - u))).2 _ (float k (by omega) (by omega))
    rw [← hη] at hj
    rw [hj] at hc hnear
    have hjk : (k : ℝ) < j := lt_of_mul_lt_mul_right (not_le.1 hc) hη0.le
    have hjk' : (k : ℝ) + 1 ≤ j := by
      have : k < j := by exact_mod_cast hjk
      exact_mod_cast this
    have hk : (0 : ℝ) ≤ k := by exact_mod_cast hk0
    have hk1' : 2 * (k : ℝ) + 1 < 2 ^ 53 := by exact_mod_cast hk1
    have c1 : (2 * (k : ℝ) + 1) * u < 1 / 2 := by
      have : (2 * (k : ℝ) + 1) * u < 2 ^ 53 * u := mul_lt_mul_of_pos_right hk1' hu0
      linarith
    have c2 : 0 < (2 * (k : ℝ) + 1) * u := by positivity
    have d1 := mul_le_mul_of_nonneg_right hjk' hη0.le
    have d2 := mul_lt_mul_of_pos_right c1 hη0
    have d3 := mul_pos c2 hη0
    have f1 : (j : ℝ) * η - (2 * k + 1) * η * (1 / 2 - u) =
        (j * η - (k + 1) * η) + (η / 2 + (2 * k + 1) * u * η) := by ring
    have f2 : (k : ℝ) * η - (2 * k + 1) * η * (1 / 2 - u) = -(1 / 2 * η - (2 * k + 1) * u * η) := by ring
    rw [f1, f2, abs_neg, abs_of_nonneg (by linarith), abs_of_nonneg (by linarith)] at hnear
    linarith
  linarith

/-- The part of the key fact in which the difference is rounded upwards. -/
theorem RoundsToNearest.half_sum_up {fl : ℝ → ℝ} (h : RoundsToNearest fl) {u w d δ : ℝ} (k : ℤ)
    (hw : w = (2 : ℝ) ^ (k - 53)) (hk1 : -1074 ≤ k - 53) (hk2 : k - 53 ≤ 900)
    (hu0 : 0 < u) (hu1 : u * 2 ^ 54 = 1) (M : ℤ) (hM0 : 2 ^ 52 < M) (hM1 : M ≤ 2 ^ 53)
    (hd : d = M * (2 * w)) (hδ : d - w ≤ δ) :
    fl (d * (1 / 2 - u)) + fl (d * (1 / 2)) ≤ δ := by
  have hw0 : 0 < w := by rw [hw]; positivity
  have float (j : ℤ) (h1 : 0 ≤ j) (h2 : j ≤ 2 ^ 53) : IsFloat64 (j * w) := by
    rw [hw]; exact isFloat64_le j _ (by rwa [abs_of_nonneg h1]) hk1 (by omega)
  have e2 : fl (d * (1 / 2)) ≤ M * w := h.le_float (float M (by omega) hM1) (by rw [hd]; linarith)
  have M0 : (2 : ℝ) ^ 52 + 1 ≤ M := by exact_mod_cast hM0
  have M1 : (M : ℝ) ≤ 2 ^ 53 := by exact_mod_cast hM1
  have e1 : fl (d * (1 / 2 - u)) ≤ (M - 1) * w := by
    by_contra hc
    have hc := not_le.1 hc
    have hlow : (2 : ℝ) ^ (k - 1) ≤ fl (d * (1 / 2 - u)) := by
      refine le_trans ?_ hc.le
      have : (2 : ℝ) ^ (k - 1) = 2 ^ 52 * w := by
        rw [hw, show k - 1 = 52 + (k - 53) by ring, zpow_add₀ (by norm_num)]; norm_cast
      rw [this]
      exact mul_le_mul_of_nonneg_right (by linarith) hw0.le
    obtain ⟨j, hj⟩ := float64_multiple (h (d * (1 / 2 - u))).1 (k - 1) hlow
    rw [show k - 1 - 52 = k - 53 by ring, ← hw] at hj
    have hnear := (h (d * (1 / 2 - u))).2 _ (float (M - 1) (by omega) (by omega))
    rw [hj] at hc hnear
    have hjM : ((M : ℝ) - 1) < j := lt_of_mul_lt_mul_right hc hw0.le
    have hjM' : (M : ℝ) ≤ j := by
      have : ((M - 1 : ℤ) : ℝ) < j := by push_cast; exact hjM
      have : M - 1 < j := by exact_mod_cast this
      exact_mod_cast (by omega : M ≤ j)
    have c1 : 2 * ((M : ℝ) * u) ≤ 1 := by
      have : (M : ℝ) * u ≤ 2 ^ 53 * u := mul_le_mul_of_nonneg_right M1 hu0.le
      linarith
    have c2 : 1 < 4 * ((M : ℝ) * u) := by
      have : (2 ^ 52 + 1) * u ≤ (M : ℝ) * u := mul_le_mul_of_nonneg_right M0 hu0.le
      linarith
    have d1 := mul_le_mul_of_nonneg_right hjM' hw0.le
    have d2 := mul_le_mul_of_nonneg_right c1 hw0.le
    have d3 := mul_lt_mul_of_pos_right c2 hw0
    push_cast at hnear
    have f1 : (j : ℝ) * w - d * (1 / 2 - u) = (j * w - M * w) + 2 * (M * u) * w := by rw [hd]; ring
    have f2 : ((M : ℝ) - 1) * w - d * (1 / 2 - u) = -(1 * w - 2 * (M * u) * w) := by rw [hd]; ring
    rw [f1, f2, abs_neg, abs_of_nonneg (by linarith), abs_of_nonneg (by linarith)] at hnear
    linarith
  have : d = M * w + M * w := by rw [hd]; ring
  linarith

/-- The key fact: parts below one half and up to one half of a rounded difference never exceed the
difference together. -/
theorem RoundsToNearest.half_sum {fl : ℝ → ℝ} (h : RoundsToNearest fl) {a b t s : ℝ} (ha : IsFloat64 a)
    (hb : IsFloat64 b) (hab : a ≤ b) (hB : b - a ≤ (2 : ℝ) ^ (900 : ℤ)) (ht : t ≤ 1 / 2 - (2 : ℝ) ^ (-54 : ℤ))
    (hs : s ≤ 1 / 2) : fl (fl (b - a) * t) + fl (fl (b - a) * s) ≤ b - a := by
  obtain ⟨N, hN⟩ : ∃ N : ℤ, b - a = N * (2 : ℝ) ^ (-1074 : ℤ) := by
    obtain ⟨A, hA⟩ := RoundsToNearest.multiple_min ha
    obtain ⟨B, hB⟩ := RoundsToNearest.multiple_min hb
    exact ⟨B - A, by rw [hA, hB]; push_cast; ring⟩
  have hδ0 : 0 ≤ b - a := sub_nonneg.2 hab
  generalize b - a = δ at *
  have hd0 : 0 ≤ fl δ := h.nonneg hδ0
  have hx : fl (fl δ * t) ≤ fl (fl δ * (1 / 2 - (2 : ℝ) ^ (-54 : ℤ))) := h.mono (mul_le_mul_of_nonneg_left ht hd0)
  have hy : fl (fl δ * s) ≤ fl (fl δ * (1 / 2)) := h.mono (mul_le_mul_of_nonneg_left hs hd0)
  refine (add_le_add hx hy).trans ?_
  clear hx hy ht hs
  obtain ⟨u, hu⟩ : ∃ u, u = (2 : ℝ) ^ (-54 : ℤ) := ⟨_, rfl⟩
  rw [← hu]
  have hu0 : 0 < u := by rw [hu]; positivity
  have hu1 : u * 2 ^ 54 = 1 := by rw [hu]; norm_num
  have hη0 : (0 : ℝ) < (2 : ℝ) ^ (-1074 : ℤ) := by positivity
  have easy : fl δ ≤ δ → IsFloat64 (fl δ / 2) →
      fl (fl δ * (1 / 2 - u)) + fl (fl δ * (1 / 2)) ≤ δ := by
    clear hN hη0 hB
    intro h1 h2
    have e1 : fl (fl δ * (1 / 2 - u)) ≤ fl δ / 2 := h.le_float h2 (by nlinarith)
    have e2 : fl (fl δ * (1 / 2)) ≤ fl δ / 2 := h.le_float h2 (by linarith)
    linarith
  have hN0 : 0 ≤ N := by
    have : (0 : ℝ) ≤ N := by
      rw [hN] at hδ0
      exact nonneg_of_mul_nonneg_left hδ0 hη0
    exact_mod_cast this
  rcases lt_or_ge N (2 ^ 53) with hN1 | hN1
  · have hf : IsFloat64 δ := by
      rw [hN]; exact ⟨N, -1074, by rwa [abs_of_nonneg hN0], by norm_num, by norm_num, rfl⟩
    obtain ⟨k, hk | hk⟩ := Int.even_or_odd' N
    · refine easy (h.id hf).le ?_
      rw [h.id hf, hN, hk]
      exact ⟨k, -1074, by rw [abs_of_nonneg (by omega)]; omega, by norm_num, by norm_num, by
        push_cast; ring⟩
    · rw [h.id hf, hN, hk]
      push_cast
      exact h.half_sum_odd rfl hu0 hu1 k (by omega) (by omega)
  · have hδ1 : (2 : ℝ) ^ (-1021 : ℤ) ≤ δ := by
      rw [hN, two_pow_min]
      exact mul_le_mul_of_nonneg_right (by exact_mod_cast hN1) hη0.le
    have hf21 : IsFloat64 ((2 : ℝ) ^ (-1021 : ℤ)) := ⟨1, -1021, by norm_num, by norm_num, by norm_num, by simp⟩
    have hd1 : (2 : ℝ) ^ (-1021 : ℤ) ≤ fl δ := h.float_le hf21 hδ1
    rcases le_or_gt (fl δ) δ with hle | hgt
    · exact easy hle ((h δ).1.half hd1)
    · have hpos : 0 < fl δ := lt_of_le_of_lt hδ0 hgt
      obtain ⟨k, hk1, hk2⟩ := exists_mem_Ioc_zpow hpos (by norm_num : (1 : ℝ) < 2)
      have hf900 : IsFloat64 ((2 : ℝ) ^ (900 : ℤ)) := ⟨1, 900, by norm_num, by norm_num, by norm_num, by simp⟩
      have hd2 : fl δ ≤ (2 : ℝ) ^ (900 : ℤ) := h.le_float hf900 hB
      have k1 : -1021 < k + 1 := by
        refine (zpow_lt_zpow_iff_right₀ (by norm_num : (1 : ℝ) < 2)).1 ?_
        exact lt_of_le_of_lt hδ1 (lt_of_lt_of_le hgt hk2)
      have k2 : k < 900 := by
        refine (zpow_lt_zpow_iff_right₀ (by norm_num : (1 : ℝ) < 2)).1 ?_
        exact lt_of_lt_of_le hk1 hd2
      obtain ⟨M, hM⟩ := float64_multiple (h δ).1 k hk1.le
      have hw : (2 : ℝ) ^ (k - 52) = 2 * (2 : ℝ) ^ (k - 53) := by
        rw [show k - 52 = 1 + (k - 53) by ring, zpow_add₀ (by norm_num), zpow_one]
      have hw0 : (0 : ℝ) < (2 : ℝ) ^ (k - 52) := by positivity
      have hM0 : 2 ^ 52 < M := by
        have e : (2 : ℝ) ^ k = 2 ^ 52 * (2 : ℝ) ^ (k - 52) := by
          rw [show (2 : ℝ) ^ k = (2 : ℝ) ^ (52 + (k - 52)) by congr 1; ring, zpow_add₀ (by norm_num)]
          norm_cast
        rw [hM, e] at hk1
        have := lt_of_mul_lt_mul_right hk1 hw0.le
        exact_mod_cast this
      have hM1 : M ≤ 2 ^ 53 := by
        have e : (2 : ℝ) ^ (k + 1) = 2 ^ 53 * (2 : ℝ) ^ (k - 52) := by
          rw [show (2 : ℝ) ^ (k + 1) = (2 : ℝ) ^ (53 + (k - 52)) by congr 1; ring, zpow_add₀ (by norm_num)]
          norm_cast
        rw [hM, e] at hk2
        have := le_of_mul_le_mul_right hk2 hw0
        exact_mod_cast this
      obtain ⟨y, hy, hyx⟩ := exists_float64_near δ (k - 52) (by omega) (by omega) (by
        rw [abs_of_nonneg hδ0, show k - 52 + 53 = k + 1 by ring]
        exact hgt.le.trans hk2)
      have hnear := ((h δ).2 y hy).trans hyx
      refine h.half_sum_up k rfl (by omega) (by omega) hu0 hu1 M hM0 hM1 (by rw [hM, hw]) ?_
      have := (abs_le.1 hnear).2
      rw [hw] at this
      linarith

end Pysatl.Spec

namespace Pysatl.Decision.Rounded

open Pysatl.Spec

variable {fl : ℝ → ℝ}

theorem lerp_self (h : RoundsToNearest fl) {a : ℝ} (ha : IsFloat64 a) (t : ℝ) : lerp fl a a t = a := by
  unfold lerp
  simp only [sub_self, h.zero, zero_mul, sub_zero, add_zero, h.id ha, ite_self]

theorem float64_half : IsFloat64 (1 / 2) := ⟨1, -1, by norm_num, by norm_num, by norm_num, by norm_num⟩

/-- Below one half. -/
theorem lerp_low (h : RoundsToNearest fl) {a b t : ℝ} (ha : IsFloat64 a) (hb : IsFloat64 b) (hab : a ≤ b)
    (hB : b - a ≤ (2 : ℝ) ^ (900 : ℤ)) (ht : IsFloat64 t) (ht0 : 0 ≤ t) (ht1 : t < 1 / 2) :
    lerp fl a b t = fl (a + fl (fl (b - a) * t)) ∧ 0 ≤ fl (fl (b - a) * t) ∧
      fl (fl (b - a) * t) ≤ b - a := by
  refine ⟨?_, h.nonneg (mul_nonneg (h.nonneg (sub_nonneg.2 hab)) ht0), ?_⟩
  · unfold lerp
    simp only [if_neg (not_le.2 ht1)]
  · have := h.half_sum ha hb hab hB (float64_lt_half ht ht1) (s := 0) (by norm_num)
    rwa [mul_zero, h.zero, add_zero] at this

/-- From one half on. -/
theorem lerp_high (h : RoundsToNearest fl) {a b t : ℝ} (ha : IsFloat64 a) (hb : IsFloat64 b) (hab : a ≤ b)
    (hB : b - a ≤ (2 : ℝ) ^ (900 : ℤ)) (ht0 : 1 / 2 ≤ t) (ht1 : t ≤ 1) :
    lerp fl a b t = fl (b - fl (fl (b - a) * fl (1 - t))) ∧ 0 ≤ fl (1 - t) ∧ fl (1 - t) ≤ 1 / 2 ∧
      0 ≤ fl (fl (b - a) * fl (1 - t)) ∧ fl (fl (b - a) * fl (1 - t)) ≤ b - a := by
  have h0 : 0 ≤ fl (1 - t) := h.nonneg (by linarith)
  have h1 : fl (1 - t) ≤ 1 / 2 := h.le_float float64_half (by linarith)
  refine ⟨?_, h0, h1, h.nonneg (mul_nonneg (h.nonneg (sub_nonneg.2 hab)) h0), ?_⟩
  · unfold lerp
    simp only [if_pos ht0]
  · have := h.half_sum ha hb hab hB (t := 0) (by
      have : (2 : ℝ) ^ (-54 : ℤ) ≤ 1 / 2 := by norm_num
      linarith) h1
    rwa [mul_zero, h.zero, zero_add] at this

/-- Interpolation stays between the two values. -/
theorem lerp_mem (h : RoundsToNearest fl) {a b t : ℝ} (ha : IsFloat64 a) (hb : IsFloat64 b) (hab : a ≤ b)
    (hB : b - a ≤ (2 : ℝ) ^ (900 : ℤ)) (ht : IsFloat64 t) (ht0 : 0 ≤ t) (ht1 : t ≤ 1) :
    a ≤ lerp fl a b t ∧ lerp fl a b t ≤ b := by
  rcases lt_or_ge t (1 / 2) with hlt | hge
  · obtain ⟨e, h0, h1⟩ := lerp_low h ha hb hab hB ht ht0 hlt
    rw [e]
    exact ⟨h.float_le ha (by linarith), h.le_float hb (by linarith)⟩
  · obtain ⟨e, -, -, h0, h1⟩ := lerp_high h ha hb hab hB hge ht1
    rw [e]
    exact ⟨h.float_le ha (by linarith), h.le_float hb (by linarith)⟩

/-- Interpolation is monotone in the weight, also across one half where the formula changes. -/
theorem lerp_mono (h : RoundsToNearest fl) {a b t t' : ℝ} (ha : IsFloat64 a) (hb : IsFloat64 b) (hab : a ≤ b)
    (hB : b - a ≤ (2 : ℝ) ^ (900 : ℤ)) (ht : IsFloat64 t) (ht' : IsFloat64 t') (ht0 : 0 ≤ t)
    (htt : t ≤ t') (ht1 : t' ≤ 1) : lerp fl a b t ≤ lerp fl a b t' := by
  have hd := h.nonneg (sub_nonneg.2 hab)
  rcases lt_or_ge t' (1 / 2) with hlt' | hge'
  · obtain ⟨e', h0', h1'⟩ := lerp_low h ha hb hab hB ht' (ht0.trans htt) hlt'
    obtain ⟨e, h0, h1⟩ := lerp_low h ha hb hab hB ht ht0 (htt.trans_lt hlt')
    rw [e, e']
    exact h.mono (add_le_add_right (h.mono (mul_le_mul_of_nonneg_left htt hd)) a)
  · obtain ⟨e', s0', s1', h0', h1'⟩ := lerp_high h ha hb hab hB hge' ht1
    rcases lt_or_ge t (1 / 2) with hlt | hge
    · obtain ⟨e, h0, h1⟩ := lerp_low h ha hb hab hB ht ht0 hlt
      rw [e, e']
      have := h.half_sum ha hb hab hB (float64_lt_half ht hlt) s1'
      exact h.mono (by linarith)
    · obtain ⟨e, s0, s1, h0, h1⟩ := lerp_high h ha hb hab hB hge (htt.trans ht1)
      rw [e, e']
      have hs : fl (1 - t') ≤ fl (1 - t) := h.mono (by linarith)
      have := h.mono (mul_le_mul_of_nonneg_left hs hd)
      exact h.mono (by linarith)

/-- Interpolation along a sequence, with rounding. -/
noncomputable def along (fl : ℝ → ℝ) (g : ℕ → ℝ) (x : ℝ) : ℝ :=
  lerp fl (g ⌊x⌋₊) (g (⌊x⌋₊ + 1)) (fl (x - (⌊x⌋₊ : ℝ)))

theorem frac_range (h : RoundsToNearest fl) {x : ℝ} (hx : 0 ≤ x) :
    0 ≤ fl (x - (⌊x⌋₊ : ℝ)) ∧ fl (x - (⌊x⌋₊ : ℝ)) ≤ 1 :=
  ⟨h.nonneg (frac_nonneg hx), h.le_float isFloat64_one (frac_lt_one x).le⟩

theorem along_mem (h : RoundsToNearest fl) {g : ℕ → ℝ} (hg : Monotone g) (hf : ∀ i, IsFloat64 (g i))
    (hB : ∀ i j, g i - g j ≤ (2 : ℝ) ^ (900 : ℤ)) {x : ℝ} (hx : 0 ≤ x) :
    g ⌊x⌋₊ ≤ along fl g x ∧ along fl g x ≤ g (⌊x⌋₊ + 1) :=
  lerp_mem h (hf _) (hf _) (hg (Nat.le_succ _)) (hB _ _) (h _).1 (frac_range h hx).1 (frac_range h hx).2

theorem along_mono (h : RoundsToNearest fl) {g : ℕ → ℝ} (hg : Monotone g) (hf : ∀ i, IsFloat64 (g i))
    (hB : ∀ i j, g i - g j ≤ (2 : ℝ) ^ (900 : ℤ)) {x y : ℝ} (hx : 0 ≤ x) (hxy : x ≤ y) :
    along fl g x ≤ along fl g y := by
  have hy := hx.trans hxy
  rcases (Nat.floor_mono hxy).eq_or_lt with he | hlt
  · unfold along
    rw [he]
    refine lerp_mono h (hf _) (hf _) (hg (Nat.le_succ _)) (hB _ _) (h _).1 (h _).1 ?_ (h.mono (by linarith))
      (frac_range h hy).2
    rw [← he]; exact (frac_range h hx).1
  · exact (along_mem h hg hf hB hx).2.trans ((hg hlt).trans (along_mem h hg hf hB hy).1)

/-- `np.quantile` of a sorted list of numbers. -/
theorem npQuantile_eq (h : RoundsToNearest fl) {v : List ℝ} (hv : v ≠ []) (hf : ∀ x ∈ v, IsFloat64 x)
    (hn : v.length ≤ 2 ^ 53) {q : ℝ} (h0 : 0 ≤ q) (h1 : q ≤ 1) :
    npQuantile fl v q = .ok (along fl (nth v) (fl (((v.length - 1 : ℕ) : ℝ) * q))) := by
  have hl : 0 < v.length := List.length_pos_iff.2 hv
  have hle : fl (((v.length - 1 : ℕ) : ℝ) * q) ≤ ((v.length - 1 : ℕ) : ℝ) :=
    h.le_float (isFloat64_natLe _ (by omega)) (mul_le_of_le_one_right (Nat.cast_nonneg _) h1)
  have hge : 0 ≤ fl (((v.length - 1 : ℕ) : ℝ) * q) := h.nonneg (by positivity)
  unfold npQuantile
  rw [if_pos ⟨h0, h1⟩]
  simp only
  split_ifs with hc
  · have he := le_antisymm hle hc
    rw [he, List.getElem?_eq_getElem (by omega)]
    simp only
    rw [lerp_self h (hf _ (List.getElem_mem _))]
    unfold along
    rw [Nat.floor_natCast]
    have e1 : nth v (v.length - 1 + 1) = nth v (v.length - 1) := by
      unfold nth
      rw [min_eq_right (by omega), min_eq_left (by omega)]
    rw [e1, lerp_self h (hf _ (nth_mem hv _)), nth_eq (by omega)]
  · have hlt : ⌊fl (((v.length - 1 : ℕ) : ℝ) * q)⌋₊ < v.length - 1 := (Nat.floor_lt hge).2 (not_le.1 hc)
    rw [List.getElem?_eq_getElem (show _ < v.length by omega),
      List.getElem?_eq_getElem (show ⌊fl (((v.length - 1 : ℕ) : ℝ) * q)⌋₊ + 1 < v.length by omega)]
    simp only
    unfold along
    rw [nth_eq (show ⌊fl (((v.length - 1 : ℕ) : ℝ) * q)⌋₊ < v.length by omega),
      nth_eq (show ⌊fl (((v.length - 1 : ℕ) : ℝ) * q)⌋₊ + 1 < v.length by omega)]

theorem npQuantile_error (v : List ℝ) {q : ℝ} (h : ¬ (0 ≤ q ∧ q ≤ 1)) :
    npQuantile fl v q = .error .valueError := by
  unfold npQuantile
  rw [if_neg h]

end Pysatl.Decision.Rounded
