import Verif.Lemmas.Lerp

/-! # Helper lemmas: the error of interpolation in double precision -/

namespace Pysatl.Decision.Rounded

open Pysatl.Spec

/-- A rounded product with a rounded difference. -/
theorem part_error {B u η δ d t X : ℝ} (hu0 : 0 ≤ u) (hu1 : u ≤ 1 / 4) (hδ0 : 0 ≤ δ)
    (hδ : δ ≤ 2 * B) (hd : |d - δ| ≤ u * δ) (ht0 : 0 ≤ t) (ht1 : t ≤ 1 / 2)
    (hX : |X - d * t| ≤ u * (d * t) + η) : |X - t * δ| ≤ 9 / 4 * (u * B) + η := by
  have h1 := abs_le.1 hd
  have h2 := abs_le.1 hX
  have huδ : 0 ≤ u * δ := mul_nonneg hu0 hδ0
  have e1 : d * t ≤ (1 + u) * δ * (1 / 2) := by
    have : d * t ≤ (1 + u) * δ * t := mul_le_mul_of_nonneg_right (by linarith) ht0
    have : (1 + u) * δ * t ≤ (1 + u) * δ * (1 / 2) := mul_le_mul_of_nonneg_left ht1 (by positivity)
    linarith
  have e2 : u * (d * t) ≤ 5 / 8 * (u * δ) := by
    have : u * (d * t) ≤ u * ((1 + u) * δ * (1 / 2)) := mul_le_mul_of_nonneg_left e1 hu0
    have : u * (u * δ) ≤ 1 / 4 * (u * δ) := mul_le_mul_of_nonneg_right hu1 huδ
    linarith
  have e3 : |d * t - t * δ| ≤ 1 / 2 * (u * δ) := by
    rw [show d * t - t * δ = (d - δ) * t by ring, abs_mul, abs_of_nonneg ht0]
    calc |d - δ| * t ≤ u * δ * t := mul_le_mul_of_nonneg_right hd ht0
      _ ≤ u * δ * (1 / 2) := mul_le_mul_of_nonneg_left ht1 huδ
      _ = _ := by ring
  have e4 : u * δ ≤ 2 * (u * B) := by
    have := mul_le_mul_of_nonneg_left hδ hu0
    linarith
  have h3 := abs_le.1 e3
  rw [abs_le]
  constructor <;> linarith

/-- The two formulas of `_lerp` for numbers of size at most `B`. -/
theorem lerp_error {fl : ℝ → ℝ} (h : RoundsToNearest fl) {a b t B : ℝ} (ha : IsFloat64 a) (hb : IsFloat64 b)
    (hab : a ≤ b) (haB : |a| ≤ B) (hbB : |b| ≤ B) (hB : B ≤ (2 : ℝ) ^ (899 : ℤ)) (ht : IsFloat64 t)
    (ht0 : 0 ≤ t) (ht1 : t ≤ 1) :
    |lerp fl a b t - (a + t * (b - a))| ≤ 5 * ((2 : ℝ) ^ (-53 : ℤ) * B) + (2 : ℝ) ^ (-1075 : ℤ) := by
  have a1 := abs_le.1 haB
  have b1 := abs_le.1 hbB
  have e900 : (2 : ℝ) ^ (900 : ℤ) = 2 * (2 : ℝ) ^ (899 : ℤ) := by
    rw [show (900 : ℤ) = 1 + 899 by norm_num, zpow_add₀ (by norm_num), zpow_one]
  have hle1 : (2 : ℝ) ^ (900 : ℤ) ≤ (2 : ℝ) ^ (1023 : ℤ) := zpow_le_zpow_right₀ (by norm_num) (by norm_num)
  have hf900 : IsFloat64 ((2 : ℝ) ^ (900 : ℤ)) := ⟨1, 900, by norm_num, by norm_num, by norm_num, by simp⟩
  have hδB : b - a ≤ 2 * B := by linarith
  have hδ : b - a ≤ (2 : ℝ) ^ (900 : ℤ) := by rw [e900]; linarith
  have hδ0 : 0 ≤ b - a := sub_nonneg.2 hab
  have hd : |fl (b - a) - (b - a)| ≤ (2 : ℝ) ^ (-53 : ℤ) * (b - a) := by
    have := h.error_sub hb ha (by rw [abs_of_nonneg hδ0]; exact hδ.trans hle1)
    rwa [abs_of_nonneg hδ0] at this
  have hd0 : 0 ≤ fl (b - a) := h.nonneg hδ0
  have hd1 : fl (b - a) ≤ (2 : ℝ) ^ (900 : ℤ) := h.le_float hf900 hδ
  have hprod (s : ℝ) (hs0 : 0 ≤ s) (hs1 : s ≤ 1) : |fl (fl (b - a) * s) - fl (b - a) * s| ≤
      (2 : ℝ) ^ (-53 : ℤ) * (fl (b - a) * s) + (2 : ℝ) ^ (-1075 : ℤ) := by
    have h0 : 0 ≤ fl (b - a) * s := mul_nonneg hd0 hs0
    have h1 : fl (b - a) * s ≤ (2 : ℝ) ^ (1023 : ℤ) := by
      exact (mul_le_of_le_one_right hd0 hs1).trans (hd1.trans hle1)
    have := h.error_any (x := fl (b - a) * s) (by rwa [abs_of_nonneg h0])
    rwa [abs_of_nonneg h0] at this
  have hB' : B ≤ (2 : ℝ) ^ (1023 : ℤ) := hB.trans (zpow_le_zpow_right₀ (by norm_num) (by norm_num))
  have hu0 : (0 : ℝ) ≤ (2 : ℝ) ^ (-53 : ℤ) := by positivity
  have hu1 : (2 : ℝ) ^ (-53 : ℤ) ≤ 1 / 4 := by norm_num
  rcases lt_or_ge t (1 / 2) with hlt | hge
  · obtain ⟨e, h0, h1⟩ := lerp_low h ha hb hab hδ ht ht0 hlt
    have hX := part_error hu0 hu1 hδ0 hδB hd ht0 hlt.le (hprod t ht0 ht1)
    have hXf := (h (fl (b - a) * t)).1
    generalize fl (fl (b - a) * t) = X at *
    have hr : |fl (a + X) - (a + X)| ≤ (2 : ℝ) ^ (-53 : ℤ) * B := by
      have habs : |a + X| ≤ B := by rw [abs_le]; constructor <;> linarith
      exact (h.error_add ha hXf (habs.trans hB')).trans (mul_le_mul_of_nonneg_left habs hu0)
    rw [e]
    have huB : 0 ≤ (2 : ℝ) ^ (-53 : ℤ) * B := (abs_nonneg _).trans hr
    have r1 := abs_le.1 hr
    have r2 := abs_le.1 hX
    generalize (2 : ℝ) ^ (-53 : ℤ) * B = U at *
    generalize (2 : ℝ) ^ (-1075 : ℤ) = η at *
    rw [abs_le]
    constructor <;> linarith
  · obtain ⟨e, s0, s1, h0, h1⟩ := lerp_high h ha hb hab hδ hge ht1
    have hs : |fl (1 - t) - (1 - t)| ≤ (2 : ℝ) ^ (-54 : ℤ) :=
      h.error_unit (by linarith) (by linarith)
    have hX := part_error hu0 hu1 hδ0 hδB hd s0 s1 (hprod _ s0 (by linarith))
    have hXf := (h (fl (b - a) * fl (1 - t))).1
    have hw : |fl (1 - t) * (b - a) - (1 - t) * (b - a)| ≤ (2 : ℝ) ^ (-53 : ℤ) * B := by
      rw [← sub_mul, abs_mul, abs_of_nonneg hδ0]
      calc |fl (1 - t) - (1 - t)| * (b - a) ≤ (2 : ℝ) ^ (-54 : ℤ) * (2 * B) :=
            mul_le_mul hs hδB hδ0 (by positivity)
        _ = _ := by
          rw [show (-53 : ℤ) = 1 + -54 by norm_num, zpow_add₀ (by norm_num), zpow_one]; ring
    generalize fl (fl (b - a) * fl (1 - t)) = Y at *
    generalize fl (1 - t) = s at *
    have hr : |fl (b - Y) - (b - Y)| ≤ (2 : ℝ) ^ (-53 : ℤ) * B := by
      have habs : |b - Y| ≤ B := by rw [abs_le]; constructor <;> linarith
      exact (h.error_sub hb hXf (habs.trans hB')).trans (mul_le_mul_of_nonneg_left habs hu0)
    rw [e]
    have huB : 0 ≤ (2 : ℝ) ^ (-53 : ℤ) * B := (abs_nonneg _).trans hr
    have r1 := abs_le.1 hr
    have r2 := abs_le.1 hX
    have r3 := abs_le.1 hw
    generalize (2 : ℝ) ^ (-53 : ℤ) * B = U at *
    generalize (2 : ℝ) ^ (-1075 : ℤ) = η at *
    rw [abs_le]
    constructor <;> linarith

/-- Interpolation along a sequence. -/
theorem along_error {fl : ℝ → ℝ} (h : RoundsToNearest fl) {g : ℕ → ℝ} (hg : Monotone g)
    (hf : ∀ i, IsFloat64 (g i)) {B : ℝ} (hgB : ∀ i, |g i| ≤ B) (hB : B ≤ (2 : ℝ) ^ (899 : ℤ)) {x : ℝ}
    (hx : 0 ≤ x) :
    |along fl g x - Decision.lerp g x| ≤ 6 * ((2 : ℝ) ^ (-53 : ℤ) * B) + (2 : ℝ) ^ (-1075 : ℤ) := by
  have h1 := lerp_error h (hf ⌊x⌋₊) (hf (⌊x⌋₊ + 1)) (hg (Nat.le_succ _)) (hgB _) (hgB _) hB (h _).1
    (frac_range h hx).1 (frac_range h hx).2
  have h2 : |fl (x - (⌊x⌋₊ : ℝ)) - (x - (⌊x⌋₊ : ℝ))| ≤ (2 : ℝ) ^ (-54 : ℤ) :=
    h.error_unit (frac_nonneg hx) (frac_lt_one x).le
  have hδ0 : 0 ≤ g (⌊x⌋₊ + 1) - g ⌊x⌋₊ := sub_nonneg.2 (hg (Nat.le_succ _))
  have hδB : g (⌊x⌋₊ + 1) - g ⌊x⌋₊ ≤ 2 * B := by
    have a1 := abs_le.1 (hgB ⌊x⌋₊)
    have b1 := abs_le.1 (hgB (⌊x⌋₊ + 1))
    linarith
  have h3 : |fl (x - (⌊x⌋₊ : ℝ)) * (g (⌊x⌋₊ + 1) - g ⌊x⌋₊) - (x - (⌊x⌋₊ : ℝ)) * (g (⌊x⌋₊ + 1) - g ⌊x⌋₊)| ≤
      (2 : ℝ) ^ (-53 : ℤ) * B := by
    rw [← sub_mul, abs_mul, abs_of_nonneg hδ0]
    calc _ ≤ (2 : ℝ) ^ (-54 : ℤ) * (2 * B) := mul_le_mul h2 hδB hδ0 (by positivity)
      _ = _ := by
        rw [show (-53 : ℤ) = 1 + -54 by norm_num, zpow_add₀ (by norm_num), zpow_one]; ring
  unfold along Decision.lerp
  have r1 := abs_le.1 h1
  have r3 := abs_le.1 h3
  generalize (2 : ℝ) ^ (-53 : ℤ) * B = U at *
  generalize (2 : ℝ) ^ (-1075 : ℤ) = η at *
  rw [abs_le]
  constructor <;> linarith

/-- Exact interpolation along a sequence does not move faster than its largest step. -/
theorem lerp_lipschitz {g : ℕ → ℝ} {G : ℝ} (hG : ∀ i, |g (i + 1) - g i| ≤ G) {x y : ℝ} (hx : 0 ≤ x)
    (hxy : x ≤ y) : |Decision.lerp g y - Decision.lerp g x| ≤ G * (y - x) := by
  have hG0 : 0 ≤ G := (abs_nonneg _).trans (hG 0)
  have hy := hx.trans hxy
  have hstep (i k : ℕ) : |g (i + k) - g i| ≤ k * G := by
    induction k with
    | zero => simp
    | succ k ih =>
      have : g (i + (k + 1)) - g i = (g (i + k + 1) - g (i + k)) + (g (i + k) - g i) := by
        rw [← add_assoc]; ring
      rw [this]
      refine (abs_add_le _ _).trans ?_
      push_cast
      have := hG (i + k)
      linarith
  rcases (Nat.floor_mono hxy).eq_or_lt with he | hlt
  · unfold Decision.lerp
    rw [he]
    have : g ⌊y⌋₊ + (y - ⌊y⌋₊) * (g (⌊y⌋₊ + 1) - g ⌊y⌋₊) -
        (g ⌊y⌋₊ + (x - ⌊y⌋₊) * (g (⌊y⌋₊ + 1) - g ⌊y⌋₊)) = (g (⌊y⌋₊ + 1) - g ⌊y⌋₊) * (y - x) := by ring
    rw [this, abs_mul, abs_of_nonneg (sub_nonneg.2 hxy)]
    exact mul_le_mul_of_nonneg_right (hG _) (sub_nonneg.2 hxy)
  · obtain ⟨k, hk⟩ : ∃ k, ⌊y⌋₊ = ⌊x⌋₊ + 1 + k := ⟨⌊y⌋₊ - (⌊x⌋₊ + 1), by omega⟩
    have hk' : (⌊y⌋₊ : ℝ) = ⌊x⌋₊ + 1 + k := by rw [hk]; push_cast; ring
    have h1 := hstep (⌊x⌋₊ + 1) k
    rw [← hk] at h1
    have h2 : |(y - ⌊y⌋₊) * (g (⌊y⌋₊ + 1) - g ⌊y⌋₊)| ≤ (y - ⌊y⌋₊) * G := by
      rw [abs_mul, abs_of_nonneg (frac_nonneg hy)]
      exact mul_le_mul_of_nonneg_left (hG _) (frac_nonneg hy)
    have h3 : |(1 - (x - ⌊x⌋₊)) * (g (⌊x⌋₊ + 1) - g ⌊x⌋₊)| ≤ (1 - (x - ⌊x⌋₊)) * G := by
      have := frac_lt_one x
      rw [abs_mul, abs_of_nonneg (by linarith)]
      exact mul_le_mul_of_nonneg_left (hG _) (by linarith)
    unfold Decision.lerp
    have e : g ⌊y⌋₊ + (y - ⌊y⌋₊) * (g (⌊y⌋₊ + 1) - g ⌊y⌋₊) -
        (g ⌊x⌋₊ + (x - ⌊x⌋₊) * (g (⌊x⌋₊ + 1) - g ⌊x⌋₊)) =
        (g ⌊y⌋₊ - g (⌊x⌋₊ + 1)) + ((y - ⌊y⌋₊) * (g (⌊y⌋₊ + 1) - g ⌊y⌋₊) +
          (1 - (x - ⌊x⌋₊)) * (g (⌊x⌋₊ + 1) - g ⌊x⌋₊)) := by ring
    rw [e]
    refine (abs_add_le _ _).trans ((add_le_add h1 ((abs_add_le _ _).trans (add_le_add h2 h3))).trans ?_)
    have : G * (y - x) - (k * G + ((y - ⌊y⌋₊) * G + (1 - (x - ⌊x⌋₊)) * G)) =
        G * ((⌊y⌋₊ : ℝ) - (⌊x⌋₊ + 1 + k)) := by ring
    rw [hk', sub_self, mul_zero] at this
    rw [hk']
    exact (sub_eq_zero.1 this).ge

end Pysatl.Decision.Rounded
