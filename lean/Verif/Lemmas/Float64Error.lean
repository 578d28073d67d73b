import Verif.Lemmas.Float64
import Verif.Spec.FloatSum
import Mathlib.Data.Int.Log
import Mathlib.Algebra.BigOperators.Group.List.Basic
import Mathlib.Algebra.Order.Floor.Ring
import Mathlib.Algebra.Order.Round

/-!
# Helper lemmas: relative error of double precision operations and of sums
-/

namespace Pysatl.Spec

theorem IsFloat64.neg {x : ℝ} (h : IsFloat64 x) : IsFloat64 (-x) := by
  obtain ⟨m, e, hm, h1, h2, rfl⟩ := h
  exact ⟨-m, e, by rwa [abs_neg], h1, h2, by push_cast; ring⟩

/-- The largest numbers of a binade included. -/
theorem isFloat64_le (M : ℤ) (e : ℤ) (hM : |M| ≤ 2 ^ 53) (h1 : -1074 ≤ e) (h2 : e ≤ 970) :
    IsFloat64 ((M : ℝ) * (2 : ℝ) ^ e) := by
  rcases hM.lt_or_eq with h | h
  · exact ⟨M, e, h, h1, by omega, rfl⟩
  · have h4 : (2 : ℝ) ^ (e + 1) = (2 : ℝ) ^ e * 2 := by
      rw [zpow_add₀ (by norm_num), zpow_one]
    rcases abs_cases M with ⟨hM', _⟩ | ⟨hM', _⟩
    · refine ⟨2 ^ 52, e + 1, by norm_num, by omega, by omega, ?_⟩
      have : M = 2 ^ 53 := by omega
      rw [this, h4]
      push_cast
      ring
    · refine ⟨-2 ^ 52, e + 1, by norm_num, by omega, by omega, ?_⟩
      have : M = -2 ^ 53 := by omega
      rw [this, h4]
      push_cast
      ring

/-- Every number of a binade has a double precision number within half of the spacing. -/
theorem exists_float64_near (x : ℝ) (e : ℤ) (h1 : -1074 ≤ e) (h2 : e ≤ 970)
    (hx : |x| ≤ (2 : ℝ) ^ (e + 53)) : ∃ y, IsFloat64 y ∧ |y - x| ≤ (2 : ℝ) ^ e / 2 := by
  have hp : (0 : ℝ) < (2 : ℝ) ^ e := by positivity
  have hpe : (2 : ℝ) ^ (e + 53) = (2 : ℝ) ^ e * 2 ^ 53 := by
    rw [zpow_add₀ (by norm_num)]; norm_num
  refine ⟨(round (x / (2 : ℝ) ^ e) : ℤ) * (2 : ℝ) ^ e, isFloat64_le _ e ?_ h1 h2, ?_⟩
  · have hb : |x / (2 : ℝ) ^ e| ≤ 2 ^ 53 := by
      rw [abs_div, abs_of_pos hp, div_le_iff₀ hp, mul_comm, ← hpe]
      exact hx
    rw [abs_le] at hb ⊢
    have h5 := abs_sub_round (x / (2 : ℝ) ^ e)
    rw [abs_le] at h5
    constructor
    · have : ((-2 ^ 53 - 1 : ℤ) : ℝ) < (round (x / (2 : ℝ) ^ e) : ℝ) := by
        push_cast
        linarith [hb.1, h5.2]
      have := Int.cast_lt.1 this
      omega
    · have : (round (x / (2 : ℝ) ^ e) : ℝ) < ((2 ^ 53 + 1 : ℤ) : ℝ) := by
        push_cast
        linarith [hb.2, h5.1]
      have := Int.cast_lt.1 this
      omega
  · have h5 := abs_sub_round (x / (2 : ℝ) ^ e)
    have : (round (x / (2 : ℝ) ^ e) : ℝ) * (2 : ℝ) ^ e - x =
        -(x / (2 : ℝ) ^ e - round (x / (2 : ℝ) ^ e)) * (2 : ℝ) ^ e := by
      field_simp
      ring
    rw [this, abs_mul, abs_neg, abs_of_pos hp]
    calc _ ≤ 1 / 2 * (2 : ℝ) ^ e := mul_le_mul_of_nonneg_right h5 hp.le
      _ = _ := by ring

namespace RoundsToNearest

variable {fl : ℝ → ℝ}

/-- The unit roundoff bounds the relative error in the normal range. -/
theorem error_rel (h : RoundsToNearest fl) {x : ℝ} (h1 : (2 : ℝ) ^ (-1022 : ℤ) ≤ |x|)
    (h2 : |x| ≤ (2 : ℝ) ^ (1023 : ℤ)) : |fl x - x| ≤ (2 : ℝ) ^ (-53 : ℤ) * |x| := by
  have hx0 : 0 < |x| := lt_of_lt_of_le (by positivity) h1
  rcases h2.lt_or_eq with h2 | h2
  swap
  · have : IsFloat64 x := by
      have hf : IsFloat64 ((2 : ℝ) ^ (1023 : ℤ)) :=
        ⟨2 ^ 52, 971, by norm_num, by norm_num, by norm_num, by
          rw [show (1023 : ℤ) = 52 + 971 by norm_num, zpow_add₀ (by norm_num)]
          congr 1
          norm_num⟩
      rcases abs_cases x with ⟨he, _⟩ | ⟨he, _⟩
      · rw [← he, h2]; exact hf
      · rw [show x = -|x| by linarith, h2]; exact hf.neg
    rw [h.id this, sub_self, abs_zero]
    positivity
  set k := Int.log 2 |x| with hk
  have hk1 : ((2 : ℕ) : ℝ) ^ k ≤ |x| := Int.zpow_log_le_self (by norm_num) hx0
  have hk2 : |x| < ((2 : ℕ) : ℝ) ^ (k + 1) := Int.lt_zpow_succ_log_self (by norm_num) _
  push_cast at hk1 hk2
  have hk3 : k < 1023 := (zpow_lt_zpow_iff_right₀ (by norm_num : (1 : ℝ) < 2)).1 (hk1.trans_lt h2)
  have hk4 : -1022 < k + 1 := (zpow_lt_zpow_iff_right₀ (by norm_num : (1 : ℝ) < 2)).1 (h1.trans_lt hk2)
  obtain ⟨y, hy, hyx⟩ := exists_float64_near x (k - 52) (by omega) (by omega) (by
    rw [show k - 52 + 53 = k + 1 by ring]; exact hk2.le)
  refine ((h x).2 y hy).trans (hyx.trans ?_)
  have : (2 : ℝ) ^ (k - 52) / 2 = (2 : ℝ) ^ (-53 : ℤ) * (2 : ℝ) ^ k := by
    rw [show k - 52 = -52 + k by ring, zpow_add₀ (by norm_num)]
    norm_num
    ring
  rw [this]
  exact mul_le_mul_of_nonneg_left hk1 (by positivity)

/-- With the absolute error of the subnormal range. -/
theorem error_any (h : RoundsToNearest fl) {x : ℝ} (h2 : |x| ≤ (2 : ℝ) ^ (1023 : ℤ)) :
    |fl x - x| ≤ (2 : ℝ) ^ (-53 : ℤ) * |x| + (2 : ℝ) ^ (-1075 : ℤ) := by
  rcases le_or_gt ((2 : ℝ) ^ (-1022 : ℤ)) |x| with h1 | h1
  · have := h.error_rel h1 h2
    have : (0 : ℝ) < (2 : ℝ) ^ (-1075 : ℤ) := by positivity
    linarith
  · obtain ⟨y, hy, hyx⟩ := exists_float64_near x (-1074) (by norm_num) (by norm_num) (by
      refine h1.le.trans ?_
      exact zpow_le_zpow_right₀ (by norm_num) (by norm_num))
    refine ((h x).2 y hy).trans (hyx.trans ?_)
    have e : (2 : ℝ) ^ (-1074 : ℤ) / 2 = (2 : ℝ) ^ (-1075 : ℤ) := by
      rw [show (-1074 : ℤ) = -1075 + 1 by norm_num, zpow_add₀ (by norm_num), zpow_one]
      ring
    rw [e]
    have : 0 ≤ (2 : ℝ) ^ (-53 : ℤ) * |x| := by positivity
    linarith

theorem multiple_min {x : ℝ} (h : IsFloat64 x) : ∃ M : ℤ, x = M * (2 : ℝ) ^ (-1074 : ℤ) := by
  obtain ⟨m, e, hm, h1, h2, rfl⟩ := h
  obtain ⟨d, rfl⟩ : ∃ d : ℕ, e = -1074 + d := ⟨(e + 1074).toNat, by omega⟩
  refine ⟨m * 2 ^ d, ?_⟩
  rw [zpow_add₀ (by norm_num), zpow_natCast]
  push_cast
  ring

/-- A sum or difference of two double precision numbers has no error in the subnormal range. -/
theorem error_add (h : RoundsToNearest fl) {a b : ℝ} (ha : IsFloat64 a) (hb : IsFloat64 b)
    (h2 : |a + b| ≤ (2 : ℝ) ^ (1023 : ℤ)) : |fl (a + b) - (a + b)| ≤ (2 : ℝ) ^ (-53 : ℤ) * |a + b| := by
  rcases le_or_gt ((2 : ℝ) ^ (-1022 : ℤ)) |a + b| with h1 | h1
  · exact h.error_rel h1 h2
  · obtain ⟨M, hM⟩ := multiple_min ha
    obtain ⟨N, hN⟩ := multiple_min hb
    have hs : a + b = ((M + N : ℤ) : ℝ) * (2 : ℝ) ^ (-1074 : ℤ) := by
      rw [hM, hN]; push_cast; ring
    have hf : IsFloat64 (a + b) := by
      rw [hs]
      refine ⟨M + N, -1074, ?_, by norm_num, by norm_num, rfl⟩
      rw [hs, abs_mul, abs_of_pos (by positivity : (0 : ℝ) < (2 : ℝ) ^ (-1074 : ℤ))] at h1
      have e : (2 : ℝ) ^ (-1022 : ℤ) = 2 ^ 52 * (2 : ℝ) ^ (-1074 : ℤ) := by
        rw [show (-1022 : ℤ) = 52 + -1074 by norm_num, zpow_add₀ (by norm_num)]
        norm_num
      rw [e] at h1
      have := lt_of_mul_lt_mul_right h1 (by positivity)
      have h3 : |M + N| < 2 ^ 52 := by
        have h4 : ((|M + N| : ℤ) : ℝ) < ((2 ^ 52 : ℤ) : ℝ) := by push_cast at this ⊢; linarith
        exact_mod_cast h4
      omega
    rw [h.id hf, sub_self, abs_zero]
    positivity

theorem error_sub (h : RoundsToNearest fl) {a b : ℝ} (ha : IsFloat64 a) (hb : IsFloat64 b)
    (h2 : |a - b| ≤ (2 : ℝ) ^ (1023 : ℤ)) : |fl (a - b) - (a - b)| ≤ (2 : ℝ) ^ (-53 : ℤ) * |a - b| := by
  have := h.error_add ha hb.neg (by rwa [← sub_eq_add_neg])
  rwa [← sub_eq_add_neg] at this

/-- Rounding a number between `-1` and `1` moves it by at most `2^-54`. -/
theorem error_unit_abs (h : RoundsToNearest fl) {x : ℝ} (hx : |x| ≤ 1) :
    |fl x - x| ≤ (2 : ℝ) ^ (-54 : ℤ) := by
  obtain ⟨y, hy, hyx⟩ := exists_float64_near x (-53) (by norm_num) (by norm_num) (by simpa using hx)
  refine ((h x).2 y hy).trans (hyx.trans (le_of_eq ?_))
  norm_num

end RoundsToNearest

end Pysatl.Spec

namespace Pysatl.Spec

/-- A rounded sum, in whatever order, of `n` double precision numbers is within `2 (n - 1) 2^-53`
times the sum of the absolute values of the exact sum. -/
theorem SumsTo.error {fl : ℝ → ℝ} (h : RoundsToNearest fl) {l : List ℝ} {s : ℝ} (hs : SumsTo fl l s)
    (hl : ∀ x ∈ l, IsFloat64 x) (hn : l.length ≤ 2 ^ 52) (hA : (l.map (|·|)).sum ≤ (2 : ℝ) ^ (1000 : ℤ)) :
    IsFloat64 s ∧ 1 ≤ l.length ∧
      |s - l.sum| ≤ 2 * ((l.length : ℝ) - 1) * (2 : ℝ) ^ (-53 : ℤ) * (l.map (|·|)).sum := by
  induction hs with
  | one x => exact ⟨hl x (by simp), by simp, by simp⟩
  | @add l₁ l₂ l s₁ s₂ h₁ h₂ hp ih₁ ih₂ =>
    have hlen : l.length = l₁.length + l₂.length := by rw [hp.length_eq, List.length_append]
    have hsum : l.sum = l₁.sum + l₂.sum := by rw [hp.sum_eq, List.sum_append]
    have habs : (l.map (|·|)).sum = (l₁.map (|·|)).sum + (l₂.map (|·|)).sum := by
      rw [(hp.map _).sum_eq, List.map_append, List.sum_append]
    have nn : ∀ l : List ℝ, 0 ≤ (l.map (|·|)).sum := fun l => List.sum_nonneg (by
      intro x hx
      obtain ⟨y, -, rfl⟩ := List.mem_map.1 hx
      exact abs_nonneg y)
    have le : ∀ l : List ℝ, |l.sum| ≤ (l.map (|·|)).sum := by
      intro l
      induction l with
      | nil => simp
      | cons a l ih =>
        rw [List.sum_cons, List.map_cons, List.sum_cons]
        exact (abs_add_le _ _).trans (by linarith)
    have a1 := nn l₁
    have a2 := nn l₂
    obtain ⟨f₁, n₁, e₁⟩ := ih₁ (fun x hx => hl x (hp.mem_iff.2 (List.mem_append_left _ hx))) (by omega)
      (by linarith)
    obtain ⟨f₂, n₂, e₂⟩ := ih₂ (fun x hx => hl x (hp.mem_iff.2 (List.mem_append_right _ hx))) (by omega)
      (by linarith)
    refine ⟨(h _).1, by omega, ?_⟩
    rw [hsum, habs]
    rw [habs] at hA
    have hlen' : (l.length : ℝ) = l₁.length + l₂.length := by exact_mod_cast hlen
    rw [hlen']
    have hn' : (l₁.length : ℝ) + l₂.length ≤ 2 ^ 52 := by rw [← hlen']; exact_mod_cast hn
    have b₁ : (1 : ℝ) ≤ l₁.length := by exact_mod_cast n₁
    have b₂ : (1 : ℝ) ≤ l₂.length := by exact_mod_cast n₂
    have q₁ := le l₁
    have q₂ := le l₂
    generalize (l₁.map (|·|)).sum = A₁ at *
    generalize (l₂.map (|·|)).sum = A₂ at *
    generalize (l₁.length : ℝ) = p at *
    generalize (l₂.length : ℝ) = q at *
    generalize l₁.sum = t₁ at *
    generalize l₂.sum = t₂ at *
    set u : ℝ := (2 : ℝ) ^ (-53 : ℤ) with hu
    have hu0 : 0 < u := by positivity
    have hu1 : u * 2 ^ 53 = 1 := by rw [hu]; norm_num
    have hpu : 2 * u * (p + q) ≤ 1 := by nlinarith
    have c₁ : 2 * (p - 1) * u ≤ 1 := by nlinarith
    have c₂ : 2 * (q - 1) * u ≤ 1 := by nlinarith
    have E₁ : 2 * (p - 1) * u * A₁ ≤ A₁ := mul_le_of_le_one_left a1 c₁
    have E₂ : 2 * (q - 1) * u * A₂ ≤ A₂ := mul_le_of_le_one_left a2 c₂
    have d₁ : |s₁ + s₂ - (t₁ + t₂)| ≤ 2 * (p - 1) * u * A₁ + 2 * (q - 1) * u * A₂ := by
      rw [show s₁ + s₂ - (t₁ + t₂) = (s₁ - t₁) + (s₂ - t₂) by ring]
      exact (abs_add_le _ _).trans (by linarith)
    have d₂ : |s₁ + s₂| ≤ A₁ + A₂ + (2 * (p - 1) * u * A₁ + 2 * (q - 1) * u * A₂) := by
      have : s₁ + s₂ = (s₁ + s₂ - (t₁ + t₂)) + (t₁ + t₂) := by ring
      have h3 := abs_add_le (s₁ + s₂ - (t₁ + t₂)) (t₁ + t₂)
      rw [← this] at h3
      have h4 := abs_add_le t₁ t₂
      linarith
    have big : (2 : ℝ) ^ (1023 : ℤ) = 2 ^ 23 * (2 : ℝ) ^ (1000 : ℤ) := by
      rw [show (1023 : ℤ) = 23 + 1000 by norm_num, zpow_add₀ (by norm_num)]
      norm_num
    have d₃ := h.error_add f₁ f₂ (by
      rw [big]
      have : (0 : ℝ) < (2 : ℝ) ^ (1000 : ℤ) := by positivity
      clear big
      generalize (2 : ℝ) ^ (1000 : ℤ) = B at *
      have h5 : |s₁ + s₂| ≤ 2 * B := by linarith
      nlinarith)
    rw [← hu] at d₃
    have d₄ : |fl (s₁ + s₂) - (t₁ + t₂)| ≤ u * |s₁ + s₂| + (2 * (p - 1) * u * A₁ + 2 * (q - 1) * u * A₂) := by
      rw [show fl (s₁ + s₂) - (t₁ + t₂) = (fl (s₁ + s₂) - (s₁ + s₂)) + (s₁ + s₂ - (t₁ + t₂)) by ring]
      exact (abs_add_le _ _).trans (by linarith)
    refine d₄.trans ?_
    have d₅ : u * |s₁ + s₂| ≤ u * (A₁ + A₂ + (2 * (p - 1) * u * A₁ + 2 * (q - 1) * u * A₂)) :=
      mul_le_mul_of_nonneg_left d₂ hu0.le
    have k₁ : 2 * (p - 1) * u * A₁ * u ≤ u * A₁ := by nlinarith
    have k₂ : 2 * (q - 1) * u * A₂ * u ≤ u * A₂ := by nlinarith
    have k₃ : 0 ≤ u * A₁ * (q - 1) := by
      have := mul_nonneg hu0.le a1
      exact mul_nonneg this (by linarith)
    have k₄ : 0 ≤ u * A₂ * (p - 1) := by
      have := mul_nonneg hu0.le a2
      exact mul_nonneg this (by linarith)
    nlinarith

end Pysatl.Spec
