import Verif.Spec.Float64
import Mathlib.Data.Set.Finite.Lemmas
import Mathlib.Data.Finite.Prod
import Mathlib.Data.Int.Interval
import Mathlib.Data.Nat.Log
import Mathlib.Tactic.Linarith
import Mathlib.Tactic.NormNum
import Mathlib.Tactic.Positivity
import Mathlib.Tactic.Ring
import Mathlib.Tactic.FieldSimp

/-!
# Helper lemmas: double precision rounding
-/

namespace Pysatl.Spec

theorem isFloat64_nat (k : ℕ) (hk : k < 2 ^ 53) : IsFloat64 (k : ℝ) :=
  ⟨k, 0, by rw [abs_of_nonneg (by positivity)]; exact_mod_cast hk, by norm_num, by norm_num, by simp⟩

theorem isFloat64_zero : IsFloat64 0 := by simpa using isFloat64_nat 0 (by norm_num)

theorem isFloat64_one : IsFloat64 1 := by simpa using isFloat64_nat 1 (by norm_num)

theorem isFloat64_natLe (k : ℕ) (hk : k ≤ 2 ^ 53) : IsFloat64 (k : ℝ) := by
  rcases hk.lt_or_eq with h | rfl
  · exact isFloat64_nat k h
  · exact ⟨1, 53, by norm_num, by norm_num, by norm_num, by norm_num⟩

/-- There are finitely many double precision numbers. -/
theorem finite_float64 : {x : ℝ | IsFloat64 x}.Finite := by
  have : {x : ℝ | IsFloat64 x} ⊆
      (fun q : ℤ × ℤ => (q.1 : ℝ) * (2 : ℝ) ^ q.2) ''
        ((Set.Icc (-2 ^ 53) (2 ^ 53)) ×ˢ (Set.Icc (-1074) 971)) := by
    rintro x ⟨m, e, hm, h1, h2, rfl⟩
    have := abs_lt.1 hm
    exact ⟨(m, e), ⟨⟨this.1.le, this.2.le⟩, ⟨h1, h2⟩⟩, rfl⟩
  exact ((Set.Finite.prod (Set.finite_Icc _ _) (Set.finite_Icc _ _)).image _).subset this

/-- Rounding to nearest exists. -/
theorem exists_rounding : ∃ fl : ℝ → ℝ, RoundsToNearest fl := by
  have h : ∀ x : ℝ, ∃ f, IsFloat64 f ∧ ∀ y, IsFloat64 y → |f - x| ≤ |y - x| := by
    intro x
    obtain ⟨f, hf, hmin⟩ := Set.exists_min_image {x : ℝ | IsFloat64 x} (fun y => |y - x|)
      finite_float64 ⟨0, isFloat64_zero⟩
    exact ⟨f, hf, fun y hy => hmin y hy⟩
  choose fl hfl using h
  exact ⟨fl, hfl⟩

namespace RoundsToNearest

variable {fl : ℝ → ℝ}

theorem id (h : RoundsToNearest fl) {x : ℝ} (hx : IsFloat64 x) : fl x = x := by
  have := (h x).2 x hx
  rw [sub_self, abs_zero] at this
  have := abs_nonpos_iff.1 this
  linarith

theorem mono (h : RoundsToNearest fl) : Monotone fl := by
  intro x y hxy
  rcases hxy.lt_or_eq with hlt | rfl
  swap
  · exact le_rfl
  by_contra hcon
  rw [not_le] at hcon
  have h1 := (h x).2 _ (h y).1
  have h2 := (h y).2 _ (h x).1
  rcases abs_cases (fl x - x) with ⟨e1, _⟩ | ⟨e1, _⟩ <;>
  rcases abs_cases (fl y - x) with ⟨e2, _⟩ | ⟨e2, _⟩ <;>
  rcases abs_cases (fl y - y) with ⟨e3, _⟩ | ⟨e3, _⟩ <;>
  rcases abs_cases (fl x - y) with ⟨e4, _⟩ | ⟨e4, _⟩ <;> linarith

theorem zero (h : RoundsToNearest fl) : fl 0 = 0 := h.id isFloat64_zero

theorem one (h : RoundsToNearest fl) : fl 1 = 1 := h.id isFloat64_one

theorem nonneg (h : RoundsToNearest fl) {x : ℝ} (hx : 0 ≤ x) : 0 ≤ fl x := by
  rw [← h.zero]; exact h.mono hx

theorem le_float (h : RoundsToNearest fl) {x y : ℝ} (hy : IsFloat64 y) (hxy : x ≤ y) : fl x ≤ y := by
  rw [← h.id hy]; exact h.mono hxy

theorem float_le (h : RoundsToNearest fl) {x y : ℝ} (hx : IsFloat64 x) (hxy : x ≤ y) : x ≤ fl y := by
  rw [← h.id hx]; exact h.mono hxy

end RoundsToNearest

/-- Below 1 the double precision numbers stop at `1 - 2^-53`. -/
theorem float64_lt_one {y : ℝ} (hy : IsFloat64 y) (h : y < 1) : y ≤ 1 - (2 : ℝ) ^ (-53 : ℤ) := by
  obtain ⟨m, e, hm, h1, h2, rfl⟩ := hy
  have hm' : (m : ℝ) < 2 ^ 53 := by
    have := (abs_lt.1 hm).2
    exact_mod_cast this
  have hp : (0 : ℝ) < (2 : ℝ) ^ e := by positivity
  rcases lt_or_ge e (-53) with he | he
  · have h3 : (2 : ℝ) ^ e ≤ (2 : ℝ) ^ (-54 : ℤ) := zpow_le_zpow_right₀ (by norm_num) (by omega)
    have h4 : (m : ℝ) * (2 : ℝ) ^ e ≤ 2 ^ 53 * (2 : ℝ) ^ (-54 : ℤ) :=
      (mul_le_mul_of_nonneg_right hm'.le hp.le).trans (mul_le_mul_of_nonneg_left h3 (by positivity))
    refine h4.trans ?_
    norm_num
  · obtain ⟨k, hk⟩ : ∃ k : ℕ, e = -53 + k := ⟨(e + 53).toNat, by omega⟩
    subst hk
    rw [zpow_add₀ (by norm_num), zpow_natCast] at h ⊢
    have h5 : (m * 2 ^ k : ℤ) < 2 ^ 53 := by
      have : ((m * 2 ^ k : ℤ) : ℝ) * (2 : ℝ) ^ (-53 : ℤ) < 1 := by
        push_cast
        calc _ = (m : ℝ) * ((2 : ℝ) ^ (-53 : ℤ) * 2 ^ k) := by ring
          _ < 1 := h
      have h6 : ((m * 2 ^ k : ℤ) : ℝ) < 2 ^ 53 := by
        have e1 : (2 : ℝ) ^ (-53 : ℤ) = 1 / 2 ^ 53 := by norm_num
        rw [e1, mul_one_div, div_lt_one (by positivity)] at this
        exact this
      exact_mod_cast h6
    have h7 : ((m * 2 ^ k : ℤ) : ℝ) ≤ 2 ^ 53 - 1 := by
      have : (m * 2 ^ k : ℤ) ≤ 2 ^ 53 - 1 := by omega
      exact_mod_cast this
    calc (m : ℝ) * ((2 : ℝ) ^ (-53 : ℤ) * 2 ^ k)
        = ((m * 2 ^ k : ℤ) : ℝ) * (2 : ℝ) ^ (-53 : ℤ) := by push_cast; ring
      _ ≤ (2 ^ 53 - 1) * (2 : ℝ) ^ (-53 : ℤ) := mul_le_mul_of_nonneg_right h7 (by positivity)
      _ = 1 - (2 : ℝ) ^ (-53 : ℤ) := by norm_num

theorem isFloat64_pred_one : IsFloat64 (1 - (2 : ℝ) ^ (-53 : ℤ)) :=
  ⟨2 ^ 53 - 1, -53, by norm_num, by norm_num, by norm_num, by norm_num⟩

theorem isFloat64_two_zpow (m e : ℤ) (hm : |m| < 2 ^ 53) (h1 : -1074 ≤ e) (h2 : e ≤ 971) :
    IsFloat64 ((m : ℝ) * (2 : ℝ) ^ e) := ⟨m, e, hm, h1, h2, rfl⟩

/-- `1 - p` rounds to 1 when `p` is below half the spacing of the numbers under 1. -/
theorem RoundsToNearest.one_sub_tiny {fl : ℝ → ℝ} (h : RoundsToNearest fl) {p : ℝ} (h0 : 0 ≤ p)
    (hp : p < (2 : ℝ) ^ (-54 : ℤ)) : fl (1 - p) = 1 := by
  have hle : fl (1 - p) ≤ 1 := h.le_float isFloat64_one (by linarith)
  by_contra hne
  have hlt := float64_lt_one (h _).1 (lt_of_le_of_ne hle hne)
  have h1 := (h (1 - p)).2 1 isFloat64_one
  have e1 : (2 : ℝ) ^ (-53 : ℤ) = 2 * (2 : ℝ) ^ (-54 : ℤ) := by norm_num
  rw [e1] at hlt
  rw [abs_of_nonpos (by linarith), abs_of_nonneg (by linarith)] at h1
  linarith

/-- `1 - p` rounds to the number below 1 when `p` is between half of and one spacing. -/
theorem RoundsToNearest.one_sub_small {fl : ℝ → ℝ} (h : RoundsToNearest fl) {p : ℝ}
    (h0 : (2 : ℝ) ^ (-54 : ℤ) < p) (hp : p ≤ (2 : ℝ) ^ (-53 : ℤ)) :
    fl (1 - p) = 1 - (2 : ℝ) ^ (-53 : ℤ) := by
  have hge : 1 - (2 : ℝ) ^ (-53 : ℤ) ≤ fl (1 - p) := h.float_le isFloat64_pred_one (by linarith)
  have e0 : (0 : ℝ) < (2 : ℝ) ^ (-54 : ℤ) := by positivity
  have hle : fl (1 - p) ≤ 1 := h.le_float isFloat64_one (by linarith)
  rcases hle.lt_or_eq with hlt | heq
  · exact le_antisymm (float64_lt_one (h _).1 hlt) hge
  · exfalso
    have h1 := (h (1 - p)).2 _ isFloat64_pred_one
    have e1 : (2 : ℝ) ^ (-53 : ℤ) = 2 * (2 : ℝ) ^ (-54 : ℤ) := by norm_num
    rw [heq, e1] at h1
    rw [e1] at hp
    rw [abs_of_nonneg (by linarith), abs_of_nonpos (by linarith)] at h1
    linarith

/-- Around a positive multiple of `2^e` there are double precision numbers `y ≤ x ≤ z` with
`z ≤ 17/16 y`. -/
theorem float64_around_multiple (M : ℕ) (e : ℤ) (hM0 : 0 < M) (he1 : -1074 ≤ e)
    (hx : (M : ℝ) * (2 : ℝ) ^ e ≤ (2 : ℝ) ^ (900 : ℤ)) :
    ∃ y z, IsFloat64 y ∧ IsFloat64 z ∧ 0 < y ∧ y ≤ (M : ℝ) * (2 : ℝ) ^ e ∧
      (M : ℝ) * (2 : ℝ) ^ e ≤ z ∧ 16 * z ≤ 17 * y := by
  have hpe : (0 : ℝ) < (2 : ℝ) ^ e := by positivity
  have hM0' : (1 : ℝ) ≤ M := by exact_mod_cast hM0
  have he2 : e ≤ 900 := by
    have : (2 : ℝ) ^ e ≤ (2 : ℝ) ^ (900 : ℤ) := (le_mul_of_one_le_left hpe.le hM0').trans hx
    exact (zpow_le_zpow_iff_right₀ (by norm_num : (1 : ℝ) < 2)).1 this
  set j := Nat.log 2 M - 4 with hj
  have hlog : 2 ^ Nat.log 2 M ≤ M := Nat.pow_log_le_self 2 hM0.ne'
  have hlog' : M < 2 ^ (Nat.log 2 M + 1) := Nat.lt_pow_succ_log_self (by norm_num) M
  by_cases hsmall : Nat.log 2 M ≤ 4
  · have : M < 32 := hlog'.trans_le (by
      calc 2 ^ (Nat.log 2 M + 1) ≤ 2 ^ 5 := Nat.pow_le_pow_right (by norm_num) (by omega)
        _ = 32 := by norm_num)
    have hf : IsFloat64 ((M : ℝ) * (2 : ℝ) ^ e) :=
      ⟨M, e, by rw [abs_of_nonneg (by positivity)]; exact_mod_cast (by omega : M < 2 ^ 53), he1,
        by omega, by simp⟩
    have : 0 < (M : ℝ) * (2 : ℝ) ^ e := by positivity
    exact ⟨_, _, hf, hf, this, le_rfl, le_rfl, by linarith⟩
  · have hjl : Nat.log 2 M = j + 4 := by omega
    rw [hjl] at hlog hlog'
    set q := M / 2 ^ j with hq
    have hpow : 0 < 2 ^ j := by positivity
    have hq1 : q * 2 ^ j ≤ M := Nat.div_mul_le_self M _
    have hq2 : M < (q + 1) * 2 ^ j := by
      have := Nat.lt_div_mul_add (a := M) hpow
      rw [add_mul, one_mul]; exact this
    have hq3 : 16 ≤ q := by
      rw [hq, Nat.le_div_iff_mul_le hpow]
      calc 16 * 2 ^ j = 2 ^ (j + 4) := by ring
        _ ≤ M := hlog
    have hq4 : q < 32 := by
      rw [hq, Nat.div_lt_iff_lt_mul hpow]
      calc M < 2 ^ (j + 4 + 1) := hlog'
        _ = 32 * 2 ^ j := by ring
    have hz : (2 : ℝ) ^ (e + (j : ℤ)) = (2 : ℝ) ^ e * 2 ^ j := by
      rw [zpow_add₀ (by norm_num), zpow_natCast]
    have hexp : e + (j : ℤ) ≤ 971 := by
      have h2 : (2 : ℝ) ^ (e + (j : ℤ)) ≤ (2 : ℝ) ^ (900 : ℤ) := by
        have h3 : ((2 ^ (j + 4) : ℕ) : ℝ) ≤ M := by exact_mod_cast hlog
        rw [hz]
        push_cast at h3
        calc (2 : ℝ) ^ e * 2 ^ j ≤ (2 : ℝ) ^ e * 2 ^ (j + 4) := by
              refine mul_le_mul_of_nonneg_left ?_ hpe.le
              exact pow_le_pow_right₀ (by norm_num) (by omega)
          _ ≤ (2 : ℝ) ^ e * M := mul_le_mul_of_nonneg_left h3 hpe.le
          _ = (M : ℝ) * (2 : ℝ) ^ e := mul_comm _ _
          _ ≤ _ := hx
      have := (zpow_le_zpow_iff_right₀ (by norm_num : (1 : ℝ) < 2)).1 h2
      omega
    have hge : -1074 ≤ e + (j : ℤ) := by omega
    have c1 : (q : ℝ) * 2 ^ j ≤ M := by exact_mod_cast hq1
    have c2 : (M : ℝ) ≤ ((q + 1 : ℕ) : ℝ) * 2 ^ j := by exact_mod_cast hq2.le
    have c3 : (16 : ℝ) ≤ q := by exact_mod_cast hq3
    refine ⟨(q : ℤ) * (2 : ℝ) ^ (e + (j : ℤ)), ((q + 1 : ℕ) : ℤ) * (2 : ℝ) ^ (e + (j : ℤ)),
      ⟨q, _, by rw [abs_of_nonneg (by positivity)]; exact_mod_cast (by omega : q < 2 ^ 53), hge, hexp, rfl⟩,
      ⟨(q + 1 : ℕ), _, by rw [abs_of_nonneg (by positivity)]; exact_mod_cast (by omega : q + 1 < 2 ^ 53),
        hge, hexp, rfl⟩, ?_, ?_, ?_, ?_⟩
    · have : (0 : ℝ) < q := by linarith
      push_cast
      positivity
    · rw [hz]
      push_cast
      calc (q : ℝ) * ((2 : ℝ) ^ e * 2 ^ j) = (q * 2 ^ j) * (2 : ℝ) ^ e := by ring
        _ ≤ M * (2 : ℝ) ^ e := mul_le_mul_of_nonneg_right c1 hpe.le
    · rw [hz]
      push_cast at c2 ⊢
      calc (M : ℝ) * (2 : ℝ) ^ e ≤ ((q + 1) * 2 ^ j) * (2 : ℝ) ^ e :=
            mul_le_mul_of_nonneg_right c2 hpe.le
        _ = ((q : ℝ) + 1) * ((2 : ℝ) ^ e * 2 ^ j) := by ring
    · have : (0 : ℝ) < (2 : ℝ) ^ (e + (j : ℤ)) := by positivity
      push_cast
      nlinarith

/-- The same around a product of a double precision number with an integer. -/
theorem float64_around {p : ℝ} (hp : IsFloat64 p) (h0 : 0 < p) (n : ℕ) (hn : 0 < n)
    (hx : p * n ≤ (2 : ℝ) ^ (900 : ℤ)) : ∃ y z, IsFloat64 y ∧ IsFloat64 z ∧ 0 < y ∧ y ≤ p * n ∧
      p * n ≤ z ∧ 16 * z ≤ 17 * y := by
  obtain ⟨m, e, hm, he1, he2, rfl⟩ := hp
  have hpe : (0 : ℝ) < (2 : ℝ) ^ e := by positivity
  have hm0 : 0 < m := by
    have : (0 : ℝ) < m := pos_of_mul_pos_left h0 hpe.le
    exact_mod_cast this
  obtain ⟨k, rfl⟩ : ∃ k : ℕ, m = k := ⟨m.toNat, by omega⟩
  have hk0 : 0 < k := by exact_mod_cast hm0
  have hval : ((k : ℤ) : ℝ) * (2 : ℝ) ^ e * n = ((k * n : ℕ) : ℝ) * (2 : ℝ) ^ e := by
    push_cast; ring
  rw [hval] at hx ⊢
  exact float64_around_multiple _ e (Nat.mul_pos hk0 hn) he1 hx

/-- A sum of non-negative double precision numbers is a multiple of the smallest one. -/
theorem float64_sum (l : List ℝ) (hl : ∀ x ∈ l, IsFloat64 x ∧ 0 ≤ x) :
    ∃ M : ℕ, l.sum = (M : ℝ) * (2 : ℝ) ^ (-1074 : ℤ) := by
  induction l with
  | nil => exact ⟨0, by simp⟩
  | cons a l ih =>
    obtain ⟨M, hM⟩ := ih fun x hx => hl x (List.mem_cons_of_mem _ hx)
    obtain ⟨⟨m, e, hm, he1, he2, rfl⟩, h0⟩ := hl a List.mem_cons_self
    have hpe : (0 : ℝ) < (2 : ℝ) ^ e := by positivity
    have hm0 : 0 ≤ m := by
      have : (0 : ℝ) ≤ m := nonneg_of_mul_nonneg_left h0 hpe
      exact_mod_cast this
    obtain ⟨k, rfl⟩ : ∃ k : ℕ, m = k := ⟨m.toNat, by omega⟩
    obtain ⟨d, rfl⟩ : ∃ d : ℕ, e = -1074 + d := ⟨(e + 1074).toNat, by omega⟩
    refine ⟨k * 2 ^ d + M, ?_⟩
    rw [List.sum_cons, hM, zpow_add₀ (by norm_num), zpow_natCast]
    push_cast
    ring

/-- Rounding a sum of non-negative double precision numbers has a small relative error. -/
theorem RoundsToNearest.sum_error {fl : ℝ → ℝ} (h : RoundsToNearest fl) (l : List ℝ)
    (hl : ∀ x ∈ l, IsFloat64 x ∧ 0 ≤ x) (hsum : l.sum ≤ (2 : ℝ) ^ (900 : ℤ)) :
    |fl l.sum - l.sum| ≤ l.sum / 16 := by
  obtain ⟨M, hM⟩ := float64_sum l hl
  rcases Nat.eq_zero_or_pos M with rfl | hM0
  · rw [hM]
    simp [h.zero]
  · rw [hM] at hsum ⊢
    obtain ⟨y, z, hy, hz, h0, h1, h2, h3⟩ := float64_around_multiple M _ hM0 (by norm_num) hsum
    have b1 := h.float_le hy h1
    have b2 := h.le_float hz h2
    rw [abs_le]
    constructor <;> linarith

end Pysatl.Spec

namespace Pysatl.Spec

/-- Rounding a number of `[0,1]` moves it by at most `2^-54`. -/
theorem RoundsToNearest.error_unit {fl : ℝ → ℝ} (h : RoundsToNearest fl) {x : ℝ} (h0 : 0 ≤ x)
    (h1 : x ≤ 1) : |fl x - x| ≤ (2 : ℝ) ^ (-54 : ℤ) := by
  set M : ℕ := ⌊x * 2 ^ 53 + 1 / 2⌋₊ with hM
  have hx : 0 ≤ x * 2 ^ 53 + 1 / 2 := by positivity
  have hM1 : (M : ℝ) ≤ x * 2 ^ 53 + 1 / 2 := Nat.floor_le hx
  have hM2 : x * 2 ^ 53 + 1 / 2 < M + 1 := Nat.lt_floor_add_one _
  have hM3 : M ≤ 2 ^ 53 := by
    have h2 : (M : ℝ) < ((2 ^ 53 + 1 : ℕ) : ℝ) := by
      have : x * 2 ^ 53 ≤ 1 * 2 ^ 53 := mul_le_mul_of_nonneg_right h1 (by positivity)
      push_cast
      linarith
    have : M < 2 ^ 53 + 1 := by exact_mod_cast h2
    omega
  have hf : IsFloat64 ((M : ℝ) * (2 : ℝ) ^ (-53 : ℤ)) := by
    rcases hM3.lt_or_eq with hlt | heq
    · exact ⟨M, -53, by rw [abs_of_nonneg (by positivity)]; exact_mod_cast hlt, by norm_num,
        by norm_num, by simp⟩
    · rw [heq]
      have : (((2 ^ 53 : ℕ) : ℝ)) * (2 : ℝ) ^ (-53 : ℤ) = 1 := by norm_num
      rw [this]
      exact isFloat64_one
  refine ((h x).2 _ hf).trans ?_
  have e1 : (2 : ℝ) ^ (-53 : ℤ) = 1 / 2 ^ 53 := by norm_num
  have e2 : (2 : ℝ) ^ (-54 : ℤ) = 1 / 2 * (1 / 2 ^ 53) := by norm_num
  have e3 : (M : ℝ) * (2 : ℝ) ^ (-53 : ℤ) - x = ((M : ℝ) - x * 2 ^ 53) * (1 / 2 ^ 53) := by
    rw [e1]; field_simp
  rw [e3, e2, abs_mul, abs_of_pos (by positivity : (0 : ℝ) < 1 / 2 ^ 53)]
  refine mul_le_mul_of_nonneg_right ?_ (by positivity)
  rw [abs_le]
  constructor <;> linarith

/-- A double precision number that is at least `2^k` is a multiple of `2^(k-52)`. -/
theorem float64_multiple {y : ℝ} (hy : IsFloat64 y) (k : ℤ) (h : (2 : ℝ) ^ k ≤ y) :
    ∃ j : ℤ, y = j * (2 : ℝ) ^ (k - 52) := by
  obtain ⟨m, e, hm, h1, h2, rfl⟩ := hy
  have hm' : (m : ℝ) < (2 : ℝ) ^ (53 : ℤ) := by
    have := (abs_lt.1 hm).2
    have h3 : (m : ℝ) < ((2 ^ 53 : ℤ) : ℝ) := by exact_mod_cast this
    rw [show (2 : ℝ) ^ (53 : ℤ) = ((2 ^ 53 : ℤ) : ℝ) by norm_num]
    exact h3
  have hpe : (0 : ℝ) < (2 : ℝ) ^ e := by positivity
  have hlt : (2 : ℝ) ^ k < (2 : ℝ) ^ (53 + e) := by
    rw [zpow_add₀ (by norm_num)]
    exact h.trans_lt (mul_lt_mul_of_pos_right hm' hpe)
  have hke : k < 53 + e := (zpow_lt_zpow_iff_right₀ (by norm_num : (1 : ℝ) < 2)).1 hlt
  obtain ⟨d, hd⟩ : ∃ d : ℕ, e = k - 52 + d := ⟨(e - (k - 52)).toNat, by omega⟩
  refine ⟨m * 2 ^ d, ?_⟩
  rw [hd, zpow_add₀ (by norm_num), zpow_natCast]
  push_cast
  ring

/-- Rounding to a number one knows to be near, between `2^k` and the next power. -/
theorem RoundsToNearest.eq_of_near {fl : ℝ → ℝ} (h : RoundsToNearest fl) {x : ℝ} (M k : ℤ)
    (hf : IsFloat64 (M * (2 : ℝ) ^ (k - 52))) (hk : (2 : ℝ) ^ k ≤ (M - 1) * (2 : ℝ) ^ (k - 52))
    (hnear : |M * (2 : ℝ) ^ (k - 52) - x| < 1 / 2 * (2 : ℝ) ^ (k - 52)) :
    fl x = M * (2 : ℝ) ^ (k - 52) := by
  have h1 := ((h x).2 _ hf).trans_lt hnear
  have hu : (0 : ℝ) < (2 : ℝ) ^ (k - 52) := by positivity
  rw [abs_lt] at h1 hnear
  have hge : (2 : ℝ) ^ k ≤ fl x := by
    have : ((M : ℝ) - 1) * (2 : ℝ) ^ (k - 52) = M * (2 : ℝ) ^ (k - 52) - (2 : ℝ) ^ (k - 52) := by ring
    linarith [h1.1, hnear.2]
  obtain ⟨j, hj⟩ := float64_multiple (h x).1 k hge
  rw [hj] at h1 ⊢
  have a1 : ((j : ℝ) - M) * (2 : ℝ) ^ (k - 52) < 1 * (2 : ℝ) ^ (k - 52) := by
    have : ((j : ℝ) - M) * (2 : ℝ) ^ (k - 52) = j * (2 : ℝ) ^ (k - 52) - M * (2 : ℝ) ^ (k - 52) := by ring
    linarith [h1.2, hnear.1]
  have a2 : ((M : ℝ) - j) * (2 : ℝ) ^ (k - 52) < 1 * (2 : ℝ) ^ (k - 52) := by
    have : ((M : ℝ) - j) * (2 : ℝ) ^ (k - 52) = M * (2 : ℝ) ^ (k - 52) - j * (2 : ℝ) ^ (k - 52) := by ring
    linarith [h1.1, hnear.2]
  have b1 : (j : ℝ) - M < 1 := lt_of_mul_lt_mul_right a1 hu.le
  have b2 : (M : ℝ) - j < 1 := lt_of_mul_lt_mul_right a2 hu.le
  have c1 : j - M < 1 := by exact_mod_cast b1
  have c2 : M - j < 1 := by exact_mod_cast b2
  have : j = M := by omega
  rw [this]

end Pysatl.Spec
