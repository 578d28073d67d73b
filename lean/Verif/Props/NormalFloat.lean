import Verif.Model.NormalFloat
import Verif.Lemmas.Float64Error
import Verif.Lemmas.Edf
import Verif.Lemmas.Likelihood
import Verif.Lemmas.Exponent

/-!
# C144: shifts that double precision represents exactly
-/

namespace Pysatl.Props

open Pysatl.Normal Pysatl.Graph Pysatl.Spec

/-- Rounding an integer to a multiple of `2^d` that is less than half a step away. -/
theorem fl_int {fl : ℝ → ℝ} (h : RoundsToNearest fl) (x M : ℤ) (d : ℕ) (hd : d ≤ 900)
    (h1 : 2 ^ 52 + 1 ≤ M) (h2 : M < 2 ^ 53) (hx : 2 * |M * 2 ^ d - x| < 2 ^ d) :
    fl (x : ℝ) = ((M * 2 ^ d : ℤ) : ℝ) := by
  have e : ((52 + d : ℕ) : ℤ) - 52 = (d : ℤ) := by push_cast; ring
  have := h.eq_of_near (x := (x : ℝ)) M ((52 + d : ℕ) : ℤ) (by
    rw [e]
    exact isFloat64_two_zpow M d (by rw [abs_lt]; constructor <;> omega) (by omega) (by omega)) (by
    rw [e, zpow_natCast, zpow_natCast, pow_add]
    have : (2 : ℝ) ^ 52 ≤ (M : ℝ) - 1 := by
      have h3 : ((2 ^ 52 + 1 : ℤ) : ℝ) ≤ ((M : ℤ) : ℝ) := by exact_mod_cast h1
      push_cast at h3
      linarith
    exact mul_le_mul_of_nonneg_right this (by positivity)) (by
    rw [e, zpow_natCast]
    have : ((2 * |M * 2 ^ d - x| : ℤ) : ℝ) < ((2 ^ d : ℤ) : ℝ) := by exact_mod_cast hx
    push_cast at this
    linarith)
  rw [this, e, zpow_natCast]
  push_cast
  ring

/-- An integer below `2^53` is exact. -/
theorem fl_small {fl : ℝ → ℝ} (h : RoundsToNearest fl) (k : ℕ) (hk : k < 2 ^ 53) :
    fl (k : ℝ) = k := h.id (isFloat64_nat k hk)

/-- The variance that the code computes of four times in seconds since 1970, two of them
1757700000 and two of them two seconds later, is negative. -/
theorem onePassVar_times {fl : ℝ → ℝ} (h : RoundsToNearest fl) :
    Rounded.onePassVar fl [1757700000, 1757700000, 1757700002, 1757700002] = -512 := by
  have s1 : fl 1757700000 = 1757700000 := by simpa using fl_small h 1757700000 (by norm_num)
  have s2 : fl (1757700000 + 1757700000) = 3515400000 := by
    have := fl_small h 3515400000 (by norm_num); norm_num at this ⊢; exact this
  have s3 : fl (3515400000 + 1757700002) = 5273100002 := by
    have := fl_small h 5273100002 (by norm_num); norm_num at this ⊢; exact this
  have s4 : fl (5273100002 + 1757700002) = 7030800004 := by
    have := fl_small h 7030800004 (by norm_num); norm_num at this ⊢; exact this
  have s5 : fl (7030800004 / 4) = 1757700001 := by
    have := fl_small h 1757700001 (by norm_num); norm_num at this ⊢; exact this
  have q1 : fl (1757700000 ^ 2) = 3089509290000000000 := by
    have := fl_int h (1757700000 ^ 2) 6034197832031250 9 (by norm_num) (by norm_num) (by norm_num)
      (by norm_num)
    norm_num at this ⊢; exact this
  have q2 : fl (1757700002 ^ 2) = 3089509297030799872 := by
    have := fl_int h (1757700002 ^ 2) 6034197845763281 9 (by norm_num) (by norm_num) (by norm_num) (by norm_num)
    norm_num at this ⊢; exact this
  have r2 : fl (3089509290000000000 + 3089509290000000000) = 6179018580000000000 := by
    have := fl_int h (6179018580000000000) 6034197832031250 10 (by norm_num) (by norm_num) (by norm_num) (by norm_num)
    norm_num at this ⊢; exact this
  have r3 : fl (6179018580000000000 + 3089509297030799872) = 9268527877030799360 := by
    have := fl_int h (9268527877030799872) 4525648377456445 11 (by norm_num) (by norm_num) (by norm_num) (by norm_num)
    norm_num at this ⊢; exact this
  have r4 : fl (9268527877030799360 + 3089509297030799872) = 12358037174061598720 := by
    have := fl_int h (12358037174061599232) 6034197838897265 11 (by norm_num) (by norm_num) (by norm_num) (by norm_num)
    norm_num at this ⊢; exact this
  have r5 : fl (12358037174061598720 / 4) = 3089509293515399680 := by
    have := fl_int h (3089509293515399680) 6034197838897265 9 (by norm_num) (by norm_num) (by norm_num) (by norm_num)
    norm_num at this ⊢; exact this
  have m2 : fl (1757700001 ^ 2) = 3089509293515400192 := by
    have := fl_int h (1757700001 ^ 2) 6034197838897266 9 (by norm_num) (by norm_num) (by norm_num) (by norm_num)
    norm_num at this ⊢; exact this
  have z : fl (-512) = -512 := by
    have := h.id (IsFloat64.neg (isFloat64_nat 512 (by norm_num)))
    norm_num at this ⊢; exact this
  have r1 : fl 3089509290000000000 = 3089509290000000000 := h.id (by rw [← q1]; exact (h _).1)
  simp only [Rounded.onePassVar, Rounded.rmean, Rounded.seqSum, List.map_cons, List.map_nil,
    List.foldl_cons, List.foldl_nil, List.length_cons, List.length_nil, q1, q2, zero_add, s1, s2, s3,
    s4, r1, r2, r3, r4]
  rw [show ((0 + 1 + 1 + 1 + 1 : ℕ) : ℝ) = 4 by norm_num, s5, r5, m2]
  norm_num
  exact z

/-- The accumulated error of the one-pass variance. -/
theorem onePass_accumulate {u n M η σ s' a μ T' m b v : ℝ} (hu : 0 < u) (hn : 1 ≤ n)
    (hnu : n * u ≤ 1 / 2 ^ 13) (hM : 0 < M) (hη1 : η ≤ u * M ^ 2) (hη2 : η ≤ u * M)
    (hσ0 : 0 ≤ σ) (hσ : σ ≤ M ^ 2) (hs : |s' - σ| ≤ 5 * (n * u) * M ^ 2)
    (ha : |s'| ≤ 2 * M ^ 2 → |a - s'| ≤ u * |s'| + η) (hμ : |μ| ≤ M) (hT : |T' - μ| ≤ 2 * (n * u) * M)
    (hm : |T'| ≤ 2 * M → |m - T'| ≤ u * |T'| + η)
    (hb : |m ^ 2| ≤ 4 * M ^ 2 → |b - m ^ 2| ≤ u * |m ^ 2| + η)
    (hv : |a - b| ≤ 2 * M ^ 2 → |v - (a - b)| ≤ u * |a - b|) :
    |v - (σ - μ ^ 2)| ≤ 32 * (n * u) * M ^ 2 := by
  have hun : u ≤ n * u := by nlinarith
  set w := n * u with hw
  have hw0 : 0 < w := by positivity
  have hM2 : 0 < M ^ 2 := by positivity
  have wM : w * M ≤ 1 / 2 ^ 13 * M := mul_le_mul_of_nonneg_right hnu hM.le
  have wM2 : w * M ^ 2 ≤ 1 / 2 ^ 13 * M ^ 2 := mul_le_mul_of_nonneg_right hnu hM2.le
  have uM : u * M ≤ w * M := mul_le_mul_of_nonneg_right hun hM.le
  have uM2 : u * M ^ 2 ≤ w * M ^ 2 := mul_le_mul_of_nonneg_right hun hM2.le
  have wM0 : 0 ≤ w * M := by positivity
  have wM20 : 0 ≤ w * M ^ 2 := by positivity
  have s1 : |s'| ≤ 2 * M ^ 2 := by
    have := abs_add_le (s' - σ) σ
    rw [sub_add_cancel, abs_of_nonneg hσ0] at this
    norm_num at wM2
    linarith
  replace ha := ha s1
  have a1 : |a - σ| ≤ 8 * (w * M ^ 2) := by
    have h1 := abs_add_le (a - s') (s' - σ)
    rw [sub_add_sub_cancel] at h1
    have h2 : u * |s'| ≤ u * (2 * M ^ 2) := mul_le_mul_of_nonneg_left s1 hu.le
    linarith
  have T1 : |T'| ≤ 2 * M := by
    have := abs_add_le (T' - μ) μ
    rw [sub_add_cancel] at this
    norm_num at wM
    linarith
  replace hm := hm T1
  have m1 : |m - μ| ≤ 5 * (w * M) := by
    have h1 := abs_add_le (m - T') (T' - μ)
    rw [sub_add_sub_cancel] at h1
    have h2 : u * |T'| ≤ u * (2 * M) := mul_le_mul_of_nonneg_left T1 hu.le
    linarith
  have m2 : |m| ≤ 2 * M := by
    have := abs_add_le (m - μ) μ
    rw [sub_add_cancel] at this
    norm_num at wM
    linarith
  have m3 : |m + μ| ≤ 3 * M := (abs_add_le _ _).trans (by linarith)
  have m4 : |m ^ 2 - μ ^ 2| ≤ 15 * (w * M ^ 2) := by
    rw [show m ^ 2 - μ ^ 2 = (m - μ) * (m + μ) by ring, abs_mul]
    calc |m - μ| * |m + μ| ≤ 5 * (w * M) * (3 * M) :=
          mul_le_mul m1 m3 (abs_nonneg _) (by linarith)
      _ = 15 * (w * M ^ 2) := by ring
  have m5 : |m ^ 2| ≤ 4 * M ^ 2 := by
    rw [abs_pow]
    calc |m| ^ 2 ≤ (2 * M) ^ 2 := pow_le_pow_left₀ (abs_nonneg _) m2 2
      _ = 4 * M ^ 2 := by ring
  replace hb := hb m5
  have b1 : |b - μ ^ 2| ≤ 20 * (w * M ^ 2) := by
    have h1 := abs_add_le (b - m ^ 2) (m ^ 2 - μ ^ 2)
    rw [sub_add_sub_cancel] at h1
    have h2 : u * |m ^ 2| ≤ u * (4 * M ^ 2) := mul_le_mul_of_nonneg_left m5 hu.le
    linarith
  have c1 : |a - b - (σ - μ ^ 2)| ≤ 28 * (w * M ^ 2) := by
    rw [show a - b - (σ - μ ^ 2) = (a - σ) + -(b - μ ^ 2) by ring]
    have h1 := abs_add_le (a - σ) (-(b - μ ^ 2))
    rw [abs_neg] at h1
    linarith
  have c2 : |σ - μ ^ 2| ≤ M ^ 2 := by
    have : μ ^ 2 ≤ M ^ 2 := by rw [← sq_abs]; exact pow_le_pow_left₀ (abs_nonneg _) hμ 2
    exact abs_le.2 ⟨by linarith, by linarith [sq_nonneg μ]⟩
  have c3 : |a - b| ≤ 2 * M ^ 2 := by
    have := abs_add_le (a - b - (σ - μ ^ 2)) (σ - μ ^ 2)
    rw [sub_add_cancel] at this
    norm_num at wM2
    linarith
  replace hv := hv c3
  have h1 := abs_add_le (v - (a - b)) (a - b - (σ - μ ^ 2))
  rw [sub_add_sub_cancel] at h1
  have h2 : u * |a - b| ≤ u * (2 * M ^ 2) := mul_le_mul_of_nonneg_left c3 hu.le
  nlinarith

/-- The loops of the code add a list up. -/
theorem seqSum_sumsTo {fl : ℝ → ℝ} (h : RoundsToNearest fl) {l : List ℝ} (hl : l ≠ [])
    (hf : ∀ x ∈ l, IsFloat64 x) : SumsTo fl l (Rounded.seqSum fl l) := by
  obtain ⟨a, l, rfl⟩ := List.exists_cons_of_ne_nil hl
  have : ∀ (l l₀ : List ℝ) (s : ℝ), SumsTo fl l₀ s →
      SumsTo fl (l₀ ++ l) (l.foldl (fun a x => fl (a + x)) s) := by
    intro l
    induction l with
    | nil => intro l₀ s hs; simpa using hs
    | cons x l ih =>
      intro l₀ s hs
      rw [List.foldl_cons, show l₀ ++ x :: l = (l₀ ++ [x]) ++ l by simp]
      exact ih _ _ (SumsTo.add hs (SumsTo.one x) (List.Perm.refl _))
  rw [Rounded.seqSum, List.foldl_cons, zero_add, h.id (hf a (by simp))]
  exact this l [a] a (SumsTo.one a)

theorem sum_le_card_mul {l : List ℝ} {b : ℝ} (h : ∀ x ∈ l, x ≤ b) : l.sum ≤ l.length * b := by
  have := List.sum_le_card_nsmul l b h
  rwa [nsmul_eq_mul] at this

theorem sum_map_sub_le {l : List ℝ} {f g : ℝ → ℝ} {b : ℝ} (h : ∀ x ∈ l, |f x - g x| ≤ b) :
    |(l.map f).sum - (l.map g).sum| ≤ l.length * b := by
  induction l with
  | nil => simp
  | cons a l ih =>
    have h1 := ih fun x hx => h x (List.mem_cons_of_mem _ hx)
    have h2 := h a (by simp)
    rw [List.map_cons, List.map_cons, List.sum_cons, List.sum_cons, List.length_cons]
    push_cast
    rw [show f a + (l.map f).sum - (g a + (l.map g).sum) =
      (f a - g a) + ((l.map f).sum - (l.map g).sum) by ring]
    exact (abs_add_le _ _).trans (by linarith)

/-- The error of the one-pass variance, from the errors of the operations. -/
theorem onePassVar_error_aux {fl : ℝ → ℝ} (h : RoundsToNearest fl) {xs : List ℝ} (hne : xs ≠ [])
    (hn : xs.length ≤ 2 ^ 40) (hf : ∀ x ∈ xs, IsFloat64 x) {M u η : ℝ} (hM0 : 0 < M) (hu : 0 < u)
    (hu8 : u ≤ 1 / 8) (unu : xs.length * u ≤ 1 / 2 ^ 13) (hη1 : η ≤ u * M ^ 2) (hη2 : η ≤ u * M)
    (hx : ∀ x ∈ xs, |x| ≤ M) (err2 : ∀ x, |x| ≤ 4 * M ^ 2 → |fl x - x| ≤ u * |x| + η)
    (err1 : ∀ x, |x| ≤ 4 * M → |fl x - x| ≤ u * |x| + η)
    (errs : ∀ a b, IsFloat64 a → IsFloat64 b → |a - b| ≤ 2 * M ^ 2 →
      |fl (a - b) - (a - b)| ≤ u * |a - b|)
    (esum : ∀ l s, SumsTo fl l s → (∀ x ∈ l, IsFloat64 x) → l.length ≤ 2 ^ 40 →
      ((l.map (|·|)).sum ≤ l.length * (2 * M ^ 2) ∨ (l.map (|·|)).sum ≤ l.length * M) →
      |s - l.sum| ≤ 2 * ((l.length : ℝ) - 1) * u * (l.map (|·|)).sum) :
    |Rounded.onePassVar fl xs - variance xs| ≤ 32 * (xs.length * u) * M ^ 2 := by
  have hpos : 0 < xs.length := List.length_pos_iff.2 hne
  have hn1 : (1 : ℝ) ≤ xs.length := by exact_mod_cast hpos
  have hn40 : (xs.length : ℝ) ≤ 2 ^ 40 := by exact_mod_cast hn
  -- the squares
  have sqb : ∀ x ∈ xs, |x ^ 2| ≤ M ^ 2 := fun x hx' => by
    rw [abs_pow]; exact pow_le_pow_left₀ (abs_nonneg _) (hx x hx') 2
  set Q := xs.map fun x => fl (x ^ 2) with hQ
  have Qn : ∀ q ∈ Q, 0 ≤ q ∧ q ≤ 2 * M ^ 2 ∧ IsFloat64 q := by
    intro q hq
    obtain ⟨x, hx', rfl⟩ := List.mem_map.1 hq
    refine ⟨h.nonneg (sq_nonneg x), ?_, (h _).1⟩
    have e := err2 (x ^ 2) ((sqb x hx').trans (by nlinarith))
    have e1 := (abs_le.1 e).2
    have e2 := (abs_le.1 (sqb x hx')).2
    have e3 : u * |x ^ 2| ≤ u * M ^ 2 :=
      mul_le_mul_of_nonneg_left (sqb x hx') (by positivity)
    have e5 : u * M ^ 2 ≤ 1 / 8 * M ^ 2 := mul_le_mul_of_nonneg_right hu8 (by positivity)
    have : 0 ≤ M ^ 2 := by positivity
    nlinarith
  have Qlen : Q.length = xs.length := by simp [hQ]
  have Qne : Q ≠ [] := by rw [← List.length_pos_iff, Qlen]; exact hpos
  have Qabs : (Q.map (|·|)).sum = Q.sum := by
    congr 1
    conv_rhs => rw [← List.map_id Q]
    exact List.map_congr_left fun x hx => abs_of_nonneg (Qn x hx).1
  have Qdiff : |Q.sum - (xs.map fun x => x ^ 2).sum| ≤ xs.length * (2 * (u * M ^ 2)) := by
    refine sum_map_sub_le fun x hx' => ?_
    have e := err2 (x ^ 2) ((sqb x hx').trans (by nlinarith))
    have e3 : u * |x ^ 2| ≤ u * M ^ 2 :=
      mul_le_mul_of_nonneg_left (sqb x hx') (by positivity)
    linarith
  have Qle : Q.sum ≤ xs.length * (2 * M ^ 2) := by
    rw [← Qlen]
    exact sum_le_card_mul fun q hq => (Qn q hq).2.1
  have Q0 : 0 ≤ Q.sum := List.sum_nonneg fun q hq => (Qn q hq).1
  have eQ := esum Q _ (seqSum_sumsTo h Qne fun q hq => (Qn q hq).2.2)
    (fun q hq => (Qn q hq).2.2) (by rw [Qlen]; exact hn) (by rw [Qabs, Qlen]; exact Or.inl Qle)
  rw [Qabs, Qlen] at eQ
  -- the observations
  have Xabs : (xs.map (|·|)).sum ≤ xs.length * M := by
    have := sum_le_card_mul (l := xs.map (|·|)) (b := M) (by
      intro y hy
      obtain ⟨x, hx', rfl⟩ := List.mem_map.1 hy
      exact hx x hx')
    rwa [List.length_map] at this
  have eX := esum xs _ (seqSum_sumsTo h hne hf) hf hn (Or.inr Xabs)
  have Xs : |xs.sum| ≤ xs.length * M := by
    have : ∀ l : List ℝ, |l.sum| ≤ (l.map (|·|)).sum := by
      intro l
      induction l with
      | nil => simp
      | cons a l ih =>
        rw [List.sum_cons, List.map_cons, List.sum_cons]
        exact (abs_add_le _ _).trans (by linarith)
    exact (this xs).trans Xabs
  have S2le : (xs.map fun x => x ^ 2).sum ≤ xs.length * M ^ 2 := by
    have := sum_le_card_mul (l := xs.map fun x => x ^ 2) (b := M ^ 2) (by
      intro y hy
      obtain ⟨x, hx', rfl⟩ := List.mem_map.1 hy
      exact (abs_le.1 (sqb x hx')).2)
    rwa [List.length_map] at this
  have S20 : 0 ≤ (xs.map fun x => x ^ 2).sum := List.sum_nonneg (by
    intro y hy
    obtain ⟨x, -, rfl⟩ := List.mem_map.1 hy
    exact sq_nonneg x)
  have hvar : variance xs = (xs.map fun x => x ^ 2).sum / xs.length - (xs.sum / xs.length) ^ 2 := by
    have hn0 : (xs.length : ℝ) ≠ 0 := by linarith
    rw [variance, Likelihood.sum_sq_expand, mean]
    field_simp
    ring
  have fa : IsFloat64 (fl (Rounded.seqSum fl Q / xs.length)) := (h _).1
  have fb : IsFloat64 (fl (Rounded.rmean fl xs ^ 2)) := (h _).1
  have key := onePass_accumulate (u := u) (n := xs.length) (M := M)
    (η := η) (σ := (xs.map fun x => x ^ 2).sum / xs.length)
    (s' := Rounded.seqSum fl Q / xs.length) (a := fl (Rounded.seqSum fl Q / xs.length))
    (μ := xs.sum / xs.length) (T' := Rounded.seqSum fl xs / xs.length) (m := Rounded.rmean fl xs)
    (b := fl (Rounded.rmean fl xs ^ 2)) (v := Rounded.onePassVar fl xs) hu hn1 unu hM0 hη1 hη2
    (by positivity) (by rw [div_le_iff₀ (by linarith)]; linarith)
    (by
      rw [← sub_div, abs_div, abs_of_pos (show (0 : ℝ) < xs.length by linarith),
        div_le_iff₀ (by linarith)]
      have e1 := abs_add_le (Rounded.seqSum fl Q - Q.sum) (Q.sum - (xs.map fun x => x ^ 2).sum)
      rw [sub_add_sub_cancel] at e1
      have e2 : Q.sum ≤ xs.length * M ^ 2 + xs.length * (2 * (u * M ^ 2)) := by
        linarith [(abs_le.1 Qdiff).2]
      have e3 : Q.sum ≤ xs.length * (5 / 4 * M ^ 2) := by
        have : u * M ^ 2 ≤ 1 / 8 * M ^ 2 :=
          mul_le_mul_of_nonneg_right hu8 (by positivity)
        nlinarith
      have e4 : 2 * ((xs.length : ℝ) - 1) * u * Q.sum ≤ 2 * xs.length * u * (xs.length * (5 / 4 * M ^ 2)) := by
        refine mul_le_mul ?_ e3 Q0 (by positivity)
        nlinarith
      have e5 : (xs.length : ℝ) * (2 * (u * M ^ 2)) ≤ xs.length * xs.length * (2 * (u * M ^ 2)) := by
        have : 0 ≤ (xs.length : ℝ) * (2 * (u * M ^ 2)) := by positivity
        nlinarith
      have e6 : 0 ≤ (xs.length : ℝ) * xs.length * (u * M ^ 2) := by positivity
      nlinarith)
    (fun hs => err2 _ (hs.trans (by nlinarith)))
    (by
      rw [abs_div, abs_of_pos (show (0 : ℝ) < xs.length by linarith), div_le_iff₀ (by linarith)]
      linarith)
    (by
      rw [← sub_div, abs_div, abs_of_pos (show (0 : ℝ) < xs.length by linarith),
        div_le_iff₀ (by linarith)]
      refine eX.trans ?_
      calc 2 * ((xs.length : ℝ) - 1) * u * (xs.map (|·|)).sum
          ≤ 2 * xs.length * u * (xs.length * M) := by
            refine mul_le_mul ?_ Xabs (List.sum_nonneg (by
              intro y hy
              obtain ⟨x, -, rfl⟩ := List.mem_map.1 hy
              exact abs_nonneg x)) (by positivity)
            nlinarith
        _ = _ := by ring)
    (fun hs => err1 _ (hs.trans (by nlinarith)))
    (fun hs => err2 _ hs)
    (fun hs => errs _ _ fa fb hs)
  rw [hvar]
  exact key

/-- **C144** (accuracy).  For at most `2^40` double precision observations of absolute value at most
`M`, the variance that D'Agostino and Bontemps-Meddahi compute is within `n 2^-48 M²` of the
variance. -/
theorem C144_variance_partial {fl : ℝ → ℝ} (h : RoundsToNearest fl) {xs : List ℝ} (hne : xs ≠ [])
    (hn : xs.length ≤ 2 ^ 40) (hf : ∀ x ∈ xs, IsFloat64 x) {M : ℝ} (hM1 : (2 : ℝ) ^ (-400 : ℤ) ≤ M)
    (hM2 : M ≤ (2 : ℝ) ^ (400 : ℤ)) (hx : ∀ x ∈ xs, |x| ≤ M) :
    |Rounded.onePassVar fl xs - variance xs| ≤ xs.length * (2 : ℝ) ^ (-48 : ℤ) * M ^ 2 := by
  have hM0 : 0 < M := lt_of_lt_of_le (by positivity) hM1
  have hMM : M ^ 2 ≤ (2 : ℝ) ^ (800 : ℤ) := by
    calc M ^ 2 ≤ ((2 : ℝ) ^ (400 : ℤ)) ^ 2 := pow_le_pow_left₀ hM0.le hM2 2
      _ = (2 : ℝ) ^ (800 : ℤ) := by rw [← zpow_natCast, ← zpow_mul]; norm_num
  have hMM' : (2 : ℝ) ^ (-800 : ℤ) ≤ M ^ 2 := by
    calc (2 : ℝ) ^ (-800 : ℤ) = ((2 : ℝ) ^ (-400 : ℤ)) ^ 2 := by
          rw [← zpow_natCast, ← zpow_mul]; norm_num
      _ ≤ M ^ 2 := pow_le_pow_left₀ (by positivity) hM1 2
  have z : ∀ a b : ℤ, a ≤ b → (2 : ℝ) ^ a ≤ (2 : ℝ) ^ b := fun a b h =>
    zpow_le_zpow_right₀ (by norm_num) h
  have hη1 : (2 : ℝ) ^ (-1075 : ℤ) ≤ (2 : ℝ) ^ (-53 : ℤ) * M ^ 2 := by
    calc (2 : ℝ) ^ (-1075 : ℤ) ≤ (2 : ℝ) ^ (-853 : ℤ) := z _ _ (by norm_num)
      _ = (2 : ℝ) ^ (-53 : ℤ) * (2 : ℝ) ^ (-800 : ℤ) := by
        rw [← zpow_add₀ (by norm_num)]; norm_num
      _ ≤ _ := mul_le_mul_of_nonneg_left hMM' (by positivity)
  have hη2 : (2 : ℝ) ^ (-1075 : ℤ) ≤ (2 : ℝ) ^ (-53 : ℤ) * M := by
    calc (2 : ℝ) ^ (-1075 : ℤ) ≤ (2 : ℝ) ^ (-453 : ℤ) := z _ _ (by norm_num)
      _ = (2 : ℝ) ^ (-53 : ℤ) * (2 : ℝ) ^ (-400 : ℤ) := by
        rw [← zpow_add₀ (by norm_num)]; norm_num
      _ ≤ _ := mul_le_mul_of_nonneg_left hM1 (by positivity)
  have z2 : 4 * (2 : ℝ) ^ (800 : ℤ) ≤ (2 : ℝ) ^ (1023 : ℤ) := by
    calc 4 * (2 : ℝ) ^ (800 : ℤ) = (2 : ℝ) ^ (802 : ℤ) := by
          rw [show (802 : ℤ) = 2 + 800 by norm_num, zpow_add₀ (by norm_num)]; norm_num
      _ ≤ _ := z _ _ (by norm_num)
  have z3 : 4 * (2 : ℝ) ^ (400 : ℤ) ≤ (2 : ℝ) ^ (1023 : ℤ) := by
    calc 4 * (2 : ℝ) ^ (400 : ℤ) = (2 : ℝ) ^ (402 : ℤ) := by
          rw [show (402 : ℤ) = 2 + 400 by norm_num, zpow_add₀ (by norm_num)]; norm_num
      _ ≤ _ := z _ _ (by norm_num)
  have z4 : (2 : ℝ) ^ (40 : ℕ) * (2 * (2 : ℝ) ^ (800 : ℤ)) ≤ (2 : ℝ) ^ (1000 : ℤ) := by
    calc (2 : ℝ) ^ (40 : ℕ) * (2 * (2 : ℝ) ^ (800 : ℤ)) = (2 : ℝ) ^ (841 : ℤ) := by
          rw [show (841 : ℤ) = 41 + 800 by norm_num, zpow_add₀ (by norm_num), ← mul_assoc]; norm_num
      _ ≤ _ := z _ _ (by norm_num)
  have z5 : (2 : ℝ) ^ (40 : ℕ) * (2 : ℝ) ^ (400 : ℤ) ≤ (2 : ℝ) ^ (1000 : ℤ) := by
    calc (2 : ℝ) ^ (40 : ℕ) * (2 : ℝ) ^ (400 : ℤ) = (2 : ℝ) ^ (440 : ℤ) := by
          rw [show (440 : ℤ) = 40 + 400 by norm_num, zpow_add₀ (by norm_num)]; norm_num
      _ ≤ _ := z _ _ (by norm_num)
  have err2 : ∀ x, |x| ≤ 4 * M ^ 2 → |fl x - x| ≤ (2 : ℝ) ^ (-53 : ℤ) * |x| + (2 : ℝ) ^ (-1075 : ℤ) :=
    fun x hx => h.error_any (hx.trans ((mul_le_mul_of_nonneg_left hMM (by norm_num)).trans z2))
  have err1 : ∀ x, |x| ≤ 4 * M → |fl x - x| ≤ (2 : ℝ) ^ (-53 : ℤ) * |x| + (2 : ℝ) ^ (-1075 : ℤ) :=
    fun x hx => h.error_any (hx.trans ((mul_le_mul_of_nonneg_left hM2 (by norm_num)).trans z3))
  have errs : ∀ a b, IsFloat64 a → IsFloat64 b → |a - b| ≤ 2 * M ^ 2 →
      |fl (a - b) - (a - b)| ≤ (2 : ℝ) ^ (-53 : ℤ) * |a - b| := fun a b ha hb hab =>
    h.error_sub ha hb (hab.trans (le_trans (mul_le_mul (by norm_num : (2 : ℝ) ≤ 4) hMM (sq_nonneg M) (by norm_num)) z2))
  have hpos : 0 < xs.length := List.length_pos_iff.2 hne
  have u0 : (0 : ℝ) < (2 : ℝ) ^ (-53 : ℤ) := by positivity
  have hn40 : ∀ l : List ℝ, l.length ≤ 2 ^ 40 → (l.length : ℝ) ≤ 2 ^ 40 := fun l hl => by
    exact_mod_cast hl
  have unu : (xs.length : ℝ) * (2 : ℝ) ^ (-53 : ℤ) ≤ 1 / 2 ^ 13 := by
    calc (xs.length : ℝ) * (2 : ℝ) ^ (-53 : ℤ) ≤ 2 ^ 40 * (2 : ℝ) ^ (-53 : ℤ) :=
          mul_le_mul_of_nonneg_right (hn40 xs hn) u0.le
      _ = 1 / 2 ^ 13 := by norm_num
  have key := onePassVar_error_aux h hne hn hf hM0 u0 (by norm_num) unu hη1 hη2 hx err2 err1 errs
    (fun l s hs hl hln hA => by
      refine (hs.error h hl (hln.trans (by norm_num)) ?_).2.2
      rcases hA with hA | hA
      · refine hA.trans (le_trans ?_ z4)
        exact mul_le_mul (hn40 l hln) (mul_le_mul_of_nonneg_left hMM (by norm_num)) (by positivity)
          (by positivity)
      · exact hA.trans (le_trans (mul_le_mul (hn40 l hln) hM2 hM0.le (by positivity)) z5))
  refine key.trans (le_of_eq ?_)
  have h48 : (2 : ℝ) ^ (-48 : ℤ) = 32 * (2 : ℝ) ^ (-53 : ℤ) := by norm_num
  rw [h48]
  ring

/-- A rounded quantity that is at least a positive double precision number is positive. -/
theorem fl_pos {fl : ℝ → ℝ} (h : RoundsToNearest fl) {x : ℝ} (k : ℤ) (h1 : -1074 ≤ k) (h2 : k ≤ 971)
    (hx : (2 : ℝ) ^ k ≤ x) : (2 : ℝ) ^ k ≤ fl x := by
  have := isFloat64_two_zpow 1 k (by norm_num) h1 h2
  rw [Int.cast_one, one_mul] at this
  exact h.float_le this hx

theorem rsqrt_ok {fl : ℝ → ℝ} (h : RoundsToNearest fl) {v : ℝ} (hv : (2 : ℝ) ^ (-1000 : ℤ) ≤ v) :
    ∃ s, Rounded.rsqrt fl v = .ok s ∧ (2 : ℝ) ^ (-500 : ℤ) ≤ s := by
  have h0 : (0 : ℝ) < (2 : ℝ) ^ (-1000 : ℤ) := by positivity
  refine ⟨fl √v, ?_, ?_⟩
  · rw [Rounded.rsqrt, psqrt, if_neg (by linarith)]
    rfl
  · refine fl_pos h (-500) (by norm_num) (by norm_num) ?_
    refine Real.le_sqrt_of_sq_le ?_
    rw [← zpow_natCast, ← zpow_mul]
    exact le_trans (le_of_eq (by norm_num)) hv

theorem dagostino_ok {fl : ℝ → ℝ} (h : RoundsToNearest fl) {xs : List ℝ} (hn : 3 < xs.length)
    (hv : (2 : ℝ) ^ (-1000 : ℤ) ≤ Rounded.onePassVar fl (sort xs)) :
    ∃ v, Rounded.dagostino fl xs = .ok (some v) := by
  obtain ⟨s, hs, hs1⟩ := rsqrt_ok h hv
  have hn1 : (1 : ℝ) ≤ xs.length := by exact_mod_cast (by omega : 1 ≤ xs.length)
  have hpos : fl ((xs.length : ℝ) ^ 2 * s) ≠ 0 := by
    have h0 : (0 : ℝ) < (2 : ℝ) ^ (-500 : ℤ) := by positivity
    have := fl_pos h (x := (xs.length : ℝ) ^ 2 * s) (-500) (by norm_num) (by norm_num) (by
      refine hs1.trans ?_
      have : 0 ≤ s := h0.le.trans hs1
      exact le_mul_of_one_le_left this (one_le_pow₀ hn1))
    exact (lt_of_lt_of_le h0 this).ne'
  rw [Rounded.dagostino, guarded, if_pos hn, Rounded.dagostinoBody]
  simp only [hs, Rounded.rdiv, pdiv]
  show ∃ v, Except.map some ((Except.map fl
    (if fl ((xs.length : ℝ) ^ 2 * s) = 0 then _ else _)) >>= _) = .ok (some v)
  rw [if_neg hpos]
  exact ⟨_, rfl⟩

theorem rmapM_ok {α β : Type} {f : α → Except PyErr β} {l : List α} (h : ∀ x ∈ l, ∃ y, f x = .ok y) :
    ∃ ys, l.mapM f = .ok ys := by
  induction l with
  | nil => exact ⟨[], rfl⟩
  | cons a l ih =>
    obtain ⟨y, hy⟩ := h a (by simp)
    obtain ⟨ys, hys⟩ := ih fun x hx => h x (List.mem_cons_of_mem _ hx)
    exact ⟨y :: ys, by rw [List.mapM_cons, hy, hys]; rfl⟩

theorem bontempsMeddahi1_ok {fl : ℝ → ℝ} (h : RoundsToNearest fl) {xs : List ℝ}
    (hn : 3 < xs.length) (hn40 : xs.length ≤ 2 ^ 40)
    (hv : (2 : ℝ) ^ (-900 : ℤ) ≤ Rounded.onePassVar fl xs) :
    ∃ v, Rounded.bontempsMeddahi1 fl xs = .ok (some v) := by
  have h0 : (0 : ℝ) < (2 : ℝ) ^ (-900 : ℤ) := by positivity
  have hn1 : (1 : ℝ) < xs.length := by exact_mod_cast (by omega : 1 < xs.length)
  have f1 : (xs.length : ℝ) * (2 : ℝ) ^ (-900 : ℤ) ≤ fl (xs.length * Rounded.onePassVar fl xs) := by
    refine h.float_le ?_ (mul_le_mul_of_nonneg_left hv (by positivity))
    have := isFloat64_two_zpow xs.length (-900) (by
      rw [abs_of_nonneg (by positivity)]
      have : (xs.length : ℤ) ≤ 2 ^ 40 := by exact_mod_cast hn40
      norm_num at this ⊢
      omega) (by norm_num) (by norm_num)
    simpa using this
  have f2 : (2 : ℝ) ^ (-900 : ℤ) ≤
      fl (fl (xs.length * Rounded.onePassVar fl xs) / ((xs.length : ℝ) - 1)) := by
    refine fl_pos h (-900) (by norm_num) (by norm_num) ?_
    rw [le_div_iff₀ (by linarith)]
    refine le_trans ?_ f1
    generalize (2 : ℝ) ^ (-900 : ℤ) = w at *
    nlinarith
  obtain ⟨s, hs, hs1⟩ := rsqrt_ok h (le_trans (zpow_le_zpow_right₀ (by norm_num) (by norm_num)) f2)
  have hs0 : s ≠ 0 := (lt_of_lt_of_le (by positivity) hs1).ne'
  obtain ⟨z, hz⟩ := rmapM_ok (f := fun x => Rounded.rdiv fl (fl (x - Rounded.rmean fl xs)) s) (l := xs)
    (fun x _ => ⟨_, by rw [Rounded.rdiv, pdiv, if_neg hs0]; rfl⟩)
  rw [Rounded.bontempsMeddahi1, guarded, if_pos hn, Rounded.bontempsMeddahi1Body]
  simp only [hs]
  show ∃ v, Except.map some (List.mapM _ xs >>= _) = .ok (some v)
  rw [hz]
  exact ⟨_, rfl⟩

/-- **C144** (what holds).  D'Agostino and Bontemps-Meddahi 1 give a number for every sample of four to
`2^40` double precision observations of absolute value at most `M` whose variance is at least
`n 2^-47 M²`.  Missing: samples whose spread is smaller against their location. -/
theorem C144_partial {fl : ℝ → ℝ} (h : RoundsToNearest fl) {xs : List ℝ} (h3 : 3 < xs.length)
    (hn : xs.length ≤ 2 ^ 40) (hf : ∀ x ∈ xs, IsFloat64 x) {M : ℝ} (hM1 : (2 : ℝ) ^ (-400 : ℤ) ≤ M)
    (hM2 : M ≤ (2 : ℝ) ^ (400 : ℤ)) (hx : ∀ x ∈ xs, |x| ≤ M)
    (hvar : xs.length * (2 : ℝ) ^ (-47 : ℤ) * M ^ 2 ≤ variance xs) :
    (∃ v, Rounded.dagostino fl xs = .ok (some v)) ∧
      ∃ v, Rounded.bontempsMeddahi1 fl xs = .ok (some v) := by
  have key : ∀ ys : List ℝ, ys.Perm xs → (2 : ℝ) ^ (-900 : ℤ) ≤ Rounded.onePassVar fl ys := by
    intro ys hp
    have hlen := hp.length_eq
    have e := C144_variance_partial h (xs := ys) (by rw [← List.length_pos_iff]; omega) (by omega)
      (fun x hx' => hf x (hp.mem_iff.1 hx')) hM1 hM2 (fun x hx' => hx x (hp.mem_iff.1 hx'))
    rw [Pysatl.Exponent.variance_perm hp, hlen] at e
    have e1 := (abs_le.1 e).1
    have h47 : (2 : ℝ) ^ (-47 : ℤ) = 2 * (2 : ℝ) ^ (-48 : ℤ) := by norm_num
    rw [h47] at hvar
    have e2 : (xs.length : ℝ) * (2 : ℝ) ^ (-48 : ℤ) * M ^ 2 ≤ Rounded.onePassVar fl ys := by
      generalize (2 : ℝ) ^ (-48 : ℤ) = w at *
      linarith
    refine le_trans ?_ e2
    have hn1 : (1 : ℝ) ≤ xs.length := by exact_mod_cast (by omega : 1 ≤ xs.length)
    have m2 : (2 : ℝ) ^ (-800 : ℤ) ≤ M ^ 2 := by
      calc (2 : ℝ) ^ (-800 : ℤ) = ((2 : ℝ) ^ (-400 : ℤ)) ^ 2 := by
            rw [← zpow_natCast, ← zpow_mul]; norm_num
        _ ≤ M ^ 2 := pow_le_pow_left₀ (by positivity) hM1 2
    calc (2 : ℝ) ^ (-900 : ℤ) ≤ (2 : ℝ) ^ (-848 : ℤ) := zpow_le_zpow_right₀ (by norm_num) (by norm_num)
      _ = 1 * (2 : ℝ) ^ (-48 : ℤ) * (2 : ℝ) ^ (-800 : ℤ) := by
        rw [one_mul, ← zpow_add₀ (by norm_num)]; norm_num
      _ ≤ _ := mul_le_mul (mul_le_mul_of_nonneg_right hn1 (by positivity)) m2 (by positivity)
        (by positivity)
  exact ⟨dagostino_ok h h3 (le_trans (zpow_le_zpow_right₀ (by norm_num) (by norm_num))
    (key _ (sort_perm xs))), bontempsMeddahi1_ok h h3 hn (key xs (List.Perm.refl _))⟩

/-- The sample `0, 0, 2, 2` meets the hypotheses. -/
theorem small_sample_meets : ∀ fl, RoundsToNearest fl →
    (∃ v, Rounded.dagostino fl [0, 0, 2, 2] = .ok (some v)) ∧
      ∃ v, Rounded.bontempsMeddahi1 fl [0, 0, 2, 2] = .ok (some v) := by
  intro fl h
  refine C144_partial h (M := 2) (by simp) (by simp) ?_ ?_ ?_ ?_ ?_
  · intro x hx
    simp only [List.mem_cons, List.not_mem_nil, or_false] at hx
    rcases hx with rfl | rfl | rfl | rfl
    · exact isFloat64_zero
    · exact isFloat64_zero
    · simpa using isFloat64_nat 2 (by norm_num)
    · simpa using isFloat64_nat 2 (by norm_num)
  · exact le_trans (zpow_le_zpow_right₀ (by norm_num : (1 : ℝ) ≤ 2) (by norm_num : (-400 : ℤ) ≤ 1)) (by norm_num)
  · exact le_trans (by norm_num) (zpow_le_zpow_right₀ (by norm_num : (1 : ℝ) ≤ 2) (by norm_num : (1 : ℤ) ≤ 400))
  · intro x hx
    simp only [List.mem_cons, List.not_mem_nil, or_false] at hx
    rcases hx with rfl | rfl | rfl | rfl <;> norm_num
  · norm_num [variance, mean]

/-- **C144** is false of the code.  The observations `0, 0, 2, 2` and their sums with `1757700000` are
double precision numbers.  D'Agostino and Bontemps-Meddahi 1 give a number for the first sample, and
for the shifted one raise `ValueError` (the root of a negative variance), however ties are rounded. -/
theorem C144_refuted : ∃ (xs : List ℝ) (c : ℝ), IsFloat64 c ∧
    (∀ x ∈ xs, IsFloat64 x ∧ IsFloat64 (x + c)) ∧ ∀ fl, RoundsToNearest fl →
      (∃ v, Rounded.dagostino fl xs = .ok (some v)) ∧
      (∃ v, Rounded.bontempsMeddahi1 fl xs = .ok (some v)) ∧
      Rounded.dagostino fl (xs.map (· + c)) = .error .valueError ∧
      Rounded.bontempsMeddahi1 fl (xs.map (· + c)) = .error .valueError := by
  refine ⟨[0, 0, 2, 2], 1757700000, ?_, ?_, ?_⟩
  · simpa using isFloat64_nat 1757700000 (by norm_num)
  · intro x hx
    simp only [List.mem_cons, List.not_mem_nil, or_false] at hx
    have a := isFloat64_nat 1757700000 (by norm_num)
    have b := isFloat64_nat 1757700002 (by norm_num)
    have c := isFloat64_nat 2 (by norm_num)
    norm_num at a b c
    rcases hx with rfl | rfl | rfl | rfl
    · exact ⟨isFloat64_zero, by norm_num; exact a⟩
    · exact ⟨isFloat64_zero, by norm_num; exact a⟩
    · exact ⟨c, by norm_num; exact b⟩
    · exact ⟨c, by norm_num; exact b⟩
  · intro fl h
    obtain ⟨a, b⟩ := small_sample_meets fl h
    refine ⟨a, b, ?_, ?_⟩
    all_goals
      have e : [(0 : ℝ), 0, 2, 2].map (· + 1757700000) =
          [1757700000, 1757700000, 1757700002, 1757700002] := by norm_num
      rw [e]
    · have hs : sort [(1757700000 : ℝ), 1757700000, 1757700002, 1757700002] =
          [1757700000, 1757700000, 1757700002, 1757700002] := by
        refine List.Pairwise.insertionSort_eq ?_
        norm_num
      rw [Rounded.dagostino, guarded, if_pos (by simp), Rounded.dagostinoBody]
      simp only [hs, onePassVar_times h, Rounded.rsqrt, psqrt]
      rw [if_pos (by norm_num)]
      rfl
    · have n1 : fl (4 * -512) = -2048 := by
        have := h.id (IsFloat64.neg (isFloat64_nat 2048 (by norm_num)))
        norm_num at this ⊢; exact this
      have n2 : fl (-2048 / 3) ≤ -1 := by
        refine h.le_float isFloat64_one.neg ?_
        norm_num
      rw [Rounded.bontempsMeddahi1, guarded, if_pos (by simp), Rounded.bontempsMeddahi1Body]
      simp only [onePassVar_times h, Rounded.rsqrt, psqrt, List.length_cons, List.length_nil]
      rw [show ((0 + 1 + 1 + 1 + 1 : ℕ) : ℝ) = 4 by norm_num, n1,
        show (4 : ℝ) - 1 = 3 by norm_num, if_pos (by linarith)]
      rfl

end Pysatl.Props
