import Verif.Spec.Outlier
import Verif.Props.NormalMoments
import Verif.Props.WeibullMeaning

/-! # C134: one observation moved away is the strongest evidence against normality -/

namespace Pysatl.Props

open Pysatl.Decision Pysatl.Graph Pysatl.Edf Pysatl.Exponent Pysatl.Normal Pysatl.Spec Filter Topology

/-! ### Moments of a sample with one observation far away -/

theorem mean_outlier (xs : List ℝ) :
    Tendsto (fun y : ℝ => meanOf id (y :: xs) / y) atTop (𝓝 (1 / (xs.length + 1))) := by
  have e : ∀ᶠ y : ℝ in atTop, (1 + xs.sum / y) / (xs.length + 1) = meanOf id (y :: xs) / y := by
    filter_upwards [eventually_gt_atTop 0] with y hy
    simp only [meanOf, List.map_id, List.sum_cons, List.length_cons, Nat.cast_add, Nat.cast_one]
    field_simp
  refine Tendsto.congr' e ?_
  have := (tendsto_const_nhds (x := xs.sum) (f := (atTop : Filter ℝ))).div_atTop tendsto_id
  simpa using (this.const_add 1).div_const ((xs.length : ℝ) + 1)

theorem sum_outlier {μ : ℝ → ℝ} {c : ℝ} (h : Tendsto (fun y => μ y / y) atTop (𝓝 c)) (k : ℕ) :
    ∀ xs : List ℝ, Tendsto (fun y => (xs.map fun x => (x - μ y) ^ k).sum / y ^ k) atTop
      (𝓝 (xs.length * (-c) ^ k))
  | [] => by simp
  | x :: xs => by
    have h1 : Tendsto (fun y : ℝ => x / y) atTop (𝓝 0) := tendsto_const_nhds.div_atTop tendsto_id
    have h2 := ((h1.sub h).pow k).add (sum_outlier h k xs)
    refine (h2.congr fun y => ?_).trans_eq ?_
    · rw [← sub_div, div_pow, ← add_div, List.map_cons, List.sum_cons]
    · congr 1
      push_cast [List.length_cons]
      ring

theorem moment_outlier (xs : List ℝ) (k : ℕ) {n : ℝ} (hn : n = xs.length + 1) :
    Tendsto (fun y : ℝ => Spec.centralMoment k (y :: xs) / y ^ k) atTop
      (𝓝 (((1 - 1 / n) ^ k + (n - 1) * (-(1 / n)) ^ k) / n)) := by
  have hm := mean_outlier xs
  rw [← hn] at hm
  have h1 : Tendsto (fun y : ℝ => (y - meanOf id (y :: xs)) / y) atTop (𝓝 (1 - 1 / n)) := by
    refine Tendsto.congr' ?_ (hm.const_sub 1)
    filter_upwards [eventually_gt_atTop 0] with y hy
    rw [sub_div, div_self hy.ne']
  have h2 := (h1.pow k).add (sum_outlier hm k xs)
  have h3 := h2.div_const n
  rw [show (xs.length : ℝ) = n - 1 by linarith] at h3
  refine h3.congr fun y => ?_
  simp only [Spec.centralMoment, meanOf, List.map_cons, List.sum_cons, List.length_cons]
  push_cast
  rw [← hn]
  rw [div_pow, ← add_div, div_right_comm]

theorem stdDev_outlier (xs : List ℝ) {n : ℝ} (hn : n = xs.length + 1) :
    Tendsto (fun y : ℝ => stdDev (y :: xs) / y) atTop (𝓝 (√(n - 1) / n)) := by
  have hn0 : 0 < n := by rw [hn]; positivity
  have h := (moment_outlier xs 2 hn).sqrt
  rw [show ((1 - 1 / n) ^ 2 + (n - 1) * (-(1 / n)) ^ 2) / n = (n - 1) / n ^ 2 by field_simp; ring,
    Real.sqrt_div' _ (by positivity), Real.sqrt_sq hn0.le] at h
  refine Tendsto.congr' ?_ h
  filter_upwards [eventually_gt_atTop 0] with y hy
  rw [stdDev, Real.sqrt_div' _ (by positivity), Real.sqrt_sq hy.le]

theorem skewness_outlier (xs : List ℝ) {n : ℝ} (hn : n = xs.length + 1) (h2 : 2 ≤ n) :
    Tendsto (fun y : ℝ => skewness (y :: xs)) atTop (𝓝 ((n - 2) / √(n - 1))) := by
  have hn0 : 0 < n := by linarith
  have hs : 0 < √(n - 1) := Real.sqrt_pos.2 (by linarith)
  have hs2 : √(n - 1) ^ 2 = n - 1 := Real.sq_sqrt (by linarith)
  have h := (moment_outlier xs 3 hn).div ((stdDev_outlier xs hn).pow 3) (by positivity)
  have e : ((1 - 1 / n) ^ 3 + (n - 1) * (-(1 / n)) ^ 3) / n / (√(n - 1) / n) ^ 3 = (n - 2) / √(n - 1) := by
    rw [div_pow, show √(n - 1) ^ 3 = √(n - 1) ^ 2 * √(n - 1) by ring, hs2]
    generalize √(n - 1) = s at *
    have : n - 1 ≠ 0 := by linarith
    field_simp
    ring
  rw [e] at h
  refine Tendsto.congr' ?_ h
  filter_upwards [eventually_gt_atTop 0] with y hy
  simp only [Pi.div_apply]
  rw [skewness, div_pow, div_div_div_cancel_right₀ (by positivity)]

/-! ### Skewness -/

theorem sq_sum_le_length (l : List ℝ) : l.sum ^ 2 ≤ l.length * (l.map (· ^ 2)).sum := by
  induction l with
  | nil => simp
  | cons a l ih =>
    simp only [List.sum_cons, List.length_cons, List.map_cons, Nat.cast_add, Nat.cast_one]
    have h : ∀ l : List ℝ, 2 * a * l.sum ≤ l.length * a ^ 2 + (l.map (· ^ 2)).sum := by
      intro l
      induction l with
      | nil => simp
      | cons b l ih =>
        simp only [List.sum_cons, List.length_cons, List.map_cons, Nat.cast_add, Nat.cast_one]
        nlinarith [sq_nonneg (a - b)]
    nlinarith [h l]

/-- Samuelson's inequality: no observation is further than `√(n - 1)` standard deviations from the
mean. -/
theorem samuelson {l : List ℝ} (h0 : l.sum = 0) {x : ℝ} (hx : x ∈ l) :
    l.length * x ^ 2 ≤ ((l.length : ℝ) - 1) * (l.map (· ^ 2)).sum := by
  obtain ⟨u, v, rfl⟩ := List.append_of_mem hx
  have h := sq_sum_le_length (u ++ v)
  simp only [List.sum_append, List.sum_cons, List.length_append, List.length_cons, List.map_append,
    List.map_cons, Nat.cast_add, Nat.cast_one] at h h0 ⊢
  rw [show u.sum + v.sum = -x by linarith] at h
  linarith

theorem samuelson_abs {l : List ℝ} (h0 : l.sum = 0) {σ s : ℝ} (hσ : 0 ≤ σ) (hs : 0 < s)
    (hs2 : s ^ 2 = (l.length : ℝ) - 1) (hQ : (l.map (· ^ 2)).sum = l.length * σ ^ 2) :
    ∀ x ∈ l, |x| ≤ σ * s := fun x hx => by
  have h := samuelson h0 hx
  have hl : (0 : ℝ) < l.length := by
    have := List.length_pos_of_mem hx
    exact_mod_cast this
  rw [hQ, ← hs2] at h
  have : x ^ 2 ≤ (σ * s) ^ 2 := by
    have : (l.length : ℝ) * x ^ 2 ≤ l.length * (σ * s) ^ 2 := by linarith [h, mul_pow σ s 2]
    exact le_of_mul_le_mul_left this hl
  exact abs_le_of_sq_le_sq this (by positivity)

/-- The largest skewness of `n` observations. -/
theorem sum_cube_le {l : List ℝ} (h0 : l.sum = 0) {σ s : ℝ} (hσ : 0 ≤ σ) (hs : 0 < s)
    (hs2 : s ^ 2 = (l.length : ℝ) - 1) (hQ : (l.map (· ^ 2)).sum = l.length * σ ^ 2) :
    (l.map (· ^ 3)).sum ≤ l.length * σ ^ 3 * (s - 1 / s) := by
  have hx : ∀ x ∈ l, x ≤ σ * s := fun x hx =>
    (le_abs_self x).trans (samuelson_abs h0 hσ hs hs2 hQ x hx)
  have key : ∀ k : List ℝ, (∀ x ∈ k, x ≤ σ * s) → (k.map (· ^ 3)).sum ≤
      (σ * s - 2 * σ / s) * (k.map (· ^ 2)).sum + (2 * σ ^ 2 - σ ^ 2 / s ^ 2) * k.sum +
        k.length * (σ ^ 3 / s) := by
    intro k
    induction k with
    | nil => simp
    | cons a k ih =>
      intro h
      have h1 := ih fun x hx => h x (List.mem_cons_of_mem _ hx)
      have h2 : 0 ≤ (σ * s - a) * (a + σ / s) ^ 2 :=
        mul_nonneg (sub_nonneg.2 (h a List.mem_cons_self)) (sq_nonneg _)
      have e : (σ * s - a) * (a + σ / s) ^ 2 = (σ * s - 2 * σ / s) * a ^ 2 +
          (2 * σ ^ 2 - σ ^ 2 / s ^ 2) * a + σ ^ 3 / s - a ^ 3 := by
        field_simp
        ring
      simp only [List.map_cons, List.sum_cons, List.length_cons, Nat.cast_add, Nat.cast_one]
      rw [e] at h2
      linarith
  have h := key l hx
  rw [h0, hQ] at h
  refine h.trans (le_of_eq ?_)
  field_simp
  ring

theorem sum_sub_const (m : ℝ) (l : List ℝ) : (l.map fun x => x - m).sum = l.sum - l.length * m := by
  induction l with
  | nil => simp
  | cons a l ih =>
    simp only [List.map_cons, List.sum_cons, List.length_cons, ih]
    push_cast
    ring

theorem centred_sum {zs : List ℝ} (h : zs ≠ []) : (zs.map fun x => x - meanOf id zs).sum = 0 := by
  have hl : (zs.length : ℝ) ≠ 0 := by
    have := List.length_pos_iff.2 h
    exact_mod_cast this.ne'
  rw [sum_sub_const, meanOf, List.map_id, mul_div_cancel₀ _ hl, sub_self]

theorem skewness_le {zs : List ℝ} (hv : Varies zs) (hn : 2 ≤ zs.length) :
    skewness zs ≤ ((zs.length : ℝ) - 2) / √((zs.length : ℝ) - 1) := by
  have hn' : (2 : ℝ) ≤ zs.length := by exact_mod_cast hn
  have hl : (zs.length : ℝ) ≠ 0 := by linarith
  have hs : 0 < √((zs.length : ℝ) - 1) := Real.sqrt_pos.2 (by linarith)
  have hs2 : √((zs.length : ℝ) - 1) ^ 2 = zs.length - 1 := Real.sq_sqrt (by linarith)
  have hσ := stdDev_pos hv
  have h := sum_cube_le (centred_sum hv.ne_nil) hσ.le hs (by simpa using hs2) (by
    rw [stdDev_sq, Spec.centralMoment, List.length_map, List.map_map]
    generalize meanOf id zs = μ
    rw [meanOf, mul_div_cancel₀ _ hl]
    rfl)
  rw [List.length_map, List.map_map] at h
  rw [skewness, div_le_iff₀ (by positivity), Spec.centralMoment, meanOf, div_le_iff₀ (by linarith)]
  refine h.trans (le_of_eq ?_)
  have : (zs.length : ℝ) - 2 = √((zs.length : ℝ) - 1) ^ 2 - 1 := by rw [hs2]; ring
  rw [this]
  generalize √((zs.length : ℝ) - 1) = s at *
  field_simp

theorem skewZ_zero {n : ℝ} (hn : 8 ≤ n) :
    skewZ n 0 = dagostinoSkew n (√(6 * (n - 2) / ((n + 1) * (n + 3)))) := by
  have h0 : 0 < 6 * (n - 2) / ((n + 1) * (n + 3)) := div_pos (by linarith) (by nlinarith)
  have h1 := Real.sqrt_pos.2 h0
  have e : √(6 * (n - 2) / ((n + 1) * (n + 3))) * √((n + 1) * (n + 3) / (6 * (n - 2))) = 1 := by
    rw [skew_scale, div_self h1.ne']
  rw [← skewZ_spec hn h1.ne']
  simp only [skewZ, zero_mul, if_true]
  rw [e, if_neg one_ne_zero]

theorem dagostinoSkew_continuous (n : ℝ) : Continuous (dagostinoSkew n) := by
  unfold dagostinoSkew
  have := Real.continuous_arsinh
  fun_prop

/-- **C134**: when one observation is moved away to the right, the skewness criterion tends to the largest
value it can take at this sample size. -/
theorem C134_skew (lib : NormLib) {n : ℕ} (hn : 8 ≤ n) :
    StrongestAtInfinity (NormStat.value lib .skew) n := by
  intro xs hx
  have hn' : (8 : ℝ) ≤ n := by exact_mod_cast hn
  have hN : (n : ℝ) = xs.length + 1 := by exact_mod_cast hx.symm
  have hm := dagostinoSkew_strictMono hn'
  have hs : 0 < √((n : ℝ) - 1) := Real.sqrt_pos.2 (by linarith)
  have hlim := skewness_outlier xs hN (by linarith)
  have hpos : 0 < ((n : ℝ) - 2) / √((n : ℝ) - 1) := div_pos (by linarith) hs
  refine ⟨fun y => dagostinoSkew n (skewness (y :: xs)),
    ((dagostinoSkew n (((n : ℝ) - 2) / √((n : ℝ) - 1)) : ℝ) : EReal), ?_, ?_, ?_⟩
  · filter_upwards [hlim.eventually (eventually_gt_nhds hpos)] with y hy
    rw [C118_skew lib (by simp; omega) hy.ne', List.length_cons, hx]
  · exact (continuous_coe_real_ereal.tendsto _).comp
      (((dagostinoSkew_continuous n).tendsto _).comp hlim)
  · intro zs v hz hv hval
    rw [EReal.coe_le_coe_iff]
    have hle := skewness_le (zs := zs) hv (by omega)
    rw [hz] at hle
    rcases eq_or_ne (skewness zs) 0 with h0 | h0
    · simp only [NormStat.value, skewTest, if_neg (show ¬n < 8 by omega), Except.map,
        skew_perm (sort_perm zs), skew_spec, h0, hz, skewZ_zero hn', Except.ok.injEq,
        Option.some.injEq] at hval
      rw [← hval]
      refine hm.monotone (Real.sqrt_le_iff.2 ⟨hpos.le, ?_⟩)
      rw [div_pow, Real.sq_sqrt (by linarith), div_le_div_iff₀ (by nlinarith) (by linarith)]
      nlinarith [mul_nonneg (show (0 : ℝ) ≤ n - 2 by linarith) (show (0 : ℝ) ≤ n - 8 by linarith)]
    · rw [C118_skew lib (by omega) h0, hz] at hval
      simp only [Except.ok.injEq, Option.some.injEq] at hval
      rw [← hval]
      exact hm.monotone hle

/-! ### Jarque and Bera -/

theorem kurtosis_outlier (xs : List ℝ) {n : ℝ} (hn : n = xs.length + 1) (h2 : 2 ≤ n) :
    Tendsto (fun y : ℝ => kurtosis (y :: xs)) atTop (𝓝 ((n ^ 2 - 3 * n + 3) / (n - 1))) := by
  have hn0 : 0 < n := by linarith
  have hs : 0 < √(n - 1) := Real.sqrt_pos.2 (by linarith)
  have hs2 : √(n - 1) ^ 2 = n - 1 := Real.sq_sqrt (by linarith)
  have h := (moment_outlier xs 4 hn).div ((stdDev_outlier xs hn).pow 4) (by positivity)
  have e : ((1 - 1 / n) ^ 4 + (n - 1) * (-(1 / n)) ^ 4) / n / (√(n - 1) / n) ^ 4 =
      (n ^ 2 - 3 * n + 3) / (n - 1) := by
    rw [div_pow, show √(n - 1) ^ 4 = (√(n - 1) ^ 2) ^ 2 by ring, hs2]
    have : n - 1 ≠ 0 := by linarith
    field_simp
    ring
  rw [e] at h
  refine Tendsto.congr' ?_ h
  filter_upwards [eventually_gt_atTop 0] with y hy
  simp only [Pi.div_apply]
  rw [kurtosis, div_pow, div_div_div_cancel_right₀ (by positivity)]

theorem sum_fourth_side {l : List ℝ} (h0 : l.sum = 0) {σ s : ℝ} (hσ : 0 < σ) (hs : 0 < s)
    (hs2 : s ^ 2 = (l.length : ℝ) - 1) (hQ : (l.map (· ^ 2)).sum = l.length * σ ^ 2)
    (hx : ∀ x ∈ l, x ≤ σ * s) (hy : ∀ x ∈ l, -(σ * (s - 2 / s)) ≤ x) :
    (l.map (· ^ 4)).sum ≤ l.length * σ ^ 4 * (s ^ 2 - 1 + 1 / s ^ 2) := by
  have key : ∀ k : List ℝ, (∀ x ∈ k, x ≤ σ * s) → (∀ x ∈ k, -(σ * (s - 2 / s)) ≤ x) →
      (k.map (· ^ 4)).sum ≤ (σ ^ 2 * (s ^ 2 - 2 + 3 / s ^ 2 - 0)) * (k.map (· ^ 2)).sum +
        (σ ^ 3 * (2 * s - 4 / s + 2 / s ^ 3)) * k.sum + k.length * (σ ^ 4 * (1 - 2 / s ^ 2)) := by
    intro k
    induction k with
    | nil => simp
    | cons a k ih =>
      intro h h'
      have h1 := ih (fun x hx => h x (List.mem_cons_of_mem _ hx)) fun x hx =>
        h' x (List.mem_cons_of_mem _ hx)
      have h2 : 0 ≤ (σ * s - a) * (a + σ / s) ^ 2 * (a + σ * (s - 2 / s)) :=
        mul_nonneg (mul_nonneg (sub_nonneg.2 (h a List.mem_cons_self)) (sq_nonneg _))
          (by linarith [h' a List.mem_cons_self])
      have e : (σ * s - a) * (a + σ / s) ^ 2 * (a + σ * (s - 2 / s)) =
          (σ ^ 2 * (s ^ 2 - 2 + 3 / s ^ 2 - 0)) * a ^ 2 +
          (σ ^ 3 * (2 * s - 4 / s + 2 / s ^ 3)) * a + σ ^ 4 * (1 - 2 / s ^ 2) - a ^ 4 := by
        field_simp
        ring
      simp only [List.map_cons, List.sum_cons, List.length_cons, Nat.cast_add, Nat.cast_one]
      rw [e] at h2
      linarith
  have h := key l hx hy
  rw [h0, hQ] at h
  refine h.trans (le_of_eq ?_)
  field_simp
  ring

theorem sum_neg_pow (k : ℕ) (l : List ℝ) :
    ((l.map fun x => -x).map (· ^ k)).sum = (-1) ^ k * (l.map (· ^ k)).sum := by
  induction l with
  | nil => simp
  | cons a l ih =>
    simp only [List.map_cons, List.sum_cons, ih]
    rw [neg_pow]
    ring

/-- The largest kurtosis of nine observations or more. -/
theorem sum_fourth_le {l : List ℝ} (h0 : l.sum = 0) {σ s : ℝ} (hσ : 0 < σ) (hs : 0 < s)
    (h8 : 8 ≤ s ^ 2) (hs2 : s ^ 2 = (l.length : ℝ) - 1) (hQ : (l.map (· ^ 2)).sum = l.length * σ ^ 2) :
    (l.map (· ^ 4)).sum ≤ l.length * σ ^ 4 * (s ^ 2 - 1 + 1 / s ^ 2) := by
  have hb := samuelson_abs h0 hσ.le hs hs2 hQ
  by_cases hy : ∀ x ∈ l, -(σ * (s - 2 / s)) ≤ x
  · exact sum_fourth_side h0 hσ hs hs2 hQ (fun x hx => (le_abs_self x).trans (hb x hx)) hy
  · push Not at hy
    obtain ⟨a, ha, ha'⟩ := hy
    have hlow : ∀ x ∈ l, x ≤ σ * (s - 2 / s) := by
      intro b hb'
      by_contra hc
      push Not at hc
      have hk : 0 < s - 2 / s := by
        rw [sub_pos, div_lt_iff₀ hs]
        nlinarith
      have hne : a ≠ b := by
        rintro rfl
        have : 0 < σ * (s - 2 / s) := by positivity
        linarith
      have hpair : ∀ k : List ℝ, a ∈ k → b ∈ k → a ^ 2 + b ^ 2 ≤ (k.map (· ^ 2)).sum := by
        have h1 : ∀ (k : List ℝ) (x : ℝ), x ∈ k → x ^ 2 ≤ (k.map (· ^ 2)).sum := fun k x hx =>
          List.single_le_sum (by simp only [List.mem_map]; rintro _ ⟨z, _, rfl⟩; positivity) _
            (List.mem_map_of_mem hx)
        intro k
        induction k with
        | nil => simp
        | cons c k ih =>
          intro hak hbk
          simp only [List.map_cons, List.sum_cons]
          rcases List.mem_cons.1 hak with rfl | hak'
          · rcases List.mem_cons.1 hbk with rfl | hbk
            · exact absurd rfl hne
            · linarith [h1 k b hbk]
          · rcases List.mem_cons.1 hbk with rfl | hbk
            · linarith [h1 k a hak']
            · linarith [ih hak' hbk, sq_nonneg c]
      have hp := hpair l ha hb'
      rw [hQ, show (l.length : ℝ) = s ^ 2 + 1 by linarith] at hp
      have h1 : (σ * (s - 2 / s)) ^ 2 < a ^ 2 := by nlinarith [mul_pos hσ hk]
      have h2 : (σ * (s - 2 / s)) ^ 2 < b ^ 2 := by nlinarith [mul_pos hσ hk]
      have h3 : 2 * (s - 2 / s) ^ 2 * σ ^ 2 < (s ^ 2 + 1) * σ ^ 2 := by
        rw [mul_pow] at h1 h2
        linarith
      have h4 := lt_of_mul_lt_mul_right h3 (by positivity)
      have h5 : (s - 2 / s) ^ 2 = s ^ 2 - 4 + 4 / s ^ 2 := by
        field_simp
        ring
      rw [h5] at h4
      have h6 : 8 / s ^ 2 < 9 - s ^ 2 := by
        have : 8 / s ^ 2 = 2 * (4 / s ^ 2) := by ring
        linarith
      rw [div_lt_iff₀ (by positivity)] at h6
      nlinarith
    have hn0 : (l.map fun x => -x).sum = 0 := by
      have := sum_neg_pow 1 l
      simp only [pow_one, List.map_id', h0, mul_zero] at this
      exact this
    have h := sum_fourth_side (l := l.map fun x => -x) hn0 hσ hs (by simpa using hs2)
      (by rw [sum_neg_pow, hQ, List.length_map]; ring)
      (by
        simp only [List.mem_map]
        rintro _ ⟨x, hx, rfl⟩
        exact (neg_le_abs x).trans (hb x hx))
      (by
        simp only [List.mem_map]
        rintro _ ⟨x, hx, rfl⟩
        linarith [hlow x hx])
    rw [sum_neg_pow, List.length_map] at h
    linarith

theorem centred_sq {zs : List ℝ} (h : zs ≠ []) (k : ℕ) :
    ((zs.map fun x => x - meanOf id zs).map (· ^ k)).sum = zs.length * Spec.centralMoment k zs := by
  have hl : (zs.length : ℝ) ≠ 0 := by
    have := List.length_pos_iff.2 h
    exact_mod_cast this.ne'
  rw [Spec.centralMoment, List.map_map]
  generalize meanOf id zs = μ
  rw [meanOf, mul_div_cancel₀ _ hl]
  rfl

theorem skewness_abs_le {zs : List ℝ} (hv : Varies zs) (hn : 2 ≤ zs.length) :
    |skewness zs| ≤ ((zs.length : ℝ) - 2) / √((zs.length : ℝ) - 1) := by
  have hn' : (2 : ℝ) ≤ zs.length := by exact_mod_cast hn
  have hs : 0 < √((zs.length : ℝ) - 1) := Real.sqrt_pos.2 (by linarith)
  have hs2 : √((zs.length : ℝ) - 1) ^ 2 = zs.length - 1 := Real.sq_sqrt (by linarith)
  have hσ := stdDev_pos hv
  refine abs_le.2 ⟨?_, skewness_le hv hn⟩
  have hn0 := sum_neg_pow 1 (zs.map fun x => x - meanOf id zs)
  simp only [pow_one, List.map_id', centred_sum hv.ne_nil, mul_zero] at hn0
  have h := sum_cube_le (l := (zs.map fun x => x - meanOf id zs).map fun x => -x) hn0 hσ.le hs
    (by simpa using hs2) (by
      rw [sum_neg_pow, centred_sq hv.ne_nil, stdDev_sq, List.length_map, List.length_map]
      ring)
  rw [sum_neg_pow, centred_sq hv.ne_nil, List.length_map, List.length_map] at h
  rw [neg_le, skewness, ← neg_div, div_le_iff₀ (by positivity)]
  have e : √((zs.length : ℝ) - 1) - 1 / √((zs.length : ℝ) - 1) =
      ((zs.length : ℝ) - 2) / √((zs.length : ℝ) - 1) := by
    have : (zs.length : ℝ) - 2 = √((zs.length : ℝ) - 1) ^ 2 - 1 := by rw [hs2]; ring
    rw [this]
    generalize √((zs.length : ℝ) - 1) = s at *
    field_simp
  rw [e] at h
  have : (zs.length : ℝ) * -Spec.centralMoment 3 zs ≤ zs.length *
      (((zs.length : ℝ) - 2) / √((zs.length : ℝ) - 1) * stdDev zs ^ 3) := by linarith
  exact le_of_mul_le_mul_left this (by linarith)

theorem kurtosis_bounds {zs : List ℝ} (hv : Varies zs) (hn : 9 ≤ zs.length) : 1 ≤ kurtosis zs ∧
    kurtosis zs ≤ ((zs.length : ℝ) ^ 2 - 3 * zs.length + 3) / ((zs.length : ℝ) - 1) := by
  have hn' : (9 : ℝ) ≤ zs.length := by exact_mod_cast hn
  have hs : 0 < √((zs.length : ℝ) - 1) := Real.sqrt_pos.2 (by linarith)
  have hs2 : √((zs.length : ℝ) - 1) ^ 2 = zs.length - 1 := Real.sq_sqrt (by linarith)
  have hσ := stdDev_pos hv
  have c2 := centred_sq hv.ne_nil 2
  have c4 := centred_sq hv.ne_nil 4
  constructor
  · have h := sq_sum_le_length ((zs.map fun x => x - meanOf id zs).map (· ^ 2))
    have e : (((zs.map fun x => x - meanOf id zs).map (· ^ 2)).map (· ^ 2)).sum =
        zs.length * Spec.centralMoment 4 zs := by
      rw [← c4, List.map_map]
      congr 2
      funext x
      simp only [Function.comp]
      ring
    rw [c2] at h
    rw [e, List.length_map, List.length_map, ← stdDev_sq] at h
    rw [kurtosis, le_div_iff₀ (by positivity), one_mul]
    have : (zs.length : ℝ) ^ 2 * stdDev zs ^ 4 ≤ (zs.length : ℝ) ^ 2 * Spec.centralMoment 4 zs := by
      linarith
    exact le_of_mul_le_mul_left this (by positivity)
  · have h := sum_fourth_le (centred_sum hv.ne_nil) hσ hs (by rw [hs2]; linarith) (by simpa using hs2)
      (by rw [c2, List.length_map, stdDev_sq])
    rw [c4, List.length_map, hs2] at h
    rw [kurtosis, div_le_iff₀ (by positivity)]
    have : (zs.length : ℝ) * Spec.centralMoment 4 zs ≤ zs.length *
        (((zs.length : ℝ) ^ 2 - 3 * zs.length + 3) / ((zs.length : ℝ) - 1) * stdDev zs ^ 4) := by
      refine h.trans (le_of_eq ?_)
      have : (zs.length : ℝ) - 1 ≠ 0 := by linarith
      field_simp
      ring
    exact le_of_mul_le_mul_left this (by linarith)

/-- **C134**: when one observation is moved away, the Jarque-Bera statistic tends to the largest value it
can take at this sample size. -/
theorem C134_jarqueBera (lib : NormLib) {n : ℕ} (hn : 9 ≤ n) :
    StrongestAtInfinity (NormStat.value lib .jarqueBera) n := by
  intro xs hx
  have hn' : (9 : ℝ) ≤ n := by exact_mod_cast hn
  have hN : (n : ℝ) = xs.length + 1 := by exact_mod_cast hx.symm
  have h1 := skewness_outlier xs hN (by linarith)
  have h2 := kurtosis_outlier xs hN (by linarith)
  refine ⟨fun y => n * (skewness (y :: xs) ^ 2 / 6 + (kurtosis (y :: xs) - 3) ^ 2 / 24), _, ?_,
    (continuous_coe_real_ereal.tendsto _).comp ((((h1.pow 2).div_const 6).add
      (((h2.sub_const 3).pow 2).div_const 24)).const_mul (n : ℝ)), ?_⟩
  · refine Eventually.of_forall fun y => ?_
    rw [C117_jarqueBera lib (by simp), List.length_cons, hx]
  · intro zs v hz hv hval
    rw [EReal.coe_le_coe_iff]
    rw [C117_jarqueBera lib (List.ne_nil_of_length_pos (by omega)), hz] at hval
    simp only [Except.ok.injEq, Option.some.injEq] at hval
    have hs := skewness_abs_le (zs := zs) hv (by omega)
    have hk := kurtosis_bounds (zs := zs) hv (by omega)
    rw [hz] at hs hk
    rw [← hval]
    have a1 : skewness zs ^ 2 ≤ (((n : ℝ) - 2) / √((n : ℝ) - 1)) ^ 2 := by
      rw [← sq_abs]
      exact pow_le_pow_left₀ (abs_nonneg _) hs 2
    have a2 : (kurtosis zs - 3) ^ 2 ≤ (((n : ℝ) ^ 2 - 3 * n + 3) / ((n : ℝ) - 1) - 3) ^ 2 := by
      have : 5 ≤ ((n : ℝ) ^ 2 - 3 * n + 3) / ((n : ℝ) - 1) := by
        rw [le_div_iff₀ (by linarith)]
        nlinarith
      exact sq_le_sq' (by linarith [hk.1]) (by linarith [hk.2])
    exact mul_le_mul_of_nonneg_left (by linarith) (by linarith)

/-! ### Median -/

/-- The median of a sample and one more observation, far away to the right. -/
noncomputable def medianAway (xs : List ℝ) : ℝ :=
  if (xs.length + 1) % 2 = 0 then
    (at_ (sort xs) ((xs.length + 1) / 2) + at_ (sort xs) ((xs.length + 1) / 2 - 1)) / 2
  else at_ (sort xs) ((xs.length + 1) / 2)

theorem median_outlier {xs : List ℝ} (h : 2 ≤ xs.length) {y : ℝ} (hy : ∀ x ∈ xs, x ≤ y) :
    median (sort (y :: xs)) = medianAway xs := by
  rw [sort_eq_of_perm (List.perm_append_singleton y xs).symm, sort_concat hy]
  have e : ∀ i < xs.length, at_ (sort xs ++ [y]) i = at_ (sort xs) i := fun i hi => by
    unfold at_
    rw [List.getD_eq_getElem?_getD, List.getD_eq_getElem?_getD,
      List.getElem?_append_left (by rwa [length_sort])]
  unfold median medianAway
  rw [List.length_append, length_sort, List.length_singleton]
  split
  · rw [e _ (by omega), e _ (by omega)]
  · rw [e _ (by omega)]

theorem eventually_above (xs : List ℝ) : ∀ᶠ y : ℝ in atTop, ∀ x ∈ xs, x ≤ y := by
  induction xs with
  | nil => simp
  | cons a l ih =>
    filter_upwards [ih, eventually_ge_atTop a] with y h1 h2
    simpa using ⟨h2, h1⟩

theorem sum_abs_outlier (m : ℝ) (xs : List ℝ) :
    Tendsto (fun y : ℝ => ((y :: xs).map fun x => |x - m|).sum / y) atTop (𝓝 1) := by
  have e : ∀ᶠ y : ℝ in atTop, 1 + ((xs.map fun x => |x - m|).sum - m) / y =
      ((y :: xs).map fun x => |x - m|).sum / y := by
    filter_upwards [eventually_gt_atTop 0, eventually_ge_atTop m] with y hy hm
    rw [List.map_cons, List.sum_cons, abs_of_nonneg (by linarith)]
    field_simp
    ring
  refine Tendsto.congr' e ?_
  simpa using ((tendsto_const_nhds (x := (xs.map fun x => |x - m|).sum - m)
    (f := (atTop : Filter ℝ))).div_atTop tendsto_id).const_add 1

/-! ### Gel, Miao and Gastwirth -/

theorem gmg_eq (xs : List ℝ) : Normal.gmg xs = stdDev xs /
    (√(Real.pi / 2) * (xs.map fun x => |x - median (sort xs)|).sum / xs.length) := by
  simp only [Normal.gmg, mean_spec]
  rfl

theorem sum_sq_le_abs (l : List ℝ) : 2 * (l.map (· ^ 2)).sum ≤ l.sum ^ 2 + (l.map fun x => |x|).sum ^ 2 ∧
    |l.sum| ≤ (l.map fun x => |x|).sum := by
  induction l with
  | nil => simp
  | cons a l ih =>
    simp only [List.map_cons, List.sum_cons]
    refine ⟨?_, (abs_add_le _ _).trans (by linarith [ih.2])⟩
    have h1 : |l.sum * a| ≤ (l.map fun x => |x|).sum * |a| := by
      rw [abs_mul]
      exact mul_le_mul_of_nonneg_right ih.2 (abs_nonneg a)
    nlinarith [sq_abs a, ih.1, neg_abs_le (l.sum * a)]

theorem gmg_le {zs : List ℝ} (hv : Varies zs) (hn : 2 ≤ zs.length) :
    Normal.gmg zs ≤ √((zs.length : ℝ) - 1) / √(Real.pi / 2) := by
  have hn' : (2 : ℝ) ≤ zs.length := by exact_mod_cast hn
  have hl : (zs.length : ℝ) ≠ 0 := by linarith
  have hp : 0 < √(Real.pi / 2) := Real.sqrt_pos.2 (by positivity)
  rw [gmg_eq]
  generalize median (sort zs) = m
  have hA : 0 < (zs.map fun x => |x - m|).sum := by
    have := absDeviation_pos hv m
    unfold absDeviation meanOf at this
    exact (div_pos_iff_of_pos_right (by linarith)).1 this
  have h := sum_sq_le_abs (zs.map fun x => x - m)
  rw [List.map_map, List.map_map] at h
  obtain ⟨h1, h2⟩ := h
  have h3 := sq_le_sq' (neg_le_of_abs_le h2) (le_of_abs_le h2)
  have e1 : ((zs.map ((· ^ 2) ∘ fun x => x - m)).sum : ℝ) = (zs.map fun x => (x - m) ^ 2).sum := rfl
  have e2 : ((zs.map ((fun x => |x|) ∘ fun x => x - m)).sum : ℝ) = (zs.map fun x => |x - m|).sum := rfl
  rw [e1, e2] at h1
  rw [e2] at h3
  have hvar : Spec.centralMoment 2 zs = (zs.map fun x => (x - m) ^ 2).sum / zs.length -
      ((zs.map fun x => x - m).sum / zs.length) ^ 2 := by
    rw [← variance_raw, sum_sq_expand, sum_sub_const]
    unfold meanOf
    rw [List.map_id]
    field_simp
    ring
  have hsd : stdDev zs ≤ √((zs.length : ℝ) - 1) / zs.length * (zs.map fun x => |x - m|).sum := by
    refine Real.sqrt_le_iff.2 ⟨by positivity, ?_⟩
    rw [hvar, mul_pow, div_pow √((zs.length : ℝ) - 1), Real.sq_sqrt (by linarith)]
    generalize (zs.map fun x => |x - m|).sum = A at *
    generalize (zs.map fun x => x - m).sum = S at *
    generalize (zs.map fun x => (x - m) ^ 2).sum = Q at *
    generalize (zs.length : ℝ) = n at *
    rw [div_pow, div_mul_eq_mul_div, div_sub_div _ _ hl (by positivity), div_le_div_iff₀ (by positivity)
      (by positivity)]
    have : Q * n - S ^ 2 ≤ (n - 1) * A ^ 2 := by nlinarith
    nlinarith [mul_le_mul_of_nonneg_left this (show 0 ≤ n ^ 3 by positivity)]
  rw [div_le_div_iff₀ (by positivity) hp]
  calc stdDev zs * √(Real.pi / 2) ≤
      √((zs.length : ℝ) - 1) / zs.length * (zs.map fun x => |x - m|).sum * √(Real.pi / 2) :=
        mul_le_mul_of_nonneg_right hsd hp.le
    _ = _ := by ring

/-- **C134**: when one observation is moved away, the statistic of Gel, Miao and Gastwirth tends to the
largest value it can take at this sample size. -/
theorem C134_gmg (lib : NormLib) {n : ℕ} (hn : 4 ≤ n) :
    StrongestAtInfinity (NormStat.value lib .gmg) n := by
  intro xs hx
  have hN : (n : ℝ) = xs.length + 1 := by exact_mod_cast hx.symm
  have hn' : (4 : ℝ) ≤ n := by exact_mod_cast hn
  have hp : 0 < √(Real.pi / 2) := Real.sqrt_pos.2 (by positivity)
  refine ⟨fun y => Normal.gmg (y :: xs), ((√((n : ℝ) - 1) / √(Real.pi / 2) : ℝ) : EReal), ?_, ?_, ?_⟩
  · refine Eventually.of_forall fun y => ?_
    simp only [NormStat.value, guarded, List.length_cons, if_pos (show 3 < xs.length + 1 by omega),
      Except.map]
  · refine (continuous_coe_real_ereal.tendsto _).comp ?_
    have h1 := (((sum_abs_outlier (medianAway xs) xs).const_mul √(Real.pi / 2)).div_const (n : ℝ))
    have h2 := (stdDev_outlier xs hN).div h1 (by positivity)
    rw [mul_one, div_div_div_cancel_right₀ (by positivity)] at h2
    refine Tendsto.congr' ?_ h2
    filter_upwards [eventually_gt_atTop 0, eventually_above xs] with y hy ha
    simp only [Pi.div_apply]
    rw [gmg_eq, median_outlier (by omega) ha, List.length_cons, hx]
    generalize (List.map (fun x => |x - medianAway xs|) (y :: xs)).sum = A
    rw [← mul_div_assoc, div_right_comm _ y (n : ℝ), div_div_div_cancel_right₀ hy.ne']
  · intro zs v hz hv hval
    rw [EReal.coe_le_coe_iff]
    simp only [NormStat.value, guarded, hz, if_pos (show 3 < n by omega), Except.map, Except.ok.injEq,
      Option.some.injEq] at hval
    rw [← hval, ← hz]
    exact gmg_le hv (by omega)

/-! ### Martinez and Iglewicz -/

theorem scaled_outlier {m C : ℝ} (p : ℝ → ℝ) (k : ℕ) (hk : k ≠ 0) {c : ℝ}
    (h : Tendsto (fun w => p w / w ^ k) atTop (𝓝 c)) :
    Tendsto (fun y => (p (y - m) + C) / (y - m) ^ k) atTop (𝓝 c) := by
  have hw : Tendsto (fun y : ℝ => y - m) atTop atTop := tendsto_atTop_add_const_right _ _ tendsto_id
  have h1 : Tendsto (fun w : ℝ => C / w ^ k) atTop (𝓝 0) :=
    tendsto_const_nhds.div_atTop (tendsto_pow_atTop hk)
  have h2 := (h.add h1).comp hw
  rw [add_zero] at h2
  refine h2.congr fun y => ?_
  simp only [Function.comp]
  rw [add_div]

/-- The statistic of Martinez and Iglewicz of a sample with one observation far away, in terms of the
distance of that observation from the median. -/
theorem martinez_outlier {xs : List ℝ} (h : 2 ≤ xs.length) {m a : ℝ} (hm : m = medianAway xs)
    (ha : a = 9 * medianAway (xs.map fun x => |x - m|)) : ∃ C₁ C₂ C₃ : ℝ, ∀ᶠ y : ℝ in atTop,
    martinezIglewicz (y :: xs) = ((y - m) ^ 2 + C₃) / ((xs.length + 1 : ℝ) - 1) /
      ((xs.length + 1 : ℝ) * ((y - m) ^ 2 * (1 - ((y - m) / a) ^ 2) ^ 4 + C₁) /
        ((1 - ((y - m) / a) ^ 2) * (1 - 5 * ((y - m) / a) ^ 2) + C₂) ^ 2) := by
  refine ⟨(xs.map fun x => (x - m) ^ 2 * (1 - ((x - m) / a) ^ 2) ^ 4).sum,
    (xs.map fun x => (1 - ((x - m) / a) ^ 2) * (1 - 5 * ((x - m) / a) ^ 2)).sum,
    (xs.map fun x => (x - m) ^ 2).sum, ?_⟩
  have hw : Tendsto (fun y : ℝ => y - m) atTop atTop := tendsto_atTop_add_const_right _ _ tendsto_id
  filter_upwards [eventually_above xs, hw.eventually (eventually_above (xs.map fun x => |x - m|)),
    hw.eventually (eventually_ge_atTop 0)] with y h1 h2 h3
  have e1 := median_outlier h h1
  rw [← hm] at e1
  have e2 := median_outlier (xs := xs.map fun x => |x - m|) (y := |y - m|) (by simpa using h)
    (fun z hz => (h2 z hz).trans (le_abs_self _))
  simp only [martinezIglewicz, e1, List.map_cons, List.map_map, Function.comp_def, e2, ← ha,
    List.sum_cons, List.length_cons, Nat.cast_add, Nat.cast_one]

/-- **C134** is false of the statistic of Martinez and Iglewicz: whatever the other observations, it tends
to `25 / (n (n - 1))` when one of them is moved away. -/
theorem C134_martinezIglewicz_limit (lib : NormLib) {xs : List ℝ} (hn : 3 ≤ xs.length)
    (hmad : medianAway (xs.map fun x => |x - medianAway xs|) ≠ 0) : ∃ f : ℝ → ℝ,
    (∀ y, NormStat.value lib .martinezIglewicz (y :: xs) = .ok (some (f y))) ∧
    Tendsto f atTop (𝓝 (25 / ((xs.length + 1) * xs.length))) := by
  refine ⟨fun y => martinezIglewicz (y :: xs), fun y => ?_, ?_⟩
  · simp only [NormStat.value, guarded, List.length_cons, if_pos (show 3 < xs.length + 1 by omega),
      Except.map]
  obtain ⟨C₁, C₂, C₃, h⟩ := martinez_outlier (xs := xs) (by omega) rfl rfl
  generalize hm : medianAway xs = m at *
  have ha : 9 * medianAway (xs.map fun x => |x - m|) ≠ 0 := mul_ne_zero (by norm_num) hmad
  generalize 9 * medianAway (xs.map fun x => |x - m|) = a at *
  have hl : (0 : ℝ) < xs.length := by
    have : 0 < xs.length := by omega
    exact_mod_cast this
  have hi : Tendsto (fun w : ℝ => (1 / w) ^ 2) atTop (𝓝 0) := by
    simpa using ((tendsto_const_nhds (x := (1 : ℝ))).div_atTop (tendsto_id (x := atTop))).pow 2
  have t1 : Tendsto (fun w : ℝ => w ^ 2 * (1 - (w / a) ^ 2) ^ 4 / w ^ 10) atTop (𝓝 ((-(1 / a ^ 2)) ^ 4)) := by
    have := (hi.sub_const (1 / a ^ 2)).pow 4
    rw [zero_sub] at this
    refine Tendsto.congr' ?_ this
    filter_upwards [eventually_gt_atTop 0] with w hw
    field_simp
  have t2 : Tendsto (fun w : ℝ => (1 - (w / a) ^ 2) * (1 - 5 * (w / a) ^ 2) / w ^ 4) atTop
      (𝓝 ((-(1 / a ^ 2)) * (-(5 / a ^ 2)))) := by
    have := (hi.sub_const (1 / a ^ 2)).mul (hi.sub_const (5 / a ^ 2))
    rw [zero_sub, zero_sub] at this
    refine Tendsto.congr' ?_ this
    filter_upwards [eventually_gt_atTop 0] with w hw
    field_simp
  have t3 : Tendsto (fun w : ℝ => w ^ 2 / w ^ 2) atTop (𝓝 1) := by
    refine Tendsto.congr' ?_ tendsto_const_nhds
    filter_upwards [eventually_gt_atTop 0] with w hw
    field_simp
  have u1 := scaled_outlier (m := m) (C := C₁) _ 10 (by norm_num) t1
  have u2 := scaled_outlier (m := m) (C := C₂) _ 4 (by norm_num) t2
  have u3 := scaled_outlier (m := m) (C := C₃) _ 2 (by norm_num) t3
  have n2 : (-(1 / a ^ 2) * -(5 / a ^ 2)) ^ 2 ≠ 0 := by
    rw [neg_mul_neg]
    positivity
  have n1 : (xs.length + 1 : ℝ) * (-(1 / a ^ 2)) ^ 4 / (-(1 / a ^ 2) * -(5 / a ^ 2)) ^ 2 ≠ 0 := by
    refine div_ne_zero (mul_ne_zero (by positivity) (pow_ne_zero _ (neg_ne_zero.2 (by positivity)))) n2
  have key := (u3.div_const ((xs.length + 1 : ℝ) - 1)).div ((u1.const_mul (xs.length + 1 : ℝ)).div
    (u2.pow 2) n2) n1
  have e : 1 / ((xs.length + 1 : ℝ) - 1) / ((xs.length + 1 : ℝ) * (-(1 / a ^ 2)) ^ 4 /
      (-(1 / a ^ 2) * -(5 / a ^ 2)) ^ 2) = 25 / ((xs.length + 1) * xs.length) := by
    rw [add_sub_cancel_right]
    field_simp
    norm_num
  rw [e] at key
  refine Tendsto.congr' ?_ key
  filter_upwards [h, eventually_gt_atTop m] with y hy hym
  have hw : 0 < y - m := by linarith
  simp only [Pi.div_apply]
  rw [hy]
  generalize y - m = w at *
  generalize w ^ 2 * (1 - (w / a) ^ 2) ^ 4 + C₁ = p
  generalize (1 - (w / a) ^ 2) * (1 - 5 * (w / a) ^ 2) + C₂ = q
  generalize w ^ 2 + C₃ = r
  generalize ((xs.length : ℝ) + 1) = n at *
  rcases eq_or_ne p 0 with rfl | hp
  · simp
  rcases eq_or_ne q 0 with rfl | hq
  · simp
  have : (w : ℝ) ≠ 0 := hw.ne'
  field_simp

theorem sort_example {l k : List ℝ} (h : l.Perm k) (hk : k.Pairwise (· ≤ ·)) : sort l = k := by
  rw [sort_eq_of_perm h, sort_of_sorted hk]

/-- The eight whole numbers `1, …, 8`. -/
theorem martinez_even : martinezIglewicz [1, 2, 3, 4, 5, 6, 7, 8] > 1 / 2 := by
  have e1 : median (sort [1, 2, 3, 4, 5, 6, 7, 8]) = 9 / 2 := by
    rw [sort_of_sorted (by norm_num)]
    norm_num [median, at_]
  have e2 : median (sort ([1 - 9 / 2, 2 - 9 / 2, 3 - 9 / 2, 4 - 9 / 2, 5 - 9 / 2, 6 - 9 / 2, 7 - 9 / 2,
      8 - 9 / 2].map fun v : ℝ => |v|)) = 2 := by
    have e : ([1 - 9 / 2, 2 - 9 / 2, 3 - 9 / 2, 4 - 9 / 2, 5 - 9 / 2, 6 - 9 / 2, 7 - 9 / 2,
      8 - 9 / 2].map fun v : ℝ => |v|) = [7 / 2, 5 / 2, 3 / 2, 1 / 2] ++ [1 / 2, 3 / 2, 5 / 2, 7 / 2] := by
      norm_num [abs_of_neg, abs_of_pos]
    rw [e, sort_example (k := [1 / 2, 1 / 2, 3 / 2, 3 / 2, 5 / 2, 5 / 2, 7 / 2, 7 / 2]) ?_ (by norm_num)]
    · norm_num [median, at_]
    · refine List.perm_iff_count.2 fun x => ?_
      simp only [List.count_append, List.count_cons, List.count_nil]
      omega
  simp only [martinezIglewicz, e1, List.map_cons, List.map_nil] at e2 ⊢
  rw [e2]
  norm_num

theorem medianAway_seven : medianAway ([1, 2, 3, 4, 5, 6, 7].map fun x =>
    |x - medianAway [1, 2, 3, 4, 5, 6, 7]|) ≠ 0 := by
  have e1 : medianAway [1, 2, 3, 4, 5, 6, 7] = 9 / 2 := by
    rw [medianAway, sort_of_sorted (by norm_num)]
    norm_num [at_]
  have e : ([1, 2, 3, 4, 5, 6, 7].map fun x : ℝ => |x - 9 / 2|) =
      [7 / 2, 5 / 2, 3 / 2, 1 / 2] ++ [1 / 2, 3 / 2, 5 / 2] := by
    norm_num [abs_of_neg, abs_of_pos]
  rw [e1, e, medianAway, sort_example (k := [1 / 2, 1 / 2, 3 / 2, 3 / 2, 5 / 2, 5 / 2, 7 / 2]) ?_
    (by norm_num)]
  · norm_num [at_]
  · refine List.perm_iff_count.2 fun x => ?_
    simp only [List.count_append, List.count_cons, List.count_nil]
    omega

/-- Eight values are admitted by the theorem on the skewness, nine by the theorem on Jarque-Bera. -/
example (lib : NormLib) : ∃ f : ℝ → ℝ, ∃ L : EReal, Tendsto (fun y => (f y : EReal)) atTop (𝓝 L) ∧
    ∀ᶠ y in atTop, NormStat.value lib .skew [y, 1, 2, 3, 4, 5, 6, 7] = .ok (some (f y)) :=
  let ⟨f, L, h1, h2, _⟩ := C134_skew lib (n := 8) le_rfl [1, 2, 3, 4, 5, 6, 7] rfl
  ⟨f, L, h2, h1⟩

example : 3 ≤ ([1, 2, 3, 4, 5, 6, 7] : List ℝ).length ∧ medianAway ([1, 2, 3, 4, 5, 6, 7].map fun x =>
    |x - medianAway [1, 2, 3, 4, 5, 6, 7]|) ≠ 0 := ⟨by simp, medianAway_seven⟩

/-- **C134** is false of the statistic of Martinez and Iglewicz, whose large values are held against
normality: for eight observations the value of seven whole numbers and one observation far away is below
that of eight whole numbers in a row. -/
theorem C134_refuted_martinezIglewicz (lib : NormLib) :
    ¬StrongestAtInfinity (NormStat.value lib .martinezIglewicz) 8 ∧ ∃ v : ℝ,
      NormStat.value lib .martinezIglewicz [1, 2, 3, 4, 5, 6, 7, 8] = .ok (some v) ∧
      ∀ᶠ y : ℝ in atTop, ∃ w : ℝ, w < v ∧
        NormStat.value lib .martinezIglewicz [y, 1, 2, 3, 4, 5, 6, 7] = .ok (some w) := by
  obtain ⟨f, hf, hlim⟩ := C134_martinezIglewicz_limit lib (xs := [1, 2, 3, 4, 5, 6, 7]) (by simp)
    medianAway_seven
  have hv : NormStat.value lib .martinezIglewicz [1, 2, 3, 4, 5, 6, 7, 8] =
      .ok (some (martinezIglewicz [1, 2, 3, 4, 5, 6, 7, 8])) := by
    simp [NormStat.value, guarded, Except.map]
  have hL : (25 : ℝ) / (((([1, 2, 3, 4, 5, 6, 7] : List ℝ).length : ℝ) + 1) *
      ([1, 2, 3, 4, 5, 6, 7] : List ℝ).length) < martinezIglewicz [1, 2, 3, 4, 5, 6, 7, 8] := by
    refine lt_trans ?_ martinez_even
    norm_num
  refine ⟨fun h => ?_, _, hv, ?_⟩
  · obtain ⟨g, L, hg, hgl, hmax⟩ := h [1, 2, 3, 4, 5, 6, 7] rfl
    have h1 := hmax [1, 2, 3, 4, 5, 6, 7, 8] _ rfl ⟨1, by simp, 2, by simp, by norm_num⟩ hv
    have h2 : Tendsto (fun y => (f y : EReal)) atTop (𝓝 L) := by
      refine Tendsto.congr' ?_ hgl
      filter_upwards [hg] with y hy
      rw [hf y] at hy
      simp only [Except.ok.injEq, Option.some.injEq] at hy
      rw [hy]
    have h3 := tendsto_nhds_unique h2 ((continuous_coe_real_ereal.tendsto _).comp hlim)
    rw [h3, EReal.coe_le_coe_iff] at h1
    exact absurd hL (not_lt.2 h1)
  · filter_upwards [hlim.eventually (eventually_lt_nhds hL)] with y hy
    exact ⟨f y, hy, hf y⟩

end Pysatl.Props
