import Verif.Model.Normal
import Verif.Lemmas.Exponent
import Verif.Lemmas.Edf
import Mathlib.Data.Nat.Choose.Sum

/-!
# How the ingredients of the normality statistics react to `x ↦ a + b x`
-/

namespace Pysatl.Normal

open Pysatl.Decision Pysatl.Graph Pysatl.Edf Pysatl.Exponent

/-- A change of location and scale. -/
def aff (a b : ℝ) (x : ℝ) : ℝ := a + b * x

theorem sum_aff (a b : ℝ) : ∀ l : List ℝ, (l.map (aff a b)).sum = l.length * a + b * l.sum
  | [] => by simp
  | x :: l => by
    simp only [List.map_cons, List.sum_cons, sum_aff a b l, List.length_cons, aff]
    push_cast; ring

theorem mean_aff (a b : ℝ) {l : List ℝ} (h : l ≠ []) :
    mean (l.map (aff a b)) = aff a b (mean l) := by
  have hn : (l.length : ℝ) ≠ 0 := by
    simpa using h
  unfold mean aff
  rw [show (fun x => a + b * x) = aff a b from rfl, sum_aff, List.length_map]
  field_simp

theorem cent_aff (a b : ℝ) {l : List ℝ} (h : l ≠ []) (x : ℝ) :
    aff a b x - mean (l.map (aff a b)) = b * (x - mean l) := by
  rw [mean_aff a b h]; unfold aff; ring

theorem map_cent_aff {α : Type} (a b : ℝ) {l : List ℝ} (h : l ≠ []) (f : ℝ → α) (k : List ℝ) :
    (k.map (aff a b)).map (fun x => f (x - mean (l.map (aff a b)))) =
      k.map fun x => f (b * (x - mean l)) := by
  rw [List.map_map]
  refine List.map_congr_left fun x _ => ?_
  simp only [Function.comp, cent_aff a b h]

theorem sum_map_mul (c : ℝ) (f : ℝ → ℝ) : ∀ l : List ℝ,
    (l.map fun x => c * f x).sum = c * (l.map f).sum
  | [] => by simp
  | x :: l => by simp only [List.map_cons, List.sum_cons, sum_map_mul c f l]; ring

theorem sumsq_aff (a b : ℝ) {l : List ℝ} (h : l ≠ []) :
    ((l.map (aff a b)).map fun x => (x - mean (l.map (aff a b))) ^ 2).sum =
      b ^ 2 * (l.map fun x => (x - mean l) ^ 2).sum := by
  rw [map_cent_aff a b h (fun d => d ^ 2), ← sum_map_mul]
  simp only [mul_pow]

theorem sumabs_aff (a : ℝ) {b : ℝ} (hb : 0 < b) {l : List ℝ} (h : l ≠ []) :
    ((l.map (aff a b)).map fun x => |x - mean (l.map (aff a b))|).sum =
      b * (l.map fun x => |x - mean l|).sum := by
  rw [map_cent_aff a b h (fun d => |d|), ← sum_map_mul]
  simp only [abs_mul, abs_of_pos hb]

theorem sumsq_nonneg (l : List ℝ) : 0 ≤ (l.map fun x => (x - mean l) ^ 2).sum := by
  apply List.sum_nonneg
  intro y hy
  obtain ⟨x, -, rfl⟩ := List.mem_map.mp hy
  positivity

theorem var1_aff (a b : ℝ) {l : List ℝ} (h : l ≠ []) :
    var1 (l.map (aff a b)) = b ^ 2 * var1 l := by
  unfold var1
  rw [sumsq_aff a b h, List.length_map, mul_div_assoc]

theorem sqrt_sq_mul {b : ℝ} (hb : 0 < b) (v : ℝ) : √(b ^ 2 * v) = b * √v := by
  rw [Real.sqrt_mul (by positivity), Real.sqrt_sq hb.le]

theorem sd1_aff (a : ℝ) {b : ℝ} (hb : 0 < b) {l : List ℝ} (h : l ≠ []) :
    sd1 (l.map (aff a b)) = b * sd1 l := by
  unfold sd1
  rw [var1_aff a b h, sqrt_sq_mul hb]

theorem standardised_aff (a : ℝ) {b : ℝ} (hb : 0 < b) {l : List ℝ} (h : l ≠ []) :
    standardised (l.map (aff a b)) = standardised l := by
  unfold standardised
  rw [sd1_aff a hb h, map_cent_aff a b h (fun d => d / (b * sd1 l))]
  refine List.map_congr_left fun x _ => ?_
  rw [mul_div_mul_left _ _ hb.ne']

theorem sum_sq_cent (l : List ℝ) (h : l ≠ []) :
    (l.map fun x => (x - mean l) ^ 2).sum = (l.map (· ^ 2)).sum - l.length * mean l ^ 2 := by
  have key : ∀ (m : ℝ) (k : List ℝ), (k.map fun x => (x - m) ^ 2).sum =
      (k.map (· ^ 2)).sum - 2 * m * k.sum + k.length * m ^ 2 := by
    intro m k
    induction k with
    | nil => simp
    | cons x k ih =>
      simp only [List.map_cons, List.sum_cons, ih, List.length_cons]; push_cast; ring
  have hn : (l.length : ℝ) ≠ 0 := by simpa using h
  rw [key]
  have : l.sum = l.length * mean l := by unfold mean; field_simp
  rw [this]; ring

theorem var1'_eq (l : List ℝ) (h : l ≠ []) : var1' l = var1 l := by
  have hn : (l.length : ℝ) ≠ 0 := by simpa using h
  unfold var1' var1
  rw [sum_sq_cent l h]
  congr 1
  field_simp

theorem variance_eq (l : List ℝ) (h : l ≠ []) :
    (l.map (· ^ 2)).sum / l.length - mean l ^ 2 = variance l := by
  have hn : (l.length : ℝ) ≠ 0 := by simpa using h
  unfold variance
  rw [sum_sq_cent l h]
  field_simp

theorem variance_aff (a b : ℝ) {l : List ℝ} (h : l ≠ []) :
    variance (l.map (aff a b)) = b ^ 2 * variance l := by
  unfold variance
  rw [sumsq_aff a b h, List.length_map, mul_div_assoc]

theorem moment_aff (k : ℕ) (a b : ℝ) {l : List ℝ} (h : l ≠ []) :
    moment k (l.map (aff a b)) = b ^ k * moment k l := by
  unfold moment
  rw [map_cent_aff a b h (fun d => d ^ k)]
  unfold mean
  simp only [mul_pow, sum_map_mul, List.length_map, mul_div_assoc]

theorem moment_two_nonneg (l : List ℝ) : 0 ≤ moment 2 l := by
  unfold moment mean
  apply div_nonneg _ (Nat.cast_nonneg _)
  exact sumsq_nonneg l

theorem rpow_three_half {b : ℝ} (hb : 0 < b) {m : ℝ} (hm : 0 ≤ m) :
    (b ^ 2 * m) ^ (3 / 2 : ℝ) = b ^ 3 * m ^ (3 / 2 : ℝ) := by
  rw [Real.mul_rpow (by positivity) hm, ← Real.rpow_natCast b 2, ← Real.rpow_mul hb.le]
  norm_num

theorem skew_aff (a : ℝ) {b : ℝ} (hb : 0 < b) {l : List ℝ} (h : l ≠ []) :
    skew (l.map (aff a b)) = skew l := by
  unfold skew
  rw [moment_aff _ a b h, moment_aff _ a b h, rpow_three_half hb (moment_two_nonneg l),
    mul_div_mul_left _ _ (by positivity)]

theorem kurt_aff (a : ℝ) {b : ℝ} (hb : 0 < b) {l : List ℝ} (h : l ≠ []) :
    kurt (l.map (aff a b)) = kurt l := by
  unfold kurt
  rw [moment_aff _ a b h, moment_aff _ a b h, mul_pow, ← pow_mul,
    mul_div_mul_left _ _ (by positivity)]

theorem sort_aff (a : ℝ) {b : ℝ} (hb : 0 < b) (l : List ℝ) :
    sort (l.map (aff a b)) = (sort l).map (aff a b) := by
  refine List.Perm.eq_of_pairwise (le := (· ≤ ·)) (fun a b _ _ h1 h2 => le_antisymm h1 h2)
    (sort_pairwise _) ?_ ((sort_perm _).trans ((sort_perm l).map _).symm)
  rw [List.pairwise_map]
  refine (sort_pairwise l).imp fun h => ?_
  have := mul_le_mul_of_nonneg_left h hb.le
  unfold aff
  linarith

theorem at_aff (a b : ℝ) {l : List ℝ} {i : ℕ} (h : i < l.length) :
    at_ (l.map (aff a b)) i = aff a b (at_ l i) := by
  unfold at_
  rw [List.getD_eq_getElem _ _ (by simpa using h), List.getD_eq_getElem _ _ h, List.getElem_map]

theorem median_aff (a b : ℝ) {l : List ℝ} (h : l ≠ []) :
    median (l.map (aff a b)) = aff a b (median l) := by
  have hl : 0 < l.length := List.length_pos_of_ne_nil h
  unfold median
  rw [List.length_map]
  split
  · rw [at_aff a b (by omega), at_aff a b (by omega)]; unfold aff; ring
  · rw [at_aff a b (by omega)]

theorem dot_aff (c : ℕ → ℝ) (a b : ℝ) : ∀ l : List ℝ, dot c (l.map (aff a b)) =
    a * ∑ i ∈ Finset.range l.length, c i + b * dot c l := by
  intro l
  unfold dot
  induction l generalizing c with
  | nil => simp
  | cons x l ih =>
    simp only [List.map_cons, List.mapIdx_cons, List.sum_cons, List.length_cons,
      Finset.sum_range_succ' c]
    rw [ih fun i => c (i + 1)]
    unfold aff; ring

theorem npDiff_aff (a b : ℝ) : ∀ l : List ℝ,
    npDiff (l.map (aff a b)) = (npDiff l).map (b * ·)
  | [] => rfl
  | [_] => rfl
  | x :: y :: l => by
    have ih := npDiff_aff a b (y :: l)
    simp only [List.map_cons, npDiff] at ih ⊢
    rw [ih]
    congr 1
    unfold aff; ring

theorem sort_ne_nil {l : List ℝ} (h : l ≠ []) : sort l ≠ [] := by
  intro h'
  exact h ((sort_perm l).symm.trans (by rw [h'])).eq_nil

theorem length_sort (l : List ℝ) : (sort l).length = l.length := (sort_perm l).length_eq

theorem npMax_aff (a : ℝ) {b : ℝ} (hb : 0 < b) (l : List ℝ) :
    npMax (l.map (aff a b)) = (npMax l).map (aff a b) := by
  by_cases h : l = []
  · subst h; rfl
  · obtain ⟨m, hm⟩ := npMax_exists h
    rw [hm]
    obtain ⟨h1, h2⟩ := npMax_eq_ok.mp hm
    refine npMax_eq_ok.mpr ⟨List.mem_map_of_mem h1, ?_⟩
    intro y hy
    obtain ⟨x, hx, rfl⟩ := List.mem_map.mp hy
    unfold aff
    have := mul_le_mul_of_nonneg_left (h2 x hx) hb.le
    linarith

theorem pyMin_aff (a : ℝ) {b : ℝ} (hb : 0 < b) (l : List ℝ) :
    pyMin (l.map (aff a b)) = (pyMin l).map (aff a b) := by
  by_cases h : l = []
  · subst h; rfl
  · obtain ⟨m, hm⟩ := pyMin_exists h
    rw [hm]
    obtain ⟨h1, h2⟩ := pyMin_eq_ok.mp hm
    refine pyMin_eq_ok.mpr ⟨List.mem_map_of_mem h1, ?_⟩
    intro y hy
    obtain ⟨x, hx, rfl⟩ := List.mem_map.mp hy
    unfold aff
    have := mul_le_mul_of_nonneg_left (h2 x hx) hb.le
    linarith

/-! ### Weights that ignore the location -/

/-- What the location-scale theorems use of `norm.ppf` and `norm.pdf`: the standard normal
distribution is symmetric about zero. -/
structure NormLib.Symmetric (lib : NormLib) : Prop where
  ppf : ∀ p, 0 < p → p < 1 → lib.ppf (1 - p) = -lib.ppf p
  pdf : ∀ x, lib.pdf (-x) = lib.pdf x

theorem sum_antisymm {n : ℕ} {c : ℕ → ℝ} (h : ∀ i < n, c (n - 1 - i) = -c i) :
    ∑ i ∈ Finset.range n, c i = 0 := by
  have h1 : ∑ i ∈ Finset.range n, c (n - 1 - i) = ∑ i ∈ Finset.range n, c i :=
    Finset.sum_range_reflect c n
  rw [Finset.sum_congr rfl fun i hi => h i (Finset.mem_range.mp hi), Finset.sum_neg_distrib] at h1
  linarith

theorem blom_pos (n i : ℕ) : 0 < blom n i := by
  unfold blom
  have : (0 : ℝ) ≤ i := Nat.cast_nonneg i
  have : (0 : ℝ) ≤ n := Nat.cast_nonneg n
  apply div_pos <;> linarith

theorem blom_reflect {n i : ℕ} (h : i < n) : blom n (n - 1 - i) = 1 - blom n i := by
  unfold blom
  have hn : (0 : ℝ) ≤ n := Nat.cast_nonneg n
  have hc : ((n - 1 - i : ℕ) : ℝ) = n - 1 - i := by
    rw [Nat.cast_sub (by omega), Nat.cast_sub (by omega)]; simp
  have : (n : ℝ) + 1 / 4 ≠ 0 := by positivity
  rw [hc]
  field_simp
  ring

theorem ppf_blom {lib : NormLib} (hs : lib.Symmetric) {n i : ℕ} (h : i < n) :
    lib.ppf (blom n (n - 1 - i)) = -lib.ppf (blom n i) := by
  have h1 := blom_pos n (n - 1 - i)
  rw [blom_reflect h] at h1 ⊢
  exact hs.ppf _ (blom_pos n i) (by linarith)

theorem swCoef_antisymm {lib : NormLib} (hs : lib.Symmetric) {n : ℕ} (hn : 3 ≤ n) {i : ℕ}
    (hi : i < n) : swCoef lib n (n - 1 - i) = -swCoef lib n i := by
  unfold swCoef
  by_cases h3 : n = 3
  · subst h3
    interval_cases i <;> simp
  · rw [if_neg h3, if_neg h3]
    dsimp only
    split
    · rename_i h5
      by_cases h0 : i = 0
      · subst h0
        rw [if_neg (by omega), if_pos (by omega), if_pos rfl, neg_neg]
      · by_cases h1 : i = n - 1
        · rw [if_pos (by omega), if_neg h0, if_pos h1]
        · rw [if_neg (by omega), if_neg (by omega), if_neg h0, if_neg h1, ppf_blom hs hi, neg_div]
    · rename_i h5
      by_cases h0 : i = 0
      · subst h0
        rw [if_neg (by omega), if_neg (by omega), if_neg (by omega), if_pos (by omega), if_pos rfl,
          neg_neg]
      · by_cases h1 : i = 1
        · subst h1
          rw [if_neg (by omega), if_neg (by omega), if_pos (by omega), if_neg (by omega),
            if_pos rfl, neg_neg]
        · by_cases h2 : i = n - 2
          · rw [if_neg (by omega), if_pos (by omega), if_neg h0, if_neg h1, if_pos h2]
          · by_cases h4 : i = n - 1
            · rw [if_pos (by omega), if_neg h0, if_neg h1, if_neg h2, if_pos h4]
            · rw [if_neg (by omega), if_neg (by omega), if_neg (by omega), if_neg (by omega),
                if_neg h0, if_neg h1, if_neg h2, if_neg h4, ppf_blom hs hi, neg_div]

theorem sum_swCoef {lib : NormLib} (hs : lib.Symmetric) {n : ℕ} (hn : 3 ≤ n) :
    ∑ i ∈ Finset.range n, swCoef lib n i = 0 :=
  sum_antisymm fun _ hi => swCoef_antisymm hs hn hi

theorem sum_zqA (u : ℕ → ℝ) {n : ℕ} (hn : 0 < n) : ∑ i ∈ Finset.range n, zqA u n i = 0 := by
  obtain ⟨m, rfl⟩ : ∃ m, n = m + 1 := ⟨n - 1, by omega⟩
  rw [Finset.sum_range_succ']
  unfold zqA
  simp

theorem sum_zqB {u : ℕ → ℝ} {n : ℕ} (hn : 8 ≤ n) (hu : ∀ i < n, u (n - 1 - i) = -u i) :
    ∑ i ∈ Finset.range n, zqB u n i = 0 := by
  refine sum_antisymm fun i hi => ?_
  unfold zqB
  by_cases h0 : i < 4
  · rw [if_neg (by omega), if_pos (by omega), if_pos h0, show n - 1 - (n - 1 - i) = i by omega]
  · by_cases h1 : n ≤ i + 4
    · rw [if_pos (by omega), if_neg h0, if_pos h1, neg_neg]
    · rw [if_neg (by omega), if_neg (by omega), if_neg h0, if_neg h1, hu i hi,
        show n - 1 - i + 4 = n - 1 - (i - 4) by omega, hu (i - 4) (by omega),
        show n - 1 - i - 4 = n - 1 - (i + 4) by omega, hu (i + 4) (by omega),
        show -u i - -u (i - 4) = u (i - 4) - u i by ring,
        show -u (i + 4) - -u i = u i - u (i + 4) by ring]
      ring

theorem swrgStar_antisymm {lib : NormLib} (hs : lib.Symmetric) {n i : ℕ} (hi : i < n) :
    swrgStar lib n (n - 1 - i) = -swrgStar lib n i := by
  have hm : ∀ i < n, lib.ppf ((((n - 1 - i : ℕ) : ℝ) + 1) / (n + 1)) =
      -lib.ppf (((i : ℝ) + 1) / (n + 1)) := by
    intro i hi
    have hc : ((n - 1 - i : ℕ) : ℝ) = n - 1 - i := by
      rw [Nat.cast_sub (by omega), Nat.cast_sub (by omega)]; simp
    have hn : (0 : ℝ) < (n : ℝ) + 1 := by positivity
    have hi' : (i : ℝ) + 1 < n + 1 := by exact_mod_cast Nat.succ_lt_succ hi
    rw [← hs.ppf _ (by positivity) ((div_lt_one hn).mpr hi'), hc]
    congr 1
    field_simp
    ring
  unfold swrgStar
  dsimp only
  rw [hm i hi, hs.pdf]
  have e1 : (if n - 1 - i = 0 then (0 : ℝ) else lib.ppf ((((n - 1 - i - 1 : ℕ) : ℝ) + 1) / (n + 1)) *
      lib.pdf (lib.ppf ((((n - 1 - i - 1 : ℕ) : ℝ) + 1) / (n + 1)))) =
      -(if i = n - 1 then (0 : ℝ) else lib.ppf ((((i + 1 : ℕ) : ℝ) + 1) / (n + 1)) *
      lib.pdf (lib.ppf ((((i + 1 : ℕ) : ℝ) + 1) / (n + 1)))) := by
    by_cases h : i = n - 1
    · rw [if_pos (by omega), if_pos h, neg_zero]
    · rw [if_neg (by omega), if_neg h, show n - 1 - i - 1 = n - 1 - (i + 1) by omega,
        hm (i + 1) (by omega), hs.pdf]; ring
  have e2 : (if n - 1 - i = n - 1 then (0 : ℝ) else
      lib.ppf ((((n - 1 - i + 1 : ℕ) : ℝ) + 1) / (n + 1)) *
      lib.pdf (lib.ppf ((((n - 1 - i + 1 : ℕ) : ℝ) + 1) / (n + 1)))) =
      -(if i = 0 then (0 : ℝ) else lib.ppf ((((i - 1 : ℕ) : ℝ) + 1) / (n + 1)) *
      lib.pdf (lib.ppf ((((i - 1 : ℕ) : ℝ) + 1) / (n + 1)))) := by
    by_cases h : i = 0
    · rw [if_pos (by omega), if_pos h, neg_zero]
    · rw [if_neg (by omega), if_neg h, show n - 1 - i + 1 = n - 1 - (i - 1) by omega,
        hm (i - 1) (by omega), hs.pdf]; ring
  rw [e1, e2]
  ring

theorem sum_swrgStar {lib : NormLib} (hs : lib.Symmetric) {n : ℕ} :
    ∑ i ∈ Finset.range n, swrgStar lib n i = 0 :=
  sum_antisymm fun _ hi => swrgStar_antisymm hs hi

theorem sum_dagostino (n : ℕ) :
    ∑ i ∈ Finset.range n, ((i : ℝ) + 1 - 0.5 * ((n : ℝ) + 1)) = 0 := by
  refine sum_antisymm fun i hi => ?_
  have hc : ((n - 1 - i : ℕ) : ℝ) = n - 1 - i := by
    rw [Nat.cast_sub (by omega), Nat.cast_sub (by omega)]; simp
  rw [hc]; ring

theorem sum_fall1 (n : ℕ) : ∑ i ∈ Finset.range n, (i : ℝ) = (n : ℝ) * (n - 1) / 2 := by
  induction n with
  | zero => simp
  | succ n ih => rw [Finset.sum_range_succ, ih]; push_cast; ring

theorem sum_fall2 (n : ℕ) :
    ∑ i ∈ Finset.range n, (i : ℝ) * (i - 1) = (n : ℝ) * (n - 1) * (n - 2) / 3 := by
  induction n with
  | zero => simp
  | succ n ih => rw [Finset.sum_range_succ, ih]; push_cast; ring

theorem sum_fall3 (n : ℕ) : ∑ i ∈ Finset.range n, (i : ℝ) * (i - 1) * (i - 2) =
    (n : ℝ) * (n - 1) * (n - 2) * (n - 3) / 4 := by
  induction n with
  | zero => simp
  | succ n ih => rw [Finset.sum_range_succ, ih]; push_cast; ring

theorem sum_choose_choose (n p q : ℕ) :
    ∑ j ∈ Finset.range n, j.choose p * (n - 1 - j).choose q = n.choose (p + q + 1) := by
  induction n generalizing q with
  | zero => simp
  | succ n ih =>
    rw [Finset.sum_range_succ]
    cases q with
    | zero =>
      have := ih 0
      simp only [Nat.choose_zero_right, mul_one] at this ⊢
      rw [this, Nat.add_zero, Nat.choose_succ_succ, add_comm]
    | succ q =>
      have h0 : n.choose p * (n + 1 - 1 - n).choose (q + 1) = 0 := by simp
      rw [h0, add_zero]
      have : ∀ j ∈ Finset.range n, j.choose p * (n + 1 - 1 - j).choose (q + 1) =
          j.choose p * (n - 1 - j).choose q + j.choose p * (n - 1 - j).choose (q + 1) := by
        intro j hj
        have hj := Finset.mem_range.mp hj
        rw [show n + 1 - 1 - j = (n - 1 - j) + 1 by omega, Nat.choose_succ_succ]; ring
      rw [Finset.sum_congr rfl this, Finset.sum_add_distrib, ih, ih, ← Nat.add_assoc,
        Nat.choose_succ_succ]

theorem sum_pstarmod {t r n : ℕ} (ht : 1 ≤ t) (hr : 2 ≤ r) :
    ∑ i ∈ Finset.Ico 2 n, pstarmod t r n i = 0 := by
  have hfull : ∑ i ∈ Finset.Ico 2 n, pstarmod t r n i =
      ∑ j ∈ Finset.range n, pstarmod t r n (j + 1) := by
    rcases Nat.lt_or_ge n 2 with h | h
    · rw [Finset.Ico_eq_empty (by omega), Finset.sum_empty]
      symm
      refine Finset.sum_eq_zero fun j hj => ?_
      have := Finset.mem_range.mp hj
      refine Finset.sum_eq_zero fun k hk => ?_
      have := Finset.mem_range.mp hk
      rw [show n - (j + 1) = 0 by omega, Nat.choose_eq_zero_of_lt (show 0 < t + k by omega)]
      simp
    · obtain ⟨m, rfl⟩ : ∃ m, n = m + 2 := ⟨n - 2, by omega⟩
      rw [Finset.sum_range_succ, Finset.sum_range_succ', Finset.sum_Ico_eq_sum_range]
      have z1 : pstarmod t r (m + 2) (m + 1 + 1) = 0 := by
        refine Finset.sum_eq_zero fun k _ => ?_
        rw [show m + 2 - (m + 1 + 1) = 0 by omega,
          Nat.choose_eq_zero_of_lt (show 0 < t + k by omega)]
        simp
      have z2 : pstarmod t r (m + 2) (0 + 1) = 0 := by
        refine Finset.sum_eq_zero fun k hk => ?_
        have := Finset.mem_range.mp hk
        rw [show 0 + 1 - 1 = 0 by omega,
          Nat.choose_eq_zero_of_lt (show 0 < r + t - 1 - k by omega)]
        simp
      rw [z1, z2, add_zero, add_zero, show m + 2 - 2 = m by omega]
      refine Finset.sum_congr rfl fun j _ => ?_
      rw [show 2 + j = j + 1 + 1 by omega]
  rw [hfull]
  unfold pstarmod
  rw [Finset.sum_comm]
  have hk : ∀ k ∈ Finset.range r, ∑ j ∈ Finset.range n, (-1 : ℝ) ^ k * (r - 1).choose k *
      (j + 1 - 1).choose (r + t - 1 - k) * (n - (j + 1)).choose (t + k) =
      (-1 : ℝ) ^ k * (r - 1).choose k * n.choose (r + 2 * t) := by
    intro k hk
    have := Finset.mem_range.mp hk
    have hc := sum_choose_choose n (r + t - 1 - k) (t + k)
    rw [show r + t - 1 - k + (t + k) + 1 = r + 2 * t by omega] at hc
    rw [← hc]
    push_cast
    rw [Finset.mul_sum]
    refine Finset.sum_congr rfl fun j _ => ?_
    rw [show n - (j + 1) = n - 1 - j by omega]
    ring
  rw [Finset.sum_congr rfl hk, ← Finset.sum_mul]
  have h0 := Int.alternating_sum_range_choose_of_ne (n := r - 1) (by omega)
  rw [show r - 1 + 1 = r by omega] at h0
  have h0' : ∑ k ∈ Finset.range r, (-1 : ℝ) ^ k * (r - 1).choose k = 0 := by
    exact_mod_cast congrArg (Int.cast : ℤ → ℝ) h0
  rw [h0', zero_mul]

end Pysatl.Normal
