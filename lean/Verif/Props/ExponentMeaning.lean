import Verif.Props.Exponent
import Verif.Spec.Exponent
import Verif.Lemmas.Likelihood
import Mathlib.Algebra.Order.Chebyshev

/-! # C81, C82: meaning and range of the exponentiality statistics -/

namespace Pysatl.Props

open Pysatl Pysatl.Decision Pysatl.Graph Pysatl.Edf Pysatl.Exponent Pysatl.Spec

theorem double_sum {g : ℝ → ℝ → ℝ} (hg : ∀ a b, g a b = g b a) : ∀ l : List ℝ,
    (l.map fun x => (l.map fun y => g x y).sum).sum =
      2 * pairSum g l + (l.map fun x => g x x).sum
  | [] => by simp [pairSum]
  | a :: l => by
    have e : (l.map fun x => ((a :: l).map fun y => g x y).sum).sum =
        (l.map (g a)).sum + (l.map fun x => (l.map fun y => g x y).sum).sum := by
      simp only [List.map_cons, List.sum_cons, List.sum_map_add]
      congr 3
      funext x; exact hg x a
    rw [List.map_cons, List.sum_cons, e, double_sum hg l, pairSum]
    simp only [List.map_cons, List.sum_cons]
    ring

theorem gini_pairs (rvs : List ℝ) :
    gini rvs = pairSum (fun x y => |x - y|) rvs / ((rvs.length - 1) * rvs.sum) := by
  have hl : (sort rvs).length = rvs.length := (sort_perm rvs).length_eq
  have h1 := sum_pair_diff (sort rvs)
  have h2 : pairSum (fun x y : ℝ => y - x) (sort rvs) = pairSum (fun x y => |x - y|) (sort rvs) :=
    pairSum_congr (R := (· ≤ ·)) (fun a b h => by
      rw [abs_sub_comm, abs_of_nonneg (sub_nonneg.2 h)]) (sort_pairwise rvs)
  rw [h2, pairSum_perm (fun a b => abs_sub_comm a b) (sort_perm rvs), hl] at h1
  simp only [gini, h1, (sort_perm rvs).sum_eq]

/-- **C82.** The Gini statistic computed from the weighted gaps of the ordered sample is the Gini
coefficient: the mean absolute difference of two distinct observations over twice the mean.  It
lies in `[0, 1]` for non-negative samples. -/
theorem C82_gini {rvs : List ℝ} (hn : 2 ≤ rvs.length) :
    ExpStat.value .gini rvs = .ok (giniCoefficient rvs) ∧
    ((∀ x ∈ rvs, 0 ≤ x) → 0 ≤ giniCoefficient rvs ∧ giniCoefficient rvs ≤ 1) := by
  have hn' : (2 : ℝ) ≤ rvs.length := by exact_mod_cast hn
  have h0 : (rvs.length : ℝ) ≠ 0 := by linarith
  have h1 : (rvs.length : ℝ) - 1 ≠ 0 := by linarith
  have e : gini rvs = giniCoefficient rvs := by
    have h2 : (rvs.map fun x => |x - x|).sum = 0 := by
      simp
    rw [gini_pairs, giniCoefficient, double_sum (fun a b => abs_sub_comm a b), h2, add_zero]
    by_cases hs : rvs.sum = 0
    · simp [hs]
    · field_simp
  refine ⟨by rw [ExpStat.value, e], fun hpos => ?_⟩
  have hs : 0 ≤ rvs.sum := List.sum_nonneg hpos
  rw [← e, gini_pairs]
  have hz : pairSum (fun _ _ : ℝ => (0 : ℝ)) rvs = 0 := by
    clear * -
    induction rvs with
    | nil => rfl
    | cons a l ih => rw [pairSum, ih]; simp
  have hp : 0 ≤ pairSum (fun x y => |x - y|) rvs := by
    rw [← hz]
    exact pairSum_le (P := fun _ => True) (fun a b _ _ => abs_nonneg _) (by simp)
  refine ⟨div_nonneg hp (mul_nonneg (by linarith) hs), div_le_one_of_le₀ ?_
    (mul_nonneg (by linarith) hs)⟩
  rw [← pairSum_add]
  refine pairSum_le (P := fun x => 0 ≤ x) (fun a b ha hb => ?_) hpos
  rw [abs_le]; constructor <;> linarith

example : ExpStat.value .gini [1, 3] = .ok (1 / 2) ∧ giniCoefficient [1, 3] = 1 / 2 := by
  have h := (C82_gini (rvs := [1, 3]) (by simp)).1
  have : giniCoefficient [1, 3] = 1 / 2 := by
    simp only [giniCoefficient, List.map_cons, List.map_nil, List.sum_cons, List.sum_nil,
      List.length_cons, List.length_nil]
    norm_num
  exact ⟨by rw [h, this], this⟩

/-! ### C81: ranges -/

theorem sum_pos' {rvs : List ℝ} (hne : rvs ≠ []) (hpos : ∀ x ∈ rvs, 0 < x) : 0 < rvs.sum :=
  List.sum_pos _ hpos hne

theorem len_pos {rvs : List ℝ} (hne : rvs ≠ []) : (0 : ℝ) < rvs.length := by
  exact_mod_cast List.length_pos_iff.2 hne

theorem mean_pos {rvs : List ℝ} (hne : rvs ≠ []) (hpos : ∀ x ∈ rvs, 0 < x) : 0 < mean rvs :=
  div_pos (sum_pos' hne hpos) (len_pos hne)

/-- Wong and Wong's ratio of the largest to the smallest observation is at least 1, and equal to 1
exactly for constant samples. -/
theorem C81_wongWong {rvs : List ℝ} (hne : rvs ≠ []) (hpos : ∀ x ∈ rvs, 0 < x) :
    ∃ v, ExpStat.value .wongWong rvs = .ok v ∧ 1 ≤ v ∧ (v = 1 ↔ Constant rvs) := by
  obtain ⟨a, ha⟩ := npMax_exists hne
  obtain ⟨b, hb⟩ := pyMin_exists hne
  refine ⟨a / b, by simp only [ExpStat.value, wongWong, ha, hb, bind, Except.bind, pure, Except.pure],
    ?_, ?_⟩
  all_goals
    rw [npMax_eq_ok] at ha
    rw [pyMin_eq_ok] at hb
    have hb0 := hpos b hb.1
  · rw [le_div_iff₀ hb0, one_mul]; exact hb.2 a ha.1
  · rw [div_eq_one_iff_eq hb0.ne']
    constructor
    · intro e x hx y hy
      have := ha.2 x hx
      have := ha.2 y hy
      have := hb.2 x hx
      have := hb.2 y hy
      linarith
    · intro h; exact h a ha.1 b hb.1

/-- For a list of positive numbers the mean of the logarithms of the values relative to the mean
is at most 0, with equality exactly when they are all equal. -/
theorem sum_log_ratio {d : List ℝ} (hne : d ≠ []) (hpos : ∀ x ∈ d, 0 < x) :
    (d.map fun x => Real.log (x / mean d)).sum ≤ 0 ∧
    ((d.map fun x => Real.log (x / mean d)).sum = 0 ↔ Constant d) := by
  have hm := mean_pos hne hpos
  have hl := len_pos hne
  have hs : (d.map fun x => x / mean d - 1).sum = 0 := by
    have : ∀ l : List ℝ, (l.map fun x => x / mean d - 1).sum = l.sum / mean d - l.length := fun l => by
      induction l with
      | nil => simp
      | cons a l ih => simp only [List.map_cons, List.sum_cons, ih, List.length_cons]; push_cast; ring
    rw [this, mean]
    have := (sum_pos' hne hpos).ne'
    field_simp; simp
  have hle : ∀ x ∈ d, Real.log (x / mean d) ≤ x / mean d - 1 := fun x hx =>
    Real.log_le_sub_one_of_pos (div_pos (hpos x hx) hm)
  have h1 : (d.map fun x => Real.log (x / mean d)).sum ≤ (d.map fun x => x / mean d - 1).sum :=
    List.sum_le_sum hle
  refine ⟨h1.trans hs.le, ?_, ?_⟩
  · intro h0
    have key : ∀ x ∈ d, x = mean d := by
      intro x hx
      by_contra hxm
      have : (d.map fun x => Real.log (x / mean d)).sum < (d.map fun x => x / mean d - 1).sum :=
        List.sum_lt_sum _ _ hle ⟨x, hx, Real.log_lt_sub_one_of_pos (div_pos (hpos x hx) hm) (by
          rw [ne_eq, div_eq_one_iff_eq hm.ne']; exact hxm)⟩
      linarith
    intro x hx y hy
    rw [key x hx, key y hy]
  · intro hc
    obtain ⟨a, ha⟩ := List.exists_mem_of_ne_nil d hne
    have hrep : d = List.replicate d.length a := List.eq_replicate_iff.2 ⟨rfl, fun x hx => hc x hx a ha⟩
    have hma : mean d = a := by
      rw [mean]
      have : d.sum = d.length * a := by conv_lhs => rw [hrep]; rw [List.sum_replicate, nsmul_eq_mul]
      rw [this]; field_simp
    have : d.map (fun x => Real.log (x / mean d)) = d.map fun _ => 0 := by
      refine List.map_congr_left fun x hx => ?_
      rw [hc x hx a ha, hma, div_self (hpos a ha).ne', Real.log_one]
    rw [this]; simp

/-- Moran's statistic never exceeds Euler's constant, and attains it exactly for constant
samples. -/
theorem C81_moran {rvs : List ℝ} (hne : rvs ≠ []) (hpos : ∀ x ∈ rvs, 0 < x) :
    ∃ v, ExpStat.value .moran rvs = .ok v ∧ v ≤ Real.eulerMascheroniConstant ∧
      (v = Real.eulerMascheroniConstant ↔ Constant rvs) := by
  obtain ⟨h1, h2⟩ := sum_log_ratio hne hpos
  have hl := len_pos hne
  refine ⟨_, rfl, ?_, ?_⟩
  · rw [moran, mean, List.length_map]
    have := div_nonpos_of_nonpos_of_nonneg h1 hl.le
    linarith
  · rw [← h2, moran]
    rw [show mean (List.map (fun x => Real.log (x / mean rvs)) rvs) =
      (List.map (fun x => Real.log (x / mean rvs)) rvs).sum / rvs.length by
        rw [mean, List.length_map], add_eq_left, div_eq_zero_iff]
    exact ⟨fun h => h.resolve_right hl.ne', Or.inl⟩

/-- Epstein's statistic is never negative, and zero exactly when all normalised spacings of the
ordered sample (with the origin) are equal. -/
theorem C81_epstein {rvs : List ℝ} (hne : rvs ≠ []) (hpos : ∀ x ∈ rvs, 0 < x) (hd : rvs.Nodup) :
    ∃ v, ExpStat.value .epstein rvs = .ok v ∧ 0 ≤ v ∧
      (v = 0 ↔ Constant (normSpacings (0 :: sort rvs))) := by
  have hsp := normSpacings_pos (sort_zero_strict hpos hd)
  set d := normSpacings (0 :: sort rvs) with hdd
  have hlen : d.length = rvs.length := by
    rw [hdd, normSpacings_length, List.length_cons, (sort_perm rvs).length_eq]; rfl
  have hn : rvs.length ≠ 0 := (List.length_pos_iff.2 hne).ne'
  have hdne : d ≠ [] := by intro e; rw [e] at hlen; exact hn hlen.symm
  have hl : (0 : ℝ) < rvs.length := len_pos hne
  have hm : mean d = d.sum / rvs.length := by rw [mean, hlen]
  have hmp := mean_pos hdne hsp
  obtain ⟨h1, h2⟩ := sum_log_ratio hdne hsp
  have e : (d.map fun x => Real.log (x / mean d)).sum =
      (d.map Real.log).sum - rvs.length * Real.log (d.sum / rvs.length) := by
    rw [← hm, ← hlen]
    have : ∀ l : List ℝ, (∀ x ∈ l, 0 < x) → (l.map fun x => Real.log (x / mean d)).sum =
        (l.map Real.log).sum - l.length * Real.log (mean d) := fun l hl => by
      induction l with
      | nil => simp
      | cons a l ih =>
        simp only [List.map_cons, List.sum_cons, List.length_cons, ih fun x hx => hl x (by simp [hx]),
          Real.log_div (hl a (by simp)).ne' hmp.ne']
        push_cast; ring
    exact this d hsp
  have ev : 2 * (rvs.length : ℝ) * (Real.log (d.sum / rvs.length) - (d.map Real.log).sum / rvs.length) /
      (1 + (rvs.length + 1) / (6 * rvs.length)) =
      -(d.map fun x => Real.log (x / mean d)).sum * (2 / (1 + (rvs.length + 1) / (6 * rvs.length))) := by
    rw [e]
    generalize (d.map Real.log).sum = S
    generalize Real.log (d.sum / rvs.length) = T
    have : (1 + ((rvs.length : ℝ) + 1) / (6 * rvs.length)) ≠ 0 := by positivity
    field_simp
    ring
  have hc : 0 < 2 / (1 + ((rvs.length : ℝ) + 1) / (6 * rvs.length)) := by positivity
  refine ⟨_, by simp only [ExpStat.value, epstein, if_neg hn, ← hdd]; rfl, ?_, ?_⟩
  · rw [ev]; exact mul_nonneg (by linarith) hc.le
  · rw [ev, ← h2, mul_eq_zero, neg_eq_zero]
    exact ⟨fun h => h.resolve_right hc.ne', Or.inl⟩

theorem sum_cross (A B : List ℝ) (hAB : ∀ a ∈ A, ∀ b ∈ B, a ≤ b) :
    (B.length : ℝ) * A.sum ≤ A.length * B.sum := by
  induction A with
  | nil => simp
  | cons a A ih =>
    have h2 := ih fun a' ha' => hAB a' (by simp [ha'])
    have h3 : (B.length : ℝ) * a ≤ B.sum := by
      have := List.card_nsmul_le_sum B a fun b hb => hAB a (by simp) b hb
      simpa using this
    simp only [List.sum_cons, List.length_cons]; push_cast; nlinarith

/-- The Lorenz statistic is the share of the total held by the `⌊n p⌋` smallest observations; it
lies between `0` and `p`. -/
theorem C81_lorenz {rvs : List ℝ} (hne : rvs ≠ []) (hpos : ∀ x ∈ rvs, 0 < x) {p : ℝ} (hp : 0 ≤ p)
    (hp1 : p ≤ 1) : ∃ v, ExpStat.value (.lorenz p) rvs = .ok v ∧ 0 ≤ v ∧ v ≤ p := by
  have hs := sum_pos' hne hpos
  have hl := len_pos hne
  have hpos' : ∀ x ∈ sort rvs, 0 < x := fun x hx => hpos x ((sort_perm rvs).mem_iff.1 hx)
  refine ⟨_, by simp only [ExpStat.value, lorenz, if_neg hne]; rfl, ?_, ?_⟩
  · rw [(sort_perm rvs).sum_eq]
    exact div_nonneg (List.sum_nonneg fun x hx => (hpos' x (List.mem_of_mem_take hx)).le) hs.le
  · set k := ⌊(rvs.length : ℝ) * p⌋₊ with hk
    have hkl : (k : ℝ) ≤ rvs.length * p := Nat.floor_le (by positivity)
    have hkn : k ≤ rvs.length := by
      have : (k : ℝ) ≤ rvs.length := hkl.trans (by nlinarith)
      exact_mod_cast this
    have hsplit : (sort rvs).sum = ((sort rvs).take k).sum + ((sort rvs).drop k).sum := by
      rw [← List.sum_append, List.take_append_drop]
    set A := (sort rvs).take k with hA
    set B := (sort rvs).drop k with hB
    have hlA : A.length = k := by
      rw [hA, List.length_take, (sort_perm rvs).length_eq]; omega
    have hlB : B.length = rvs.length - k := by
      rw [hB, List.length_drop, (sort_perm rvs).length_eq]
    have hAB : ∀ a ∈ A, ∀ b ∈ B, a ≤ b := by
      have := sort_pairwise rvs
      rw [← List.take_append_drop k (sort rvs), List.pairwise_append] at this
      exact this.2.2
    have h1 : (B.length : ℝ) * A.sum ≤ A.length * B.sum := sum_cross A B hAB
    rw [hlA, hlB, Nat.cast_sub hkn] at h1
    have hs' : 0 < A.sum + B.sum := by rw [← hsplit, (sort_perm rvs).sum_eq]; exact hs
    rw [hsplit, div_le_iff₀ hs']
    have h2 : (rvs.length : ℝ) * A.sum ≤ k * (A.sum + B.sum) := by linarith
    have h3 : (k : ℝ) * (A.sum + B.sum) ≤ rvs.length * p * (A.sum + B.sum) :=
      mul_le_mul_of_nonneg_right hkl hs'.le
    nlinarith

/-- The Pietra statistic of a positive sample lies in `[0, 1)`. -/
theorem C81_pietra {rvs : List ℝ} (hne : rvs ≠ []) (hpos : ∀ x ∈ rvs, 0 < x) :
    ∃ v, ExpStat.value .pietra rvs = .ok v ∧ 0 ≤ v ∧ v < 1 := by
  have hm := mean_pos hne hpos
  have hl := len_pos hne
  refine ⟨_, rfl, ?_, ?_⟩
  · refine div_nonneg (List.sum_nonneg fun y hy => ?_) (by positivity)
    obtain ⟨x, _, rfl⟩ := List.mem_map.1 hy
    exact abs_nonneg _
  · rw [pietra, div_lt_one (by positivity)]
    have h1 : (rvs.map fun x => |x - mean rvs|).sum < (rvs.map fun x => x + mean rvs).sum := by
      obtain ⟨a, ha⟩ := List.exists_mem_of_ne_nil rvs hne
      refine List.sum_lt_sum _ _ (fun x hx => ?_) ⟨a, ha, ?_⟩
      · have := hpos x hx
        rw [abs_le]; constructor <;> linarith
      · have := hpos a ha
        rw [abs_lt]; constructor <;> linarith
    have h2 : ∀ l : List ℝ, (l.map fun x => x + mean rvs).sum = l.sum + l.length * mean rvs := fun l => by
      induction l with
      | nil => simp
      | cons a l ih => simp only [List.map_cons, List.sum_cons, ih, List.length_cons]; push_cast; ring
    have h3 : rvs.sum = rvs.length * mean rvs := by rw [mean]; field_simp
    rw [h2, h3] at h1
    linarith

theorem indicator_le {p : Prop} [Decidable p] : (if p then 1 else 0) ≤ 1 := by split <;> simp

/-- Deshpande's statistic is a proportion. -/
theorem C81_deshpande (b : ℝ) {rvs : List ℝ} (hn : 2 ≤ rvs.length) :
    ∃ v, ExpStat.value (.deshpande b) rvs = .ok v ∧ 0 ≤ v ∧ v ≤ 1 := by
  have hn' : (2 : ℝ) ≤ rvs.length := by exact_mod_cast hn
  have h0 : 0 < (rvs.length : ℝ) * (rvs.length - 1) := mul_pos (by linarith) (by linarith)
  refine ⟨_, by simp only [ExpStat.value, deshpande, if_neg (show ¬ rvs.length ≤ 1 by omega)]; rfl,
    div_nonneg (Nat.cast_nonneg _) h0.le, ?_⟩
  rw [div_le_one h0]
  have : desCount b rvs ≤ rvs.length * (rvs.length - 1) := by
    have e : rvs.length * (rvs.length - 1) = (Finset.range rvs.length).card • (rvs.length - 1) := by
      rw [Finset.card_range, smul_eq_mul]
    rw [desCount, e]
    refine Finset.sum_le_card_nsmul (Finset.range rvs.length) _ (rvs.length - 1) fun i hi => ?_
    calc _ ≤ ∑ k ∈ Finset.range rvs.length, if k ≠ i then 1 else 0 := by
          refine Finset.sum_le_sum fun k _ => ?_
          by_cases h : k = i
          · subst h; simp
          · simp only [ne_eq, h, not_false_eq_true, if_true]; exact indicator_le
      _ = ((Finset.range rvs.length).erase i).card := by
          rw [← Finset.sum_filter, Finset.sum_const, smul_eq_mul, mul_one, Finset.filter_ne']
      _ ≤ rvs.length - 1 := by rw [Finset.card_erase_of_mem (by simpa using hi)]; simp
  have h2 : (desCount b rvs : ℝ) ≤ ((rvs.length * (rvs.length - 1) : ℕ) : ℝ) := by exact_mod_cast this
  rw [Nat.cast_mul, Nat.cast_sub (by omega)] at h2
  simpa using h2

/-- Ahsanullah's statistic is a difference of two proportions. -/
theorem C81_ahsanullah {rvs : List ℝ} (hne : rvs ≠ []) :
    ∃ v, ExpStat.value .ahsanullah rvs = .ok v ∧ -1 ≤ v ∧ v ≤ 1 := by
  have hn : rvs.length ≠ 0 := (List.length_pos_iff.2 hne).ne'
  have hl := len_pos hne
  have key : ∀ P : ℕ → ℕ → ℕ → Prop, ∀ _ : ∀ i j k, Decidable (P i j k),
      (∑ k ∈ Finset.range rvs.length, ∑ i ∈ Finset.range rvs.length, ∑ j ∈ Finset.range rvs.length,
        if P i j k then 1 else 0) ≤ rvs.length ^ 3 := fun P _ => by
    calc _ ≤ ∑ k ∈ Finset.range rvs.length, ∑ i ∈ Finset.range rvs.length,
          ∑ j ∈ Finset.range rvs.length, 1 :=
          Finset.sum_le_sum fun k _ => Finset.sum_le_sum fun i _ => Finset.sum_le_sum fun j _ =>
            indicator_le
      _ = rvs.length ^ 3 := by simp; ring
  have h1 : (ahsH rvs : ℝ) ≤ (rvs.length : ℝ) ^ 3 := by exact_mod_cast key _ _
  have h2 : (ahsG rvs : ℝ) ≤ (rvs.length : ℝ) ^ 3 := by exact_mod_cast key _ _
  have h3 : (0 : ℝ) ≤ ahsH rvs := Nat.cast_nonneg _
  have h4 : (0 : ℝ) ≤ ahsG rvs := Nat.cast_nonneg _
  have h5 : (0 : ℝ) < (rvs.length : ℝ) ^ 3 := by positivity
  refine ⟨_, by simp only [ExpStat.value, ahsanullah, if_neg hn]; rfl, ?_, ?_⟩
  · rw [le_div_iff₀ h5]; linarith
  · rw [div_le_iff₀ h5]; linarith

/-- The Hollander-Proschan statistic is a proportion. -/
theorem C81_hollanderProschan {rvs : List ℝ} (hn : 3 ≤ rvs.length) :
    ∃ v, ExpStat.value .hollanderProschan rvs = .ok v ∧ 0 ≤ v ∧ v ≤ 1 := by
  have hn' : (3 : ℝ) ≤ rvs.length := by exact_mod_cast hn
  have h0 : 0 < (rvs.length : ℝ) * (rvs.length - 1) * (rvs.length - 2) :=
    mul_pos (mul_pos (by linarith) (by linarith)) (by linarith)
  refine ⟨_, by simp only [ExpStat.value, hollanderProschan,
    if_neg (show ¬ rvs.length ≤ 2 by omega)]; rfl, by positivity, ?_⟩
  have key : 2 * hpCount rvs ≤ rvs.length * (rvs.length - 1) * (rvs.length - 2) := by
    have h2 : hpCount rvs = ∑ j ∈ Finset.range rvs.length, ∑ k ∈ Finset.range rvs.length,
        ∑ i ∈ Finset.range rvs.length,
          if i ≠ j ∧ i ≠ k ∧ j < k ∧ at_ rvs j + at_ rvs k < at_ rvs i then 1 else 0 := by
      rw [hpCount, Finset.sum_comm]
      exact Finset.sum_congr rfl fun j _ => Finset.sum_comm
    have h3 : hpCount rvs ≤ ∑ j ∈ Finset.range rvs.length, ∑ k ∈ Finset.range rvs.length,
        (if j < k then 1 else 0) * (rvs.length - 2) := by
      rw [h2]
      refine Finset.sum_le_sum fun j hj => Finset.sum_le_sum fun k hk => ?_
      by_cases hjk : j < k
      · rw [if_pos hjk, one_mul]
        calc _ ≤ ∑ i ∈ Finset.range rvs.length, if i ≠ k ∧ i ≠ j then 1 else 0 := by
              refine Finset.sum_le_sum fun i _ => ?_
              by_cases h : i ≠ k ∧ i ≠ j
              · rw [if_pos h]; exact indicator_le
              · rw [if_neg h, if_neg]; tauto
          _ = (((Finset.range rvs.length).erase j).erase k).card := by
              rw [← Finset.sum_filter, Finset.sum_const, smul_eq_mul, mul_one]
              congr 1
              ext i; simp only [Finset.mem_filter, Finset.mem_erase]; tauto
          _ ≤ rvs.length - 2 := by
              rw [Finset.card_erase_of_mem (Finset.mem_erase.2 ⟨by omega, hk⟩),
                Finset.card_erase_of_mem hj, Finset.card_range]; omega
      · simp [hjk]
    simp only [← Finset.sum_mul] at h3
    rw [sum_pair (fun _ _ => 1) rvs] at h3
    have h4 := pairSum_one rvs
    calc _ ≤ 2 * (pairSum (fun _ _ : ℝ => 1) rvs * (rvs.length - 2)) := by omega
      _ = _ := by rw [← mul_assoc, h4]
  have h2 : (2 * hpCount rvs : ℝ) ≤ ((rvs.length * (rvs.length - 1) * (rvs.length - 2) : ℕ) : ℝ) := by
    exact_mod_cast key
  rw [Nat.cast_mul, Nat.cast_mul, Nat.cast_sub (by omega), Nat.cast_sub (by omega)] at h2
  rw [div_mul_eq_mul_div, div_le_one h0]
  simpa using h2

/-- Rossberg's statistic is a difference of two proportions. -/
theorem C81_rossberg {rvs : List ℝ} (hn : 3 ≤ rvs.length) :
    ∃ v, ExpStat.value .rossberg rvs = .ok v ∧ -1 ≤ v ∧ v ≤ 1 := by
  have hl : (0 : ℝ) < rvs.length := by exact_mod_cast (by omega : 0 < rvs.length)
  set n := rvs.length with hnn
  have hf : (0 : ℝ) < n.factorial := by exact_mod_cast n.factorial_pos
  obtain ⟨k, hk⟩ : ∃ k, n = k + 3 := ⟨n - 3, by omega⟩
  have hfac : n.factorial = n * (n - 1) * (n - 2) * (n - 3).factorial := by
    rw [hk]; simp only [Nat.factorial_succ, Nat.add_sub_cancel, Nat.reduceSubDiff]; ring
  have hfac2 : n.factorial = n * (n - 1) * (n - 2).factorial := by
    rw [hk]; simp only [Nat.factorial_succ, Nat.reduceSubDiff]; ring
  have hH : ∀ m, 0 ≤ 6 * ((n - 3).factorial : ℝ) / n.factorial * rsH rvs m ∧
      6 * ((n - 3).factorial : ℝ) / n.factorial * rsH rvs m ≤ 1 := fun m => by
    refine ⟨by positivity, ?_⟩
    rw [div_mul_eq_mul_div, div_le_one hf]
    have h1 : rsH rvs m ≤ tripleSum (fun _ _ _ : ℝ => 1) rvs := by
      rw [rsH_eq]; exact tripleSum_le (fun a b c => indicator_le) rvs
    have h2 := tripleSum_one rvs
    have h3 : 6 * (n - 3).factorial * rsH rvs m ≤ n.factorial := by
      calc 6 * (n - 3).factorial * rsH rvs m
          ≤ 6 * (n - 3).factorial * tripleSum (fun _ _ _ : ℝ => 1) rvs := Nat.mul_le_mul_left _ h1
        _ = (n - 3).factorial * (6 * tripleSum (fun _ _ _ : ℝ => 1) rvs) := by ring
        _ = n.factorial := by rw [h2, hfac]; ring
    exact_mod_cast h3
  have hG : ∀ m, 0 ≤ 2 * ((n - 2).factorial : ℝ) / n.factorial * rsG rvs m ∧
      2 * ((n - 2).factorial : ℝ) / n.factorial * rsG rvs m ≤ 1 := fun m => by
    refine ⟨by positivity, ?_⟩
    rw [div_mul_eq_mul_div, div_le_one hf]
    have h1 : rsG rvs m ≤ pairSum (fun _ _ : ℝ => 1) rvs := by
      rw [rsG_eq]
      exact pairSum_le (P := fun _ => True) (fun a b _ _ => indicator_le) (by simp)
    have h2 := pairSum_one rvs
    have h3 : 2 * (n - 2).factorial * rsG rvs m ≤ n.factorial := by
      calc 2 * (n - 2).factorial * rsG rvs m
          ≤ 2 * (n - 2).factorial * pairSum (fun _ _ : ℝ => 1) rvs := Nat.mul_le_mul_left _ h1
        _ = (n - 2).factorial * (2 * pairSum (fun _ _ : ℝ => 1) rvs) := by ring
        _ = n.factorial := by rw [h2, hfac2]; ring
    exact_mod_cast h3
  have hsum : ∀ f : ℕ → ℝ, (∀ m, 0 ≤ f m ∧ f m ≤ 1) →
      0 ≤ ∑ m ∈ Finset.range n, f m ∧ ∑ m ∈ Finset.range n, f m ≤ n := fun f hf =>
    ⟨Finset.sum_nonneg fun m _ => (hf m).1, (Finset.sum_le_card_nsmul _ _ 1 fun m _ => (hf m).2).trans
      (by simp)⟩
  refine ⟨_, by simp only [ExpStat.value, rossberg, ← hnn, if_neg (show ¬ n = 0 by omega),
    if_neg (show ¬ n < 3 by omega)]; rfl, ?_⟩
  have h1 := hsum (fun m => 6 * ((n - 3).factorial : ℝ) / n.factorial * rsH rvs (at_ rvs m))
    fun m => hH _
  have h2 := hsum (fun m => 2 * ((n - 2).factorial : ℝ) / n.factorial * rsG rvs (at_ rvs m))
    fun m => hG _
  constructor
  · rw [le_div_iff₀ hl]; linarith [h1.1, h2.2]
  · rw [div_le_iff₀ hl]; linarith [h1.2, h2.1]

/-- The Kimber-Michael statistic lies in `[0, 1]`. -/
theorem C81_kimberMichael {rvs : List ℝ} (hne : rvs ≠ []) :
    ∃ v, ExpStat.value .kimberMichael rvs = .ok v ∧ 0 ≤ v ∧ v ≤ 1 := by
  have hne' : (sort rvs).mapIdx (fun i v =>
      |2 / Real.pi * Real.arcsin √(((i : ℝ) + 1 - 1 / 2) / rvs.length) -
      2 / Real.pi * Real.arcsin √(1 - Real.exp (-(v / mean (sort rvs))))|) ≠ [] := by
    intro h
    have := congrArg List.length h
    rw [List.length_mapIdx, (sort_perm rvs).length_eq] at this
    exact hne (List.length_eq_zero_iff.1 this)
  obtain ⟨m, hm⟩ := npMax_exists hne'
  refine ⟨m, hm, ?_⟩
  rw [npMax_eq_ok] at hm
  obtain ⟨i, hi, rfl⟩ := List.mem_mapIdx.1 hm.1
  have key : ∀ z : ℝ, 0 ≤ 2 / Real.pi * Real.arcsin √z ∧ 2 / Real.pi * Real.arcsin √z ≤ 1 := fun z => by
    have h1 := Real.arcsin_nonneg.2 (Real.sqrt_nonneg z)
    have h2 := Real.arcsin_le_pi_div_two √z
    have hpi := Real.pi_pos
    refine ⟨by positivity, ?_⟩
    rw [div_mul_eq_mul_div, div_le_one hpi]; linarith
  refine ⟨abs_nonneg _, ?_⟩
  have h1 := key (((i : ℝ) + 1 - 1 / 2) / rvs.length)
  have h2 := key (1 - Real.exp (-((sort rvs)[i] / mean (sort rvs))))
  rw [abs_le]; constructor <;> linarith [h1.1, h1.2, h2.1, h2.2]

theorem sum_abs_le {α : Type} {f : α → ℝ} {c : ℝ} : ∀ {l : List α}, (∀ x ∈ l, |f x| ≤ c) →
    |(l.map f).sum| ≤ l.length * c
  | [], _ => by simp
  | a :: l, h => by
    have := sum_abs_le (l := l) fun x hx => h x (by simp [hx])
    rw [List.map_cons, List.sum_cons, List.length_cons]
    have h2 := abs_add_le (f a) (l.map f).sum
    have h3 := h a (by simp)
    push_cast; linarith

/-- The Epps-Pulley statistic of a positive sample of size `n` is at most `√(12 n)` in absolute
value. -/
theorem C81_eppsPulley {rvs : List ℝ} (hne : rvs ≠ []) (hpos : ∀ x ∈ rvs, 0 < x) :
    ∃ v, ExpStat.value .eppsPulley rvs = .ok v ∧ |v| ≤ √(12 * rvs.length) := by
  have hl := len_pos hne
  have hm := mean_pos hne hpos
  refine ⟨_, rfl, ?_⟩
  have h1 : |((rvs.map fun x => x / mean rvs).map fun v => Real.exp (-v) - 1 / 2).sum| ≤
      rvs.length * (1 / 2) := by
    rw [List.map_map]
    refine sum_abs_le fun x hx => ?_
    have h1 : 0 < x / mean rvs := div_pos (hpos x hx) hm
    have h2 := Real.exp_pos (-(x / mean rvs))
    have h3 : Real.exp (-(x / mean rvs)) ≤ 1 := Real.exp_le_one_iff.2 (by linarith)
    simp only [Function.comp]
    rw [abs_le]; constructor <;> linarith
  have h48 : √(48 * (rvs.length : ℝ)) = 2 * √(12 * rvs.length) := by
    rw [show (48 * (rvs.length : ℝ)) = 2 ^ 2 * (12 * rvs.length) by ring,
      Real.sqrt_mul (by norm_num), Real.sqrt_sq (by norm_num)]
  simp only [eppsPulley]
  rw [abs_div, abs_mul, abs_of_nonneg (Real.sqrt_nonneg _), abs_of_pos hl, div_le_iff₀ hl, h48]
  have := Real.sqrt_nonneg (12 * (rvs.length : ℝ))
  nlinarith

/-- The Frozini statistic of a positive sample of size `n` lies in `[0, √n]`. -/
theorem C81_frozini {rvs : List ℝ} (hne : rvs ≠ []) (hpos : ∀ x ∈ rvs, 0 < x) :
    ∃ v, ExpStat.value .frozini rvs = .ok v ∧ 0 ≤ v ∧ v ≤ √rvs.length := by
  have hl := len_pos hne
  have hm : 0 < mean (sort rvs) := by rw [mean_perm (sort_perm rvs)]; exact mean_pos hne hpos
  refine ⟨_, rfl, ?_, ?_⟩
  · refine mul_nonneg (by positivity) (List.sum_nonneg fun y hy => ?_)
    obtain ⟨i, hi, rfl⟩ := List.mem_mapIdx.1 hy
    exact abs_nonneg _
  · simp only [frozini]
    have h1 : ((sort rvs).mapIdx fun i v => |1 - Real.exp (-v / mean (sort rvs)) -
        ((i : ℝ) + 1 - 1 / 2) / rvs.length|).sum ≤ rvs.length := by
      refine (List.sum_le_card_nsmul _ 1 fun y hy => ?_).trans (by
        rw [List.length_mapIdx, (sort_perm rvs).length_eq]; simp)
      obtain ⟨i, hi, rfl⟩ := List.mem_mapIdx.1 hy
      have hx : 0 < (sort rvs)[i] := hpos _ ((sort_perm rvs).mem_iff.1 (List.getElem_mem _))
      have h2 := Real.exp_pos (-(sort rvs)[i] / mean (sort rvs))
      have h3 : Real.exp (-(sort rvs)[i] / mean (sort rvs)) ≤ 1 :=
        Real.exp_le_one_iff.2 (by rw [neg_div]; linarith [div_pos hx hm])
      rw [(sort_perm rvs).length_eq] at hi
      have hi' : (i : ℝ) + 1 ≤ rvs.length := by exact_mod_cast hi
      have h4 : 0 ≤ ((i : ℝ) + 1 - 1 / 2) / rvs.length :=
        div_nonneg (by have : (0 : ℝ) ≤ i := Nat.cast_nonneg _; linarith) hl.le
      have h5 : ((i : ℝ) + 1 - 1 / 2) / rvs.length ≤ 1 := by rw [div_le_one hl]; linarith
      rw [abs_le]; constructor <;> linarith
    have hsq := Real.sqrt_pos.2 hl
    rw [one_div, inv_mul_le_iff₀ hsq, Real.mul_self_sqrt hl.le]
    exact h1

/-- The Shapiro-Wilk statistic for exponentiality of a non-constant sample of size `n` lies between
`1 / (n - 1)²` and `1`. -/
theorem C81_shapiroWilk {rvs : List ℝ} (hn : 2 ≤ rvs.length) (hc : ¬ Constant rvs) :
    ∃ v, ExpStat.value .shapiroWilk rvs = .ok v ∧ 1 / ((rvs.length : ℝ) - 1) ^ 2 ≤ v ∧ v ≤ 1 := by
  have hn' : (2 : ℝ) ≤ rvs.length := by exact_mod_cast hn
  rcases hx : sort rvs with _ | ⟨x0, l⟩
  · have := (sort_perm rvs).length_eq
    rw [hx] at this; simp at this; omega
  have hlen : ((l.length : ℝ)) + 1 = rvs.length := by
    have := (sort_perm rvs).length_eq
    rw [hx] at this; simp at this; exact_mod_cast this
  refine ⟨_, by simp only [ExpStat.value, Exponent.shapiroWilk, hx]; rfl, ?_⟩
  have hmin : ∀ x ∈ l, x0 ≤ x := by
    have := sort_pairwise rvs
    rw [hx, List.pairwise_cons] at this
    exact this.1
  set y := mean (x0 :: l) with hy
  -- shifted values
  set S := (l.map fun x => x - x0).sum with hS
  set Q := (l.map fun x => (x - x0) ^ 2).sum with hQ
  have hymean : (rvs.length : ℝ) * (y - x0) = S := by
    have : ∀ l : List ℝ, (l.map fun x => x - x0).sum = l.sum - l.length * x0 := fun l => by
      induction l with
      | nil => simp
      | cons a l ih => simp only [List.map_cons, List.sum_cons, ih, List.length_cons]; push_cast; ring
    rw [hS, this, hy, mean, List.sum_cons, List.length_cons]
    push_cast
    rw [hlen, mul_sub, mul_div_cancel₀ _ (by linarith), ← hlen]
    ring
  have hsq : ((x0 :: l).map fun v => (v - y) ^ 2).sum = Q - (rvs.length : ℝ) * (y - x0) ^ 2 := by
    have : ∀ l : List ℝ, (l.map fun v => (v - y) ^ 2).sum =
        (l.map fun x => (x - x0) ^ 2).sum - 2 * (y - x0) * (l.map fun x => x - x0).sum +
          l.length * (y - x0) ^ 2 := fun l => by
      induction l with
      | nil => simp
      | cons a l ih => simp only [List.map_cons, List.sum_cons, ih, List.length_cons]; push_cast; ring
    rw [List.map_cons, List.sum_cons, this, ← hS, ← hQ, ← hymean, ← hlen]
    ring
  have hcs : S ^ 2 ≤ l.length * Q := by
    rw [hS, hQ]
    have h := @sq_sum_le_card_mul_sum_sq (Fin l.length) ℝ _ _ _ _ Finset.univ fun i => l[i] - x0
    have e1 : (l.map fun x => x - x0).sum = ∑ i : Fin l.length, (l[i] - x0) := by
      rw [← List.sum_ofFn]; congr 1
      exact List.ext_getElem (by simp) fun i h1 h2 => by simp
    have e2 : (l.map fun x => (x - x0) ^ 2).sum = ∑ i : Fin l.length, (l[i] - x0) ^ 2 := by
      rw [← List.sum_ofFn]; congr 1
      exact List.ext_getElem (by simp) fun i h1 h2 => by simp
    rw [e1, e2]
    simpa using h
  have hQS : Q ≤ S ^ 2 := by
    rw [hS, hQ]
    clear * - hmin
    induction l with
    | nil => simp
    | cons a l ih =>
      have h1 := ih fun x hx => hmin x (by simp [hx])
      have h2 : 0 ≤ (l.map fun x => x - x0).sum := List.sum_nonneg fun z hz => by
        obtain ⟨x, hx, rfl⟩ := List.mem_map.1 hz
        exact sub_nonneg.2 (hmin x (by simp [hx]))
      have h3 := sub_nonneg.2 (hmin a (by simp))
      simp only [List.map_cons, List.sum_cons]
      nlinarith [mul_nonneg h3 h2]
  have hSpos : 0 < S := by
    have h0 : 0 ≤ S := List.sum_nonneg fun z hz => by
        obtain ⟨x, hx, rfl⟩ := List.mem_map.1 hz
        exact sub_nonneg.2 (hmin x hx)
    rcases h0.lt_or_eq with h | h
    · exact h
    · exfalso
      apply hc
      have hall : ∀ x ∈ l, x = x0 := by
        intro x hx
        have : x - x0 ≤ S := List.single_le_sum (fun z hz => by
          obtain ⟨x, hx, rfl⟩ := List.mem_map.1 hz
          exact sub_nonneg.2 (hmin x hx)) _ (List.mem_map.2 ⟨x, hx, rfl⟩)
        have := hmin x hx
        linarith
      have hall' : ∀ x ∈ rvs, x = x0 := fun x hxr => by
        have : x ∈ x0 :: l := hx ▸ (sort_perm rvs).mem_iff.2 hxr
        rcases List.mem_cons.1 this with h | h
        · exact h
        · exact hall x h
      intro a ha b hb
      rw [hall' a ha, hall' b hb]
  rw [hsq]
  set n : ℝ := (rvs.length : ℝ) with hnn
  have hlr : (l.length : ℝ) = n - 1 := by linarith
  rw [hlr] at hcs
  set z := y - x0 with hz
  rw [← hymean] at hcs hQS hSpos
  have hzpos : 0 < z := by
    by_contra h
    have : n * z ≤ 0 := mul_nonpos_of_nonneg_of_nonpos (by linarith) (not_lt.1 h)
    linarith
  -- n z² ≤ (n-1)(Q - n z²)
  have key1 : n * z ^ 2 ≤ (n - 1) * (Q - n * z ^ 2) := by nlinarith
  have hD : 0 < (n - 1) * (Q - n * z ^ 2) := lt_of_lt_of_le (by positivity) key1
  constructor
  · rw [div_le_div_iff₀ (by nlinarith) hD]
    have : Q - n * z ^ 2 ≤ n * (n - 1) * z ^ 2 := by nlinarith
    have h3 : (n - 1) * (Q - n * z ^ 2) ≤ (n - 1) * (n * (n - 1) * z ^ 2) :=
      mul_le_mul_of_nonneg_left this (by linarith)
    nlinarith
  · rw [div_le_one hD]; exact key1

example : ∃ v, ExpStat.value .shapiroWilk [3, 1, 2] = .ok v ∧ 1 / ((3 : ℝ) - 1) ^ 2 ≤ v ∧ v ≤ 1 := by
  have := C81_shapiroWilk (rvs := [3, 1, 2]) (by simp) (by
    intro h; have := h 3 (by simp) 1 (by simp); norm_num at this)
  simpa using this

end Pysatl.Props
