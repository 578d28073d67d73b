import Verif.Props.Normal

/-!
# How the ingredients of the normality statistics react to `x ↦ -x`
-/

namespace Pysatl.Normal

open Pysatl.Decision Pysatl.Graph Pysatl.Edf Pysatl.Exponent Pysatl.Props

/-- The sample reflected about zero. -/
def mirror (xs : List ℝ) : List ℝ := xs.map fun x => -x

theorem mirror_eq (xs : List ℝ) : mirror xs = xs.map (aff 0 (-1)) :=
  List.map_congr_left fun x _ => by unfold aff; ring

theorem length_mirror (xs : List ℝ) : (mirror xs).length = xs.length := List.length_map _

theorem sort_antitone {f : ℝ → ℝ} (hf : ∀ x y, x ≤ y → f y ≤ f x) (l : List ℝ) :
    sort (l.map f) = ((sort l).map f).reverse := by
  refine List.Perm.eq_of_pairwise (le := (· ≤ ·)) (fun a b _ _ h1 h2 => le_antisymm h1 h2)
    (sort_pairwise _) ?_
    ((sort_perm _).trans (((sort_perm l).map f).symm.trans (List.reverse_perm _).symm))
  rw [List.pairwise_reverse, List.pairwise_map]
  exact (sort_pairwise l).imp fun h => hf _ _ h

theorem sort_mirror (xs : List ℝ) : sort (mirror xs) = (mirror (sort xs)).reverse :=
  sort_antitone (fun _ _ h => neg_le_neg h) xs

theorem mapIdx_congr {α : Type} {l : List ℝ} {f g : ℕ → ℝ → α}
    (h : ∀ i, ∀ hi : i < l.length, f i l[i] = g i l[i]) : l.mapIdx f = l.mapIdx g := by
  refine List.ext_getElem (by simp) fun i h1 h2 => ?_
  simp only [List.getElem_mapIdx]
  exact h i (by simpa using h1)

theorem mapIdx_reverse {α : Type} (l : List ℝ) (f : ℕ → ℝ → α) :
    l.reverse.mapIdx f = (l.mapIdx fun i => f (l.length - 1 - i)).reverse :=
  List.mapIdx_reverse

theorem mapIdx_map {α : Type} (l : List ℝ) (g : ℝ → ℝ) (f : ℕ → ℝ → α) :
    (l.map g).mapIdx f = l.mapIdx fun i x => f i (g x) := by
  refine List.ext_getElem (by simp) fun i h1 h2 => ?_
  simp

theorem cast_reflect {n i : ℕ} (hi : i < n) : ((n - 1 - i : ℕ) : ℝ) = n - 1 - i := by
  rw [Nat.cast_sub (by omega), Nat.cast_sub (by omega)]; simp

/-- A sum over positions read backwards. -/
theorem sum_mapIdx_reverse (l : List ℝ) (f : ℕ → ℝ → ℝ) :
    (l.reverse.mapIdx f).sum = (l.mapIdx fun i => f (l.length - 1 - i)).sum := by
  rw [mapIdx_reverse, List.sum_reverse]

theorem dot_congr {c d : ℕ → ℝ} {l : List ℝ} (h : ∀ i < l.length, c i = d i) :
    dot c l = dot d l := by
  unfold dot
  rw [mapIdx_congr fun i hi => by rw [h i hi]]

theorem dot_lin (a b : ℝ) (c d : ℕ → ℝ) (l : List ℝ) :
    dot (fun i => a * c i + b * d i) l = a * dot c l + b * dot d l := by
  unfold dot
  induction l generalizing c d with
  | nil => simp
  | cons x l ih =>
    simp only [List.mapIdx_cons, List.sum_cons]
    rw [ih (fun i => c (i + 1)) (fun i => d (i + 1))]
    ring

theorem dot_neg (c : ℕ → ℝ) (l : List ℝ) : dot (fun i => -c i) l = -dot c l := by
  have := dot_lin (-1) 0 c c l
  simpa using this

theorem dot_one (l : List ℝ) : dot (fun _ => 1) l = l.sum := by
  unfold dot
  congr 1
  refine List.ext_getElem (by simp) fun i h1 h2 => ?_
  simp

theorem dot_mirror (c : ℕ → ℝ) (l : List ℝ) :
    dot c (mirror l).reverse = -dot (fun i => c (l.length - 1 - i)) l := by
  rw [← dot_neg]
  unfold dot
  rw [sum_mapIdx_reverse, length_mirror, mirror, mapIdx_map]
  congr 1
  exact mapIdx_congr fun i hi => by ring

/-- Antisymmetric weights see the same sum in the reflected sample. -/
theorem dot_mirror_antisymm {c : ℕ → ℝ} {l : List ℝ}
    (hc : ∀ i < l.length, c (l.length - 1 - i) = -c i) : dot c (mirror l).reverse = dot c l := by
  rw [dot_mirror, dot_congr hc, dot_neg, neg_neg]

theorem mean_reverse (l : List ℝ) : mean l.reverse = mean l := mean_perm (List.reverse_perm l)

theorem mean_mirror (l : List ℝ) : mean (mirror l) = -mean l := by
  have e : ∀ k : List ℝ, (k.map fun x => -x).sum = -k.sum := fun k => by
    induction k with
    | nil => simp
    | cons x k ih => simp only [List.map_cons, List.sum_cons, ih]; ring
  unfold mean mirror
  rw [e, List.length_map, neg_div]

theorem map_mirror {α : Type} (l : List ℝ) (f : ℝ → α) :
    (mirror l).map f = l.map fun x => f (-x) := by
  unfold mirror; rw [List.map_map]; rfl

theorem map_cent_mirror {α : Type} (k l : List ℝ) (f : ℝ → α) :
    (mirror k).map (fun x => f (x - mean (mirror l))) = k.map fun x => f (-(x - mean l)) := by
  rw [map_mirror, mean_mirror]
  refine List.map_congr_left fun x _ => ?_
  rw [show -x - -mean l = -(x - mean l) by ring]

theorem sumsq_mirror (l : List ℝ) : ((mirror l).map fun x => (x - mean (mirror l)) ^ 2).sum =
    (l.map fun x => (x - mean l) ^ 2).sum := by
  rw [map_cent_mirror l l fun d => d ^ 2]; simp only [neg_sq]

theorem sumabs_mirror (l : List ℝ) : ((mirror l).map fun x => |x - mean (mirror l)|).sum =
    (l.map fun x => |x - mean l|).sum := by
  rw [map_cent_mirror l l fun d => |d|]; simp only [abs_neg]

theorem var1_mirror (l : List ℝ) : var1 (mirror l) = var1 l := by
  unfold var1; rw [sumsq_mirror, length_mirror]

theorem variance_mirror (l : List ℝ) : variance (mirror l) = variance l := by
  unfold variance; rw [sumsq_mirror, length_mirror]

theorem sd1_mirror (l : List ℝ) : sd1 (mirror l) = sd1 l := by unfold sd1; rw [var1_mirror]

theorem sumpow2_mirror (l : List ℝ) : ((mirror l).map (· ^ 2)).sum = (l.map (· ^ 2)).sum := by
  rw [map_mirror]; simp only [neg_sq]

theorem var1'_mirror (l : List ℝ) : var1' (mirror l) = var1' l := by
  unfold var1'
  rw [sumpow2_mirror, length_mirror, mean_mirror, neg_sq]

theorem standardised_mirror (l : List ℝ) : standardised (mirror l) = mirror (standardised l) := by
  unfold standardised
  rw [sd1_mirror, map_cent_mirror l l fun d => d / sd1 l]
  unfold mirror
  rw [List.map_map]
  refine List.map_congr_left fun x _ => ?_
  simp only [Function.comp, neg_div]

theorem moment_mirror (k : ℕ) (l : List ℝ) : moment k (mirror l) = (-1) ^ k * moment k l := by
  by_cases h : l = []
  · subst h; simp [mirror, moment, mean]
  · rw [mirror_eq, moment_aff k 0 (-1) h]

theorem skew_mirror (l : List ℝ) : skew (mirror l) = -skew l := by
  unfold skew
  rw [moment_mirror, moment_mirror]
  norm_num [neg_div]

theorem kurt_mirror (l : List ℝ) : kurt (mirror l) = kurt l := by
  unfold kurt
  rw [moment_mirror, moment_mirror]
  norm_num

theorem skew_perm {l k : List ℝ} (h : l.Perm k) : skew l = skew k := by
  unfold skew; rw [moment_perm h, moment_perm h]

theorem kurt_perm {l k : List ℝ} (h : l.Perm k) : kurt l = kurt k := by
  unfold kurt; rw [moment_perm h, moment_perm h]

theorem at_reverse {l : List ℝ} {i : ℕ} (h : i < l.length) :
    at_ l.reverse i = at_ l (l.length - 1 - i) := by
  unfold at_
  rw [List.getD_eq_getElem _ _ (by simpa using h), List.getD_eq_getElem _ _ (by omega),
    List.getElem_reverse]

theorem at_mirror (l : List ℝ) (i : ℕ) : at_ (mirror l) i = -at_ l i := by
  unfold at_ mirror
  rcases lt_or_ge i l.length with h | h
  · rw [List.getD_eq_getElem _ _ (by simpa using h), List.getD_eq_getElem _ _ h, List.getElem_map]
  · rw [List.getD_eq_default _ _ (by simpa using h), List.getD_eq_default _ _ h, neg_zero]

theorem at_mirror_reverse {l : List ℝ} {i : ℕ} (h : i < l.length) :
    at_ (mirror l).reverse i = -at_ l (l.length - 1 - i) := by
  rw [at_reverse (by rwa [length_mirror]), at_mirror, length_mirror]

theorem median_mirror {l : List ℝ} (h : l ≠ []) : median (mirror l).reverse = -median l := by
  have hl : 0 < l.length := List.length_pos_of_ne_nil h
  unfold median
  rw [List.length_reverse, length_mirror]
  split
  · rw [at_mirror_reverse (by omega), at_mirror_reverse (by omega),
      show l.length - 1 - l.length / 2 = l.length / 2 - 1 by omega,
      show l.length - 1 - (l.length / 2 - 1) = l.length / 2 by omega]
    ring
  · rw [at_mirror_reverse (by omega), show l.length - 1 - l.length / 2 = l.length / 2 by omega]

theorem npMax_mirror (l : List ℝ) : npMax (mirror l) = (pyMin l).map fun m => -m := by
  by_cases h : l = []
  · subst h; rfl
  · obtain ⟨m, hm⟩ := pyMin_exists h
    rw [hm]
    obtain ⟨h1, h2⟩ := pyMin_eq_ok.mp hm
    refine npMax_eq_ok.mpr ⟨List.mem_map_of_mem h1, ?_⟩
    intro y hy
    obtain ⟨x, hx, rfl⟩ := List.mem_map.mp hy
    exact neg_le_neg (h2 x hx)

theorem pyMin_mirror (l : List ℝ) : pyMin (mirror l) = (npMax l).map fun m => -m := by
  by_cases h : l = []
  · subst h; rfl
  · obtain ⟨m, hm⟩ := npMax_exists h
    rw [hm]
    obtain ⟨h1, h2⟩ := npMax_eq_ok.mp hm
    refine pyMin_eq_ok.mpr ⟨List.mem_map_of_mem h1, ?_⟩
    intro y hy
    obtain ⟨x, hx, rfl⟩ := List.mem_map.mp hy
    exact neg_le_neg (h2 x hx)

/-! ### Empirical distribution function -/

/-- Distribution function values of the reflected sample. -/
def comirror (vals : List ℝ) : List ℝ := (vals.map fun v => 1 - v).reverse

theorem length_comirror (v : List ℝ) : (comirror v).length = v.length := by simp [comirror]

theorem plusGaps_comirror (v : List ℝ) : plusGaps (comirror v) = (minusGaps v).reverse := by
  unfold plusGaps minusGaps
  rw [length_comirror]
  unfold comirror
  rw [mapIdx_reverse, mapIdx_map, List.length_map]
  congr 1
  refine mapIdx_congr fun i hi => ?_
  have : (v.length : ℝ) ≠ 0 := by
    have : 0 < v.length := by omega
    positivity
  rw [cast_reflect hi]
  field_simp
  ring

theorem minusGaps_comirror (v : List ℝ) : minusGaps (comirror v) = (plusGaps v).reverse := by
  unfold plusGaps minusGaps
  rw [length_comirror]
  unfold comirror
  rw [mapIdx_reverse, mapIdx_map, List.length_map]
  congr 1
  refine mapIdx_congr fun i hi => ?_
  have : (v.length : ℝ) ≠ 0 := by
    have : 0 < v.length := by omega
    positivity
  rw [cast_reflect hi]
  field_simp
  ring

theorem dPlus_comirror (v : List ℝ) : dPlus (comirror v) = dMinus v := by
  unfold dPlus dMinus
  rw [plusGaps_comirror]
  exact npMax_perm (List.reverse_perm _)

theorem dMinus_comirror (v : List ℝ) : dMinus (comirror v) = dPlus v := by
  unfold dPlus dMinus
  rw [minusGaps_comirror]
  exact npMax_perm (List.reverse_perm _)

theorem dPlus_exists {v : List ℝ} (h : v ≠ []) : ∃ p, dPlus v = .ok p :=
  npMax_exists (by simpa [plusGaps] using h)

theorem dMinus_exists {v : List ℝ} (h : v ≠ []) : ∃ p, dMinus v = .ok p :=
  npMax_exists (by simpa [minusGaps] using h)

/-- The side of the Kolmogorov-Smirnov distance that the reflected sample shows. -/
def otherSide : AlternativeType → AlternativeType
  | .right => .left
  | .left => .right
  | .twoTailed => .twoTailed

theorem ks_comirror (t : AlternativeType) (v : List ℝ) : ks t (comirror v) = ks (otherSide t) v := by
  by_cases h : v = []
  · subst h; cases t <;> rfl
  · obtain ⟨p, hp⟩ := dPlus_exists h
    obtain ⟨m, hm⟩ := dMinus_exists h
    unfold ks
    rw [dPlus_comirror, dMinus_comirror, hp, hm]
    cases t
    all_goals simp only [otherSide, reduceCtorEq, if_true, if_false, bind, Except.bind, pure,
      Except.pure]
    congr 1
    split <;> split <;> linarith

theorem cvm_comirror (v : List ℝ) : cvm (comirror v) = cvm v := by
  unfold cvm
  rw [length_comirror]
  congr 1
  unfold comirror
  rw [sum_mapIdx_reverse, mapIdx_map, List.length_map]
  congr 1
  refine mapIdx_congr fun i hi => ?_
  have : (v.length : ℝ) ≠ 0 := by
    have : 0 < v.length := by omega
    positivity
  rw [cast_reflect hi, ← neg_sq]
  congr 1
  field_simp
  ring

theorem ad_swap (lc ls : List ℝ) (h : lc.length = ls.length) : ad ls.reverse lc.reverse = ad lc ls := by
  unfold ad
  rw [List.length_reverse, List.reverse_reverse, h]
  congr 2
  refine List.ext_getElem (by simp [h]) fun i h1 h2 => ?_
  simp only [List.getElem_mapIdx, List.getElem_zip]
  ring

/-! ### Correlation -/

theorem pearsonr_mirror (z l : List ℝ) (h : z.length = l.length) :
    pearsonr (mirror z).reverse (mirror l).reverse = pearsonr z l := by
  unfold pearsonr
  rw [List.length_reverse, length_mirror, mean_reverse, mean_reverse, List.map_reverse,
    List.map_reverse, List.sum_reverse, List.sum_reverse, sumsq_mirror, sumsq_mirror,
    ← List.reverse_zipWith (by rw [length_mirror, length_mirror, h]), List.sum_reverse, mean_mirror,
    mean_mirror]
  congr 4
  unfold mirror
  rw [List.zipWith_map]
  congr 1
  funext a b
  ring

theorem scores_mirror {n : ℕ} {f : ℕ → ℝ} (hf : ∀ i < n, f (n - 1 - i) = -f i) :
    (mirror ((List.range n).map f)).reverse = (List.range n).map f := by
  refine List.ext_getElem (by simp [mirror]) fun i h1 h2 => ?_
  have hi : i < n := by simpa using h2
  simp only [mirror, List.getElem_reverse, List.getElem_map, List.getElem_range, List.length_map,
    List.length_range]
  rw [hf i hi, neg_neg]

/-! ### Spacings -/

theorem npDiff_append (l : List ℝ) (x y : ℝ) :
    npDiff (l ++ [x, y]) = npDiff (l ++ [x]) ++ [y - x] := by
  induction l with
  | nil => rfl
  | cons a l ih =>
    cases l with
    | nil => rfl
    | cons b l => simpa [npDiff] using ih

theorem npDiff_mirror : ∀ l : List ℝ, npDiff (mirror l).reverse = (npDiff l).reverse
  | [] => rfl
  | [_] => rfl
  | x :: y :: l => by
    have ih := npDiff_mirror (y :: l)
    simp only [mirror, List.map_cons, List.reverse_cons, npDiff, List.append_assoc,
      List.singleton_append] at ih ⊢
    rw [npDiff_append, ih]
    congr 2
    ring

theorem length_npDiff : ∀ l : List ℝ, (npDiff l).length = l.length - 1
  | [] => rfl
  | [_] => rfl
  | x :: y :: l => by simp [npDiff, length_npDiff (y :: l)]

/-! ### Logarithms -/

theorem log_asinh_odd (t : ℝ) : Real.log (-t + √((-t) ^ 2 + 1)) = -Real.log (t + √(t ^ 2 + 1)) := by
  rw [neg_sq, ← Real.log_inv]
  congr 1
  have h := Real.sq_sqrt (show 0 ≤ t ^ 2 + 1 by positivity)
  have hlt : t < √(t ^ 2 + 1) ∧ -t < √(t ^ 2 + 1) := by
    constructor <;> (apply Real.lt_sqrt_of_sq_lt; nlinarith)
  exact eq_inv_of_mul_eq_one_left (by nlinarith)

/-! ### Sums over pairs -/

theorem sum_pairs_symm {F : ℕ → ℕ → ℝ} (hF : ∀ i j, F i j = F j i) (n : ℕ) :
    2 * ∑ k ∈ Finset.range n, ∑ j ∈ Finset.range k, F j k + ∑ k ∈ Finset.range n, F k k =
      ∑ k ∈ Finset.range n, ∑ j ∈ Finset.range n, F j k := by
  induction n with
  | zero => simp
  | succ n ih =>
    rw [Finset.sum_range_succ, Finset.sum_range_succ, Finset.sum_range_succ]
    have : ∑ k ∈ Finset.range n, ∑ j ∈ Finset.range (n + 1), F j k =
        ∑ k ∈ Finset.range n, ∑ j ∈ Finset.range n, F j k + ∑ k ∈ Finset.range n, F n k := by
      rw [← Finset.sum_add_distrib]
      exact Finset.sum_congr rfl fun k _ => Finset.sum_range_succ _ _
    rw [this, Finset.sum_range_succ, ← ih, Finset.sum_congr rfl fun k _ => hF n k]
    ring

theorem sum_pairs_reflect {F : ℕ → ℕ → ℝ} (hF : ∀ i j, F i j = F j i) (n : ℕ) :
    ∑ k ∈ Finset.range n, ∑ j ∈ Finset.range k, F (n - 1 - j) (n - 1 - k) =
      ∑ k ∈ Finset.range n, ∑ j ∈ Finset.range k, F j k := by
  have h1 := sum_pairs_symm hF n
  have h2 := sum_pairs_symm (F := fun i j => F (n - 1 - i) (n - 1 - j))
    (fun i j => hF _ _) n
  have d := Finset.sum_range_reflect (fun k => F k k) n
  have t : ∑ k ∈ Finset.range n, ∑ j ∈ Finset.range n, F (n - 1 - j) (n - 1 - k) =
      ∑ k ∈ Finset.range n, ∑ j ∈ Finset.range n, F j k := by
    rw [Finset.sum_congr rfl fun k _ => Finset.sum_range_reflect (fun j => F j (n - 1 - k)) n]
    exact Finset.sum_range_reflect (fun k => ∑ j ∈ Finset.range n, F j k) n
  rw [t, d] at h2
  linarith

/-! ### L-moments -/

theorem pstarmod_reflect {t r n i : ℕ} (hi : 1 ≤ i) (hin : i ≤ n) (hr : 1 ≤ r) :
    pstarmod t r n (n + 1 - i) = (-1) ^ (r - 1) * pstarmod t r n i := by
  unfold pstarmod
  rw [← Finset.sum_range_reflect, Finset.mul_sum]
  refine Finset.sum_congr rfl fun k hk => ?_
  have hk := Finset.mem_range.mp hk
  rw [show n + 1 - i - 1 = n - i by omega, show n - (n + 1 - i) = i - 1 by omega,
    show r + t - 1 - (r - 1 - k) = t + k by omega, show t + (r - 1 - k) = r + t - 1 - k by omega,
    Nat.choose_symm (show k ≤ r - 1 by omega)]
  have e : ((-1 : ℝ)) ^ (r - 1 - k) = (-1) ^ (r - 1) * (-1) ^ k := by
    have h1 : ((-1 : ℝ)) ^ (r - 1) = (-1) ^ (r - 1 - k) * (-1) ^ k := by
      rw [← pow_add]; congr 1; omega
    rw [h1, mul_assoc, ← pow_add, ← two_mul, pow_mul]; norm_num
  rw [e]
  ring

theorem trimmedMoment_mirror {t r : ℕ} (hr : 1 ≤ r) (l : List ℝ) :
    trimmedMoment t r (mirror l) = (-1) ^ r * trimmedMoment t r l := by
  unfold trimmedMoment
  rw [length_mirror, sort_mirror, ← mul_div_assoc]
  congr 1
  rw [Finset.mul_sum]
  refine Finset.sum_nbij' (fun i => l.length + 1 - i) (fun i => l.length + 1 - i) ?_ ?_ ?_ ?_ ?_
  · intro i hi; have := Finset.mem_Ico.mp hi; exact Finset.mem_Ico.mpr (by omega)
  · intro i hi; have := Finset.mem_Ico.mp hi; exact Finset.mem_Ico.mpr (by omega)
  · intro i hi; have := Finset.mem_Ico.mp hi; omega
  · intro i hi; have := Finset.mem_Ico.mp hi; omega
  · intro i hi
    have := Finset.mem_Ico.mp hi
    rw [at_mirror_reverse (by rw [length_sort]; omega), length_sort,
      pstarmod_reflect (by omega) (by omega) hr,
      show l.length - 1 - (i - 1) = l.length + 1 - i - 1 by omega]
    have e : ((-1 : ℝ)) ^ r = -(-1) ^ (r - 1) := by
      obtain ⟨m, rfl⟩ : ∃ m, r = m + 1 := ⟨r - 1, by omega⟩
      rw [Nat.add_sub_cancel, pow_succ]; ring
    have e2 : ((-1 : ℝ)) ^ (r - 1) * (-1) ^ (r - 1) = 1 := by
      rw [← pow_add, ← two_mul, pow_mul]; norm_num
    rw [e]
    linear_combination (at_ (sort l) (l.length + 1 - i - 1) * pstarmod t r l.length i) * e2

end Pysatl.Normal
