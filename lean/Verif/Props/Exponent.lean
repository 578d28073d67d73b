import Verif.Lemmas.Exponent
import Mathlib.Tactic.FinCases

/-! # C61, C62, C77 for the exponentiality statistics -/

namespace Pysatl.Props

open Pysatl.Decision Pysatl.Graph Pysatl.Edf Pysatl.Exponent

/-! ### C61 -/

/-- **C61** for the exponentiality statistics: two samples with the same observations in a
different order give the same value (or the same error) of every statistic. -/
theorem C61_exponential (s : ExpStat) {xs ys : List ℝ} (h : xs.Perm ys) :
    s.value xs = s.value ys := by
  have hs := sort_eq_of_perm h
  have h0 : sort (0 :: xs) = sort (0 :: ys) := sort_eq_of_perm (h.cons 0)
  have hl := h.length_eq
  have hm := mean_perm h
  cases s with
  | eppsPulley =>
    simp only [ExpStat.value, eppsPulley, hl, hm, List.map_map, (h.map _).sum_eq]
  | ks t => simp only [ExpStat.value, ksOf, hs]
  | ahsanullah => simp only [ExpStat.value, ahsanullah, hl, ahsH_perm h, ahsG_perm h]
  | atkinson p =>
    simp only [ExpStat.value, Exponent.atkinson, hl, hm, mean_perm (h.map _)]
  | coxOakes => simp only [ExpStat.value, coxOakes, hl, hm, List.map_map, (h.map _).sum_eq]
  | cvm lam => simp only [ExpStat.value, cvmOf, hs]
  | deshpande b => simp only [ExpStat.value, deshpande, hl, desCount_perm b h]
  | epstein => simp only [ExpStat.value, epstein, hl, hs]
  | frozini => simp only [ExpStat.value, frozini, hl, hs]
  | gini => simp only [ExpStat.value, gini, hl, hs]
  | gnedenko r => simp only [ExpStat.value, gnedenko, hl, h0]
  | harris r => simp only [ExpStat.value, harris, hl, h0]
  | hegazyGreen1 => simp only [ExpStat.value, hegazyGreen1, hl, hs]
  | hollanderProschan => simp only [ExpStat.value, hollanderProschan, hl, hpCount_perm h]
  | kimberMichael => simp only [ExpStat.value, kimberMichael, hl, hs]
  | kochar => simp only [ExpStat.value, kochar, hl, hs]
  | lorenz p =>
    have : xs = [] ↔ ys = [] := by rw [← List.length_eq_zero_iff, ← List.length_eq_zero_iff, hl]
    simp only [ExpStat.value, lorenz, hl, hs, this]
  | moran => simp only [ExpStat.value, moran, hm, mean_perm (h.map _)]
  | pietra => simp only [ExpStat.value, pietra, hl, hm, (h.map _).sum_eq]
  | shapiroWilk => simp only [ExpStat.value, Exponent.shapiroWilk, hl, hs]
  | rossberg =>
    have eH : ∀ c : ℝ, ∑ m ∈ Finset.range ys.length, c * (rsH xs (at_ xs m) : ℝ) =
        ∑ m ∈ Finset.range ys.length, c * (rsH ys (at_ ys m) : ℝ) := fun c => by
      have e := sum_at (fun m => c * (rsH xs m : ℝ)) xs
      rw [hl] at e
      rw [e, sum_at (fun m => c * (rsH ys m : ℝ)) ys]
      exact map_sum_perm h fun m => by rw [rsH_perm h]
    have eG : ∀ c : ℝ, ∑ m ∈ Finset.range ys.length, c * (rsG xs (at_ xs m) : ℝ) =
        ∑ m ∈ Finset.range ys.length, c * (rsG ys (at_ ys m) : ℝ) := fun c => by
      have e := sum_at (fun m => c * (rsG xs m : ℝ)) xs
      rw [hl] at e
      rw [e, sum_at (fun m => c * (rsG ys m : ℝ)) ys]
      exact map_sum_perm h fun m => by rw [rsG_perm h]
    simp only [ExpStat.value, rossberg, hl, eH, eG]
  | we => simp only [ExpStat.value, we, hl, hm, variance_perm h]
  | wongWong => simp only [ExpStat.value, wongWong, npMax_perm h, pyMin_perm h]
  | hegazyGreen2 => simp only [ExpStat.value, hegazyGreen2, hl, hs]

example : ExpStat.value .rossberg [3, 1, 2, 5] = ExpStat.value .rossberg [5, 1, 2, 3] :=
  C61_exponential _ ((List.perm_append_comm (l₁ := [3, 1, 2])).trans
    (((List.perm_append_comm (l₁ := [3])).cons 5)))

/-! ### C62 -/

/-- The statistics that do not use a hypothesised scale.  The others: Kolmogorov-Smirnov and
Cramer-von Mises compare with a fixed distribution; Hegazy-Green compare with fixed scores (see
`C62_refuted_hegazyGreen`). -/
def ScaleFree : ExpStat → Prop
  | .ks _ | .cvm _ | .hegazyGreen1 | .hegazyGreen2 => False
  | .atkinson p => p ≠ 0
  | _ => True

theorem log_map_sum_scale {c : ℝ} (hc : 0 < c) : ∀ {d : List ℝ}, (∀ x ∈ d, x ≠ 0) →
    ((d.map (c * ·)).map Real.log).sum = d.length * Real.log c + (d.map Real.log).sum
  | [], _ => by simp
  | a :: d, h => by
    have ih := log_map_sum_scale hc (d := d) fun x hx => h x (by simp [hx])
    simp only [List.map_cons, List.sum_cons, List.length_cons, ih,
      Real.log_mul hc.ne' (h a (by simp))]
    push_cast; ring

theorem npDiff_length_exp : ∀ l : List ℝ, (npDiff l).length = l.length - 1
  | [] => rfl
  | [_] => rfl
  | a :: b :: l => by
    rw [npDiff, List.length_cons, npDiff_length_exp (b :: l)]; simp

theorem normSpacings_length (l : List ℝ) : (normSpacings l).length = l.length - 1 := by
  rw [normSpacings, List.length_mapIdx, npDiff_length_exp]

theorem npDiff_pos : ∀ {l : List ℝ}, l.Pairwise (· < ·) → ∀ d ∈ npDiff l, 0 < d
  | [], _, d, hd => by simp [npDiff] at hd
  | [_], _, d, hd => by simp [npDiff] at hd
  | a :: b :: l, h, d, hd => by
    rw [npDiff, List.mem_cons] at hd
    rcases hd with rfl | hd
    · exact sub_pos.2 (List.rel_of_pairwise_cons h (by simp))
    · exact npDiff_pos (List.Pairwise.of_cons h) d hd

theorem normSpacings_pos {l : List ℝ} (h : l.Pairwise (· < ·)) : ∀ d ∈ normSpacings l, 0 < d := by
  intro d hd
  rw [normSpacings, List.mem_mapIdx] at hd
  obtain ⟨i, hi, rfl⟩ := hd
  rw [npDiff_length_exp] at hi
  exact mul_pos (by exact_mod_cast Nat.sub_pos_of_lt hi) (npDiff_pos h _ (List.getElem_mem _))

theorem sort_strict {xs : List ℝ} (h : xs.Nodup) : (sort xs).Pairwise (· < ·) := by
  have h1 := sort_pairwise xs
  have h2 : (sort xs).Nodup := (sort_perm xs).nodup_iff.2 h
  exact (h1.and h2).imp fun h => lt_of_le_of_ne h.1 h.2

theorem sort_zero_strict {xs : List ℝ} (hpos : ∀ x ∈ xs, 0 < x) (h : xs.Nodup) :
    (0 :: sort xs).Pairwise (· < ·) :=
  List.pairwise_cons.2 ⟨fun x hx => hpos x ((sort_perm xs).mem_iff.1 hx), sort_strict h⟩

theorem map_map_mul_div {c : ℝ} (hc : 0 < c) (xs : List ℝ) (m : ℝ) :
    (xs.map (c * ·)).map (fun x => x / (c * m)) = xs.map fun x => x / m := by
  rw [List.map_map]
  exact List.map_congr_left fun x _ => mul_div_mul_left _ _ hc.ne'

/-- **C62.** Multiplying a positive sample by a positive constant changes none of the twenty
scale-free exponentiality statistics: same value, same error.  (Epstein's statistic takes the
logarithm of spacings, so distinct observations are asked for there.) -/
theorem C62_scale (s : ExpStat) (hs : ScaleFree s) {xs : List ℝ} (hpos : ∀ x ∈ xs, 0 < x)
    (hd : s = .epstein → xs.Nodup) {c : ℝ} (hc : 0 < c) :
    s.value (xs.map (c * ·)) = s.value xs := by
  have hl : (xs.map (c * ·)).length = xs.length := List.length_map _
  have hsort := sort_scale hc xs
  have hm := mean_scale c xs
  have h0 : sort (0 :: xs.map (c * ·)) = (sort (0 :: xs)).map (c * ·) := by
    rw [← sort_scale hc, List.map_cons, mul_zero]
  have hms : mean ((sort xs).map (c * ·)) = c * mean (sort xs) := mean_scale c _
  have hc' := hc.ne'
  cases s with
  | eppsPulley => simp only [ExpStat.value, eppsPulley, hl, hm, map_map_mul_div hc]
  | ks t => exact hs.elim
  | ahsanullah =>
    have e1 : ahsH (xs.map (c * ·)) = ahsH xs := by
      have : ∀ a b d : ℝ, |c * a - c * b| < c * d ↔ |a - b| < d := fun a b d => by
        rw [← mul_sub, abs_mul, abs_of_pos hc, mul_lt_mul_iff_right₀ hc]
      simp only [ahsH, hl, at_scale, this]
    have e2 : ahsG (xs.map (c * ·)) = ahsG xs := by
      have : ∀ a b d : ℝ, 2 * min (c * a) (c * b) < c * d ↔ 2 * min a b < d := fun a b d => by
        rw [← mul_min_of_nonneg _ _ hc.le, mul_left_comm, mul_lt_mul_iff_right₀ hc]
      simp only [ahsG, hl, at_scale, this]
    simp only [ExpStat.value, ahsanullah, hl, e1, e2]
  | atkinson p =>
    have hp : p ≠ 0 := hs
    have e1 : ∀ x ∈ xs, (c * x) ^ p = c ^ p * x ^ p := fun x hx =>
      Real.mul_rpow hc.le (hpos x hx).le
    have e2 : (xs.map (c * ·)).map (fun x => x ^ p) = (xs.map fun x => x ^ p).map (c ^ p * ·) := by
      rw [List.map_map, List.map_map]; exact List.map_congr_left e1
    have e3 : 0 ≤ mean (xs.map fun x => x ^ p) := by
      refine div_nonneg (List.sum_nonneg fun y hy => ?_) (Nat.cast_nonneg _)
      obtain ⟨x, hx, rfl⟩ := List.mem_map.1 hy
      exact (Real.rpow_pos_of_pos (hpos x hx) p).le
    simp only [ExpStat.value, Exponent.atkinson, hl, hm, e2, mean_scale,
      Real.mul_rpow (Real.rpow_pos_of_pos hc p).le e3, ← Real.rpow_mul hc.le, mul_one_div_cancel hp,
      Real.rpow_one, mul_div_mul_left _ _ hc']
  | coxOakes => simp only [ExpStat.value, coxOakes, hl, hm, map_map_mul_div hc]
  | cvm lam => exact hs.elim
  | deshpande b =>
    have e1 : desCount b (xs.map (c * ·)) = desCount b xs := by
      have : ∀ a d : ℝ, b * (c * a) < c * d ↔ b * a < d := fun a d => by
        rw [mul_left_comm, mul_lt_mul_iff_right₀ hc]
      simp only [desCount, hl, at_scale, this]
    simp only [ExpStat.value, deshpande, hl, e1]
  | epstein =>
    by_cases hn : xs.length = 0
    · simp only [ExpStat.value, epstein, hl, hn, if_true]
    have hn' : (xs.length : ℝ) ≠ 0 := by exact_mod_cast hn
    have hsp := normSpacings_pos (sort_zero_strict hpos (hd rfl))
    have e0 : normSpacings (0 :: sort (xs.map (c * ·))) =
        (normSpacings (0 :: sort xs)).map (c * ·) := by
      rw [← normSpacings_scale, hsort, List.map_cons, mul_zero]
    have hlen : (normSpacings (0 :: sort xs)).length = xs.length := by
      rw [normSpacings_length, List.length_cons, (sort_perm xs).length_eq]; rfl
    have hsum : 0 < (normSpacings (0 :: sort xs)).sum := by
      refine List.sum_pos _ hsp fun e => hn ?_
      rw [← hlen, e]; rfl
    have e1 : Real.log (c * (normSpacings (0 :: sort xs)).sum / xs.length) =
        Real.log c + Real.log ((normSpacings (0 :: sort xs)).sum / xs.length) := by
      rw [mul_div_assoc, Real.log_mul hc' (div_ne_zero hsum.ne' hn')]
    have e2 := log_map_sum_scale hc fun x hx => (hsp x hx).ne'
    simp only [ExpStat.value, epstein, hl, if_neg hn, e0, sum_scale, e1, e2, hlen, add_div,
      mul_div_cancel_left₀ _ hn', add_sub_add_left_eq_sub]
  | frozini =>
    simp only [ExpStat.value, frozini, hl, hsort, hms]
    congr 3
    refine List.ext_getElem (by simp) fun i h1 h2 => ?_
    simp only [List.getElem_mapIdx, List.getElem_map, ← mul_neg, mul_div_mul_left _ _ hc']
  | gini =>
    have e : ((npDiff ((sort xs).map (c * ·))).mapIdx fun i k =>
        k * (((i : ℝ) + 1) * ((xs.length - 1 - i : ℕ) : ℝ))) =
        ((npDiff (sort xs)).mapIdx fun i k =>
          k * (((i : ℝ) + 1) * ((xs.length - 1 - i : ℕ) : ℝ))).map (c * ·) := by
      rw [npDiff_scale]
      refine List.ext_getElem (by simp) fun i h1 h2 => ?_
      simp only [List.getElem_mapIdx, List.getElem_map]; ring
    simp only [ExpStat.value, gini, hl, hsort, e, sum_scale]
    rw [mul_left_comm, mul_div_mul_left _ _ hc']
  | gnedenko r =>
    simp only [ExpStat.value, gnedenko, hl, h0, normSpacings_scale, ← List.map_take,
      ← List.map_drop, sum_scale, mul_div_assoc, mul_div_mul_left _ _ hc']
  | harris r =>
    have e1 : ∀ r l, (lastSlice r (l.map (c * ·))).sum = c * (lastSlice r l).sum := fun r l => by
      unfold lastSlice; split
      · rw [sum_scale]
      · rw [List.length_map, ← List.map_drop, sum_scale]
    have e2 : ∀ r l, (midSlice r (l.map (c * ·))).sum = c * (midSlice r l).sum := fun r l => by
      unfold midSlice; split
      · simp
      · rw [List.length_map, ← List.map_take, ← List.map_drop, sum_scale]
    simp only [ExpStat.value, harris, hl, h0, normSpacings_scale, ← List.map_take, sum_scale, e1, e2,
      ← mul_add]
    simp only [mul_div_assoc, mul_div_mul_left _ _ hc']
  | hegazyGreen1 => exact hs.elim
  | hollanderProschan =>
    have e1 : hpCount (xs.map (c * ·)) = hpCount xs := by
      have : ∀ a b d : ℝ, c * a + c * b < c * d ↔ a + b < d := fun a b d => by
        rw [← mul_add, mul_lt_mul_iff_right₀ hc]
      simp only [hpCount, hl, at_scale, this]
    simp only [ExpStat.value, hollanderProschan, hl, e1]
  | kimberMichael =>
    simp only [ExpStat.value, kimberMichael, hl, hsort, hms]
    congr 1
    refine List.ext_getElem (by simp) fun i h1 h2 => ?_
    simp only [List.getElem_mapIdx, List.getElem_map, mul_div_mul_left _ _ hc']
  | kochar =>
    have e : (((sort xs).map (c * ·)).mapIdx fun i v => kocharScore xs.length i * v) =
        ((sort xs).mapIdx fun i v => kocharScore xs.length i * v).map (c * ·) := by
      refine List.ext_getElem (by simp) fun i h1 h2 => ?_
      simp only [List.getElem_mapIdx, List.getElem_map]; ring
    simp only [ExpStat.value, kochar, hl, hsort, e, sum_scale]
    rw [mul_left_comm, mul_div_mul_left _ _ hc']
  | lorenz p =>
    simp only [ExpStat.value, lorenz, hl, hsort, ← List.map_take, sum_scale,
      mul_div_mul_left _ _ hc', List.map_eq_nil_iff]
  | moran => simp only [ExpStat.value, moran, hm, ← List.map_map, map_map_mul_div hc, List.map_map,
      Function.comp_def, mul_div_mul_left _ _ hc']
  | pietra =>
    have e : ((xs.map (c * ·)).map fun x => |x - c * mean xs|) =
        (xs.map fun x => |x - mean xs|).map (c * ·) := by
      rw [List.map_map, List.map_map]
      refine List.map_congr_left fun x _ => ?_
      simp only [Function.comp, ← mul_sub, abs_mul, abs_of_pos hc]
    simp only [ExpStat.value, pietra, hl, hm, e, sum_scale]
    rw [mul_left_comm, mul_div_mul_left _ _ hc']
  | shapiroWilk =>
    rcases hx : sort xs with _ | ⟨x0, l⟩
    · simp only [ExpStat.value, Exponent.shapiroWilk, hl, hsort, hx, List.map_nil]
    · have hx' : sort (xs.map (c * ·)) = c * x0 :: l.map (c * ·) := by rw [hsort, hx]; rfl
      have hm' : mean (c * x0 :: l.map (c * ·)) = c * mean (x0 :: l) := mean_scale c (x0 :: l)
      have e : ((c * x0 :: l.map (c * ·)).map fun v => (v - c * mean (x0 :: l)) ^ 2).sum =
          c ^ 2 * ((x0 :: l).map fun v => (v - mean (x0 :: l)) ^ 2).sum := by
        rw [← sum_scale, List.map_map]
        change (((x0 :: l).map (c * ·)).map _).sum = _
        rw [List.map_map]
        congr 1
        refine List.map_congr_left fun x _ => ?_
        simp only [Function.comp]; ring
      simp only [ExpStat.value, Exponent.shapiroWilk, hl, hx, hx', hm', e]
      rw [show c * mean (x0 :: l) - c * x0 = c * (mean (x0 :: l) - x0) by ring, mul_pow,
        mul_left_comm, mul_left_comm _ (c ^ 2), mul_div_mul_left _ _ (pow_ne_zero 2 hc')]
  | rossberg =>
    have e1 : ∀ m, rsH (xs.map (c * ·)) (c * m) = rsH xs m := fun m => by
      have : ∀ a b d : ℝ, rsCond (c * a) (c * b) (c * d) (c * m) ↔ rsCond a b d m := fun a b d => by
        rw [rsCond, rsCond, ← mul_min_of_nonneg _ _ hc.le, ← mul_min_of_nonneg _ _ hc.le,
          ← mul_max_of_nonneg _ _ hc.le, ← mul_max_of_nonneg _ _ hc.le, mul_left_comm, ← mul_add,
          ← mul_add, ← mul_sub, ← mul_sub, mul_lt_mul_iff_right₀ hc]
      simp only [rsH, hl, at_scale, this]
    have e2 : ∀ m, rsG (xs.map (c * ·)) (c * m) = rsG xs m := fun m => by
      have : ∀ a b : ℝ, min (c * a) (c * b) < c * m ↔ min a b < m := fun a b => by
        rw [← mul_min_of_nonneg _ _ hc.le, mul_lt_mul_iff_right₀ hc]
      simp only [rsG, hl, at_scale, this]
    simp only [ExpStat.value, rossberg, hl, at_scale, e1, e2]
  | we =>
    have e : variance (xs.map (c * ·)) = c ^ 2 * variance xs := by
      rw [variance, variance, hm, hl, ← mul_div_assoc, ← sum_scale, List.map_map, List.map_map]
      congr 3
      funext x
      simp only [Function.comp]; ring
    simp only [ExpStat.value, we, hl, hm, e, mul_pow]
    rw [mul_left_comm, mul_left_comm _ (c ^ 2), mul_div_mul_left _ _ (pow_ne_zero 2 hc')]
  | wongWong =>
    by_cases hx : xs = []
    · subst hx; rfl
    obtain ⟨a, ha⟩ := npMax_exists hx
    obtain ⟨b, hb⟩ := pyMin_exists hx
    simp only [ExpStat.value, wongWong, ha, hb, npMax_scale hc ha, pyMin_scale hc hb, bind,
      Except.bind, pure, Except.pure, mul_div_mul_left _ _ hc']
  | hegazyGreen2 => exact hs.elim

example : ExpStat.value .shapiroWilk [6, 2, 4] = ExpStat.value .shapiroWilk [3, 1, 2] := by
  have := C62_scale .shapiroWilk trivial (xs := [3, 1, 2]) (by simp) (by simp) (c := 2) (by norm_num)
  norm_num at this
  exact this

end Pysatl.Props
