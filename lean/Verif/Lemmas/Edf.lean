import Verif.Model.Edf
import Verif.Spec.Decision
import Verif.Lemmas.Decision
import Verif.Lemmas.GraphStat
import Mathlib.Analysis.SpecialFunctions.Integrals.Basic
import Mathlib.Algebra.BigOperators.Fin
import Mathlib.Algebra.Order.Chebyshev

set_option linter.unusedSectionVars false

namespace Pysatl.Edf

open Pysatl.Decision Pysatl.Graph Pysatl.Spec

section General

variable {K : Type} [Field K] [LinearOrder K] [IsStrictOrderedRing K]

theorem npMax_eq_ok {l : List K} {m : K} : npMax l = .ok m ↔ m ∈ l ∧ ∀ x ∈ l, x ≤ m := by
  unfold npMax
  rcases h : l.max? with _ | a
  · rw [List.max?_eq_none_iff] at h
    simp [h]
  · have h' := List.max?_eq_some_iff.1 h
    simp only [Except.ok.injEq]
    constructor
    · rintro rfl; exact h'
    · rintro ⟨hm, hu⟩
      exact le_antisymm (hu _ h'.1) (h'.2 _ hm)

theorem npMax_exists {l : List K} (h : l ≠ []) : ∃ m, npMax l = .ok m := by
  unfold npMax
  rcases h' : l.max? with _ | a
  · exact absurd (List.max?_eq_none_iff.1 h') h
  · exact ⟨a, rfl⟩

theorem mem_plusGaps {vals : List K} {d : K} :
    d ∈ plusGaps vals ↔ ∃ i, ∃ h : i < vals.length, d = ((i : K) + 1) / vals.length - vals[i] := by
  unfold plusGaps
  rw [List.mem_mapIdx]
  simp only [eq_comm]

theorem mem_minusGaps {vals : List K} {d : K} :
    d ∈ minusGaps vals ↔ ∃ i, ∃ h : i < vals.length, d = vals[i] - (i : K) / vals.length := by
  unfold minusGaps
  rw [List.mem_mapIdx]
  simp only [eq_comm]

/-- What `D⁺` is. -/
theorem dPlus_eq_ok {vals : List K} {d : K} : dPlus vals = .ok d ↔
    (∃ i, ∃ h : i < vals.length, d = ((i : K) + 1) / vals.length - vals[i]) ∧
    ∀ i, ∀ h : i < vals.length, ((i : K) + 1) / vals.length - vals[i] ≤ d := by
  unfold dPlus
  rw [npMax_eq_ok, mem_plusGaps]
  refine and_congr_right fun _ => ⟨fun h i hi => h _ (mem_plusGaps.2 ⟨i, hi, rfl⟩), fun h x hx => ?_⟩
  obtain ⟨i, hi, rfl⟩ := mem_plusGaps.1 hx
  exact h i hi

/-- What `D⁻` is. -/
theorem dMinus_eq_ok {vals : List K} {d : K} : dMinus vals = .ok d ↔
    (∃ i, ∃ h : i < vals.length, d = vals[i] - (i : K) / vals.length) ∧
    ∀ i, ∀ h : i < vals.length, vals[i] - (i : K) / vals.length ≤ d := by
  unfold dMinus
  rw [npMax_eq_ok, mem_minusGaps]
  refine and_congr_right fun _ => ⟨fun h i hi => h _ (mem_minusGaps.2 ⟨i, hi, rfl⟩), fun h x hx => ?_⟩
  obtain ⟨i, hi, rfl⟩ := mem_minusGaps.1 hx
  exact h i hi

theorem dPlus_exists {vals : List K} (h : vals ≠ []) : ∃ d, dPlus vals = .ok d :=
  npMax_exists (by simpa [plusGaps] using h)

theorem dMinus_exists {vals : List K} (h : vals ≠ []) : ∃ d, dMinus vals = .ok d :=
  npMax_exists (by simpa [minusGaps] using h)

theorem ks_right {vals : List K} {p m : K} (hp : dPlus vals = .ok p) (hm : dMinus vals = .ok m) :
    ks .right vals = .ok p := by
  unfold ks; rw [hm]; simp [bind, Except.bind, hp]

theorem ks_left {vals : List K} {m : K} (hm : dMinus vals = .ok m) :
    ks .left vals = .ok m := by
  unfold ks; rw [hm]; simp [bind, Except.bind]

theorem ks_two {vals : List K} {p m : K} (hp : dPlus vals = .ok p) (hm : dMinus vals = .ok m) :
    ks .twoTailed vals = .ok (max p m) := by
  unfold ks; rw [hm]; simp only [bind, Except.bind, hp, reduceCtorEq, if_false, pure, Except.pure]
  rcases le_or_gt p m with h | h
  · rw [if_neg (not_lt.2 h), max_eq_right h]
  · rw [if_pos h, max_eq_left h.le]

theorem kuiper_eq {vals : List K} {p m : K} (hp : dPlus vals = .ok p) (hm : dMinus vals = .ok m) :
    kuiper vals = .ok (p + m) := by
  unfold kuiper; rw [hp, hm]; rfl

theorem fracLe_eq (L : List K) (s : K) :
    fracLe L s = (L.countP (fun x => decide (x ≤ s)) : ℕ) / (L.length : K) := by
  unfold fracLe
  rw [← List.countP_eq_length_filter]

theorem fracLe_perm {L L' : List K} (h : L.Perm L') (s : K) : fracLe L s = fracLe L' s := by
  rw [fracLe_eq, fracLe_eq, h.countP_eq, h.length_eq]

/-- The sum over an indexed list as a sum over positions. -/
theorem sum_mapIdx {α : Type} (l : List α) (f : ℕ → α → K) :
    (l.mapIdx f).sum = ∑ i : Fin l.length, f i l[i] := by
  have : l.mapIdx f = List.ofFn fun i : Fin l.length => f i l[i] := by
    apply List.ext_getElem
    · simp
    · intro i h1 h2
      simp
  rw [this, List.sum_ofFn]

theorem sum_eq_fin (l : List K) : l.sum = ∑ i : Fin l.length, l[i] := by
  have h : l.sum = (List.ofFn fun i : Fin l.length => l[i]).sum := by
    simp only [Fin.getElem_fin, List.ofFn_getElem]
  rw [h, List.sum_ofFn]

theorem map_sorted {cdf : K → K} (hF : Monotone cdf) (rvs : List K) :
    ((sort rvs).map cdf).Pairwise (· ≤ ·) := by
  rw [List.pairwise_map]
  exact (sort_pairwise rvs).imp fun h => hF h

end General

/-! ### Suprema -/

theorem isLUB_plus {F : ℝ → ℝ} (hm : Monotone F) (h1 : ∀ x, 0 ≤ F x ∧ F x ≤ 1) {rvs : List ℝ}
    {d : ℝ} (hd : dPlus ((sort rvs).map F) = .ok d) :
    IsLUB (Set.range fun x => fracLe rvs x - F x) d := by
  obtain ⟨⟨i, hi, rfl⟩, hu⟩ := dPlus_eq_ok.1 hd
  simp only [List.length_map, List.getElem_map] at hi hu ⊢
  have hs := sort_pairwise rvs
  have hn : (0 : ℝ) < (sort rvs).length := by exact_mod_cast (by omega : 0 < (sort rvs).length)
  constructor
  · rintro _ ⟨x, rfl⟩
    simp only
    rw [← fracLe_perm (sort_perm rvs), fracLe_eq]
    set k := (sort rvs).countP (fun y => decide (y ≤ x)) with hk
    have hkn : k ≤ (sort rvs).length := List.countP_le_length
    rcases Nat.eq_zero_or_pos k with h0 | h0
    · have := hu ((sort rvs).length - 1) (by omega)
      refine le_trans ?_ this
      rw [h0, Nat.cast_sub (by omega), Nat.cast_one, sub_add_cancel, div_self hn.ne']
      have a := (h1 x).1
      have b := (h1 ((sort rvs)[(sort rvs).length - 1]'(by omega))).2
      simp only [Nat.cast_zero, zero_div]
      linarith
    · refine le_trans ?_ (hu (k - 1) (by omega))
      rw [Nat.cast_sub (by omega), Nat.cast_one, sub_add_cancel]
      have hle : (sort rvs)[k - 1]'(by omega) ≤ x := by
        by_contra hlt
        have := countP_le_of_lt hs (by omega) (not_le.1 hlt)
        omega
      linarith [hm hle]
  · intro u hu'
    have := hu' ⟨(sort rvs)[i], rfl⟩
    simp only at this
    refine le_trans ?_ this
    rw [← fracLe_perm (sort_perm rvs), fracLe_eq]
    have h2 := countP_ge_of_le hs hi (le_refl _)
    have h3 : ((i : ℝ) + 1) ≤ ((sort rvs).countP (fun y => decide (y ≤ (sort rvs)[i])) : ℕ) := by
      exact_mod_cast h2
    have := div_le_div_of_nonneg_right h3 hn.le
    linarith

theorem isLUB_minus {F : ℝ → ℝ} (hc : Continuous F) (hm : Monotone F)
    (h1 : ∀ x, 0 ≤ F x ∧ F x ≤ 1) {rvs : List ℝ} {d : ℝ}
    (hd : dMinus ((sort rvs).map F) = .ok d) :
    IsLUB (Set.range fun x => F x - fracLe rvs x) d := by
  obtain ⟨⟨i, hi, rfl⟩, hu⟩ := dMinus_eq_ok.1 hd
  simp only [List.length_map, List.getElem_map] at hi hu ⊢
  have hs := sort_pairwise rvs
  have hn : (0 : ℝ) < (sort rvs).length := by exact_mod_cast (by omega : 0 < (sort rvs).length)
  constructor
  · rintro _ ⟨x, rfl⟩
    simp only
    rw [← fracLe_perm (sort_perm rvs), fracLe_eq]
    set k := (sort rvs).countP (fun y => decide (y ≤ x)) with hk
    have hkn : k ≤ (sort rvs).length := List.countP_le_length
    rcases hkn.eq_or_lt with h0 | h0
    · have := hu 0 (by omega)
      refine le_trans ?_ this
      rw [h0, div_self hn.ne']
      have a := (h1 x).2
      have b := (h1 ((sort rvs)[0]'(by omega))).1
      simp only [Nat.cast_zero, zero_div]
      linarith
    · refine le_trans ?_ (hu k h0)
      have hle : x ≤ (sort rvs)[k] := by
        by_contra hlt
        have := countP_ge_of_le hs h0 (not_le.1 hlt).le
        omega
      linarith [hm hle]
  · intro u hu'
    have key : ∀ y, y < (sort rvs)[i] → F y ≤ u + (i : ℝ) / (sort rvs).length := by
      intro y hy
      have := hu' ⟨y, rfl⟩
      simp only at this
      rw [← fracLe_perm (sort_perm rvs), fracLe_eq] at this
      have h2 := countP_le_of_lt hs hi hy
      have h3 : (((sort rvs).countP (fun z => decide (z ≤ y)) : ℕ) : ℝ) ≤ i := by exact_mod_cast h2
      have := div_le_div_of_nonneg_right h3 hn.le
      linarith
    have hlim : Filter.Tendsto F (nhdsWithin (sort rvs)[i] (Set.Iio (sort rvs)[i]))
        (nhds (F (sort rvs)[i])) := hc.continuousAt.continuousWithinAt
    have := le_of_tendsto hlim (Filter.eventually_of_mem self_mem_nhdsWithin key)
    linarith

theorem isLUB_abs {ι : Type} [Nonempty ι] {g : ι → ℝ} {p m : ℝ} (hp : IsLUB (Set.range g) p)
    (hm : IsLUB (Set.range fun x => -g x) m) : IsLUB (Set.range fun x => |g x|) (max p m) := by
  constructor
  · rintro _ ⟨x, rfl⟩
    rcases abs_cases (g x) with ⟨h, _⟩ | ⟨h, _⟩
    · simp only [h]; exact le_max_of_le_left (hp.1 ⟨x, rfl⟩)
    · simp only [h]; exact le_max_of_le_right (hm.1 ⟨x, rfl⟩)
  · intro u hu
    refine max_le (hp.2 ?_) (hm.2 ?_)
    · rintro _ ⟨x, rfl⟩; exact (le_abs_self _).trans (hu ⟨x, rfl⟩)
    · rintro _ ⟨x, rfl⟩; exact (neg_le_abs _).trans (hu ⟨x, rfl⟩)

/-! ### Integrals of the empirical distribution function -/

/-- Local copy of the integrand: `k + #{x ∈ s | x ≤ u}` over `N`, minus `u`. -/
noncomputable def gap (N k : ℝ) (s : List ℝ) (u : ℝ) : ℝ :=
  (k + (s.countP (fun x => decide (x ≤ u)) : ℕ)) / N - u

theorem gap_cons_left {N k : ℝ} {x : ℝ} {s : List ℝ} (hs : (x :: s).Pairwise (· ≤ ·)) {u : ℝ}
    (hu : u < x) : gap N k (x :: s) u = k / N - u := by
  unfold gap
  have : (x :: s).countP (fun y => decide (y ≤ u)) = 0 := by
    rw [List.countP_eq_zero]
    intro y hy
    rw [decide_eq_true_eq, not_le]
    rcases List.mem_cons.1 hy with rfl | h
    · exact hu
    · exact hu.trans_le (List.rel_of_pairwise_cons hs h)
  rw [this]; simp

theorem gap_cons_right {N k : ℝ} {x : ℝ} {s : List ℝ} {u : ℝ}
    (hu : x ≤ u) : gap N k (x :: s) u = gap N (k + 1) s u := by
  unfold gap
  rw [List.countP_cons_of_pos (by simpa using hu)]
  push_cast
  ring

/-- Integral of a power-like function of the gap, for a function `p` with primitive `P`. -/
theorem integral_gap (p P : ℝ → ℝ) (hp : Continuous p)
    (hP : ∀ x, HasDerivAt P (p x) x) (N : ℝ) (s : List ℝ) :
    ∀ (k c : ℝ), s.Pairwise (· ≤ ·) → (∀ x ∈ s, c ≤ x ∧ x ≤ 1) → c ≤ 1 →
    IntervalIntegrable (fun u => p (-(gap N k s u))) MeasureTheory.volume c 1 ∧
    ∫ u in c..1, p (-(gap N k s u)) =
      P (1 - (k + s.length) / N) - P (c - k / N) +
      (s.mapIdx fun i x => P (x - (k + i) / N) - P (x - (k + i + 1) / N)).sum := by
  have base : ∀ (k a b : ℝ), IntervalIntegrable (fun u => p (-(k / N - u))) MeasureTheory.volume a b ∧
      ∫ u in a..b, p (-(k / N - u)) = P (b - k / N) - P (a - k / N) := by
    intro k a b
    have hcont : Continuous fun u => p (-(k / N - u)) := hp.comp (by fun_prop)
    refine ⟨hcont.intervalIntegrable _ _, ?_⟩
    rw [intervalIntegral.integral_eq_sub_of_hasDerivAt (f := fun u => P (u - k / N))]
    · intro u _
      have h1 : HasDerivAt (fun u : ℝ => u - k / N) 1 u := (hasDerivAt_id u).sub_const _
      have h2 := (hP (u - k / N)).comp u h1
      rw [mul_one] at h2
      rw [neg_sub]
      exact h2
    · exact hcont.intervalIntegrable _ _
  induction s with
  | nil =>
    intro k c _ _ _
    have := base k c 1
    simpa [gap] using this
  | cons x s ih =>
    intro k c hs hb hc
    have hx := hb x (by simp)
    have hl : Set.EqOn (fun u => p (-(k / N - u))) (fun u => p (-(gap N k (x :: s) u)))
        (Set.uIoo c x) := by
      intro u hu
      rw [Set.uIoo_of_le hx.1] at hu
      simp only [gap_cons_left hs hu.2]
    have hr : Set.EqOn (fun u => p (-(gap N (k + 1) s u))) (fun u => p (-(gap N k (x :: s) u)))
        (Set.uIoo x 1) := by
      intro u hu
      rw [Set.uIoo_of_le hx.2] at hu
      simp only [gap_cons_right hu.1.le]
    have ih' := ih (k + 1) x hs.of_cons
      (fun y hy => ⟨List.rel_of_pairwise_cons hs hy, (hb y (by simp [hy])).2⟩) hx.2
    have b := base k c x
    have i1 := b.1.congr_uIoo hl
    have i2 := ih'.1.congr_uIoo hr
    refine ⟨i1.trans i2, ?_⟩
    rw [← intervalIntegral.integral_add_adjacent_intervals i1 i2,
      ← intervalIntegral.integral_congr_uIoo hl, ← intervalIntegral.integral_congr_uIoo hr, b.2, ih'.2]
    simp only [List.mapIdx_cons, List.sum_cons, List.length_cons, Nat.cast_add, Nat.cast_one,
      Nat.cast_zero, add_zero]
    have e1 : ∀ i : ℕ, k + 1 + (i : ℝ) = k + ((i : ℝ) + 1) := fun i => by ring
    simp only [e1]
    ring

end Pysatl.Edf
