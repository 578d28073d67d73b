import Verif.Spec.AndersonDarling
import Verif.Props.BetaLaw
import Verif.Props.NormalZhang
import Verif.Props.GammaStudent
import Verif.Props.LogNormal
import Verif.Props.Uniform

/-! # C120: the Anderson-Darling statistic is the weighted integrated squared distance -/

namespace Pysatl.Props

open Pysatl.Decision Pysatl.Graph Pysatl.Edf Pysatl.Exponent Pysatl.Normal Pysatl.Uniform
open Pysatl.Spec
open MeasureTheory ProbabilityTheory

/-! ### The integral -/

/-- A primitive of `(c - u)² / (u (1 - u))`. -/
noncomputable def adPrimitive (c u : ℝ) : ℝ := c ^ 2 * Real.log u - (1 - c) ^ 2 * Real.log (1 - u) - u

theorem adPrimitive_deriv {c u : ℝ} (h0 : 0 < u) (h1 : u < 1) :
    HasDerivAt (adPrimitive c) ((c - u) ^ 2 / (u * (1 - u))) u := by
  have hu : (1 - u) ≠ 0 := by linarith
  have a := (Real.hasDerivAt_log h0.ne').const_mul (c ^ 2)
  have b : HasDerivAt (fun u : ℝ => Real.log (1 - u)) (-1 / (1 - u)) u :=
    ((hasDerivAt_id u).const_sub 1).log hu
  have d := (a.sub (b.const_mul ((1 - c) ^ 2))).sub (hasDerivAt_id u)
  refine d.congr_deriv ?_
  have := h0.ne'
  field_simp
  ring

/-- Integral over an interval inside `(0, 1)`. -/
theorem ad_piece {c a b : ℝ} (ha : 0 < a) (hab : a ≤ b) (hb : b < 1) :
    IntervalIntegrable (fun u => (c - u) ^ 2 / (u * (1 - u))) volume a b ∧
    ∫ u in a..b, (c - u) ^ 2 / (u * (1 - u)) = adPrimitive c b - adPrimitive c a := by
  have hc : ContinuousOn (fun u : ℝ => (c - u) ^ 2 / (u * (1 - u))) (Set.uIcc a b) := by
    rw [Set.uIcc_of_le hab]
    refine ContinuousOn.div (by fun_prop) (by fun_prop) fun u hu => ?_
    have h1 : 0 < u := ha.trans_le hu.1
    have h2 : 0 < 1 - u := by linarith [hu.2]
    positivity
  refine ⟨hc.intervalIntegrable, intervalIntegral.integral_eq_sub_of_hasDerivAt (fun u hu => ?_)
    hc.intervalIntegrable⟩
  rw [Set.uIcc_of_le hab] at hu
  exact adPrimitive_deriv (ha.trans_le hu.1) (hu.2.trans_lt hb)

/-- The first piece, `c = 0`. -/
theorem ad_first {b : ℝ} (h0 : 0 ≤ b) (hb : b < 1) :
    IntervalIntegrable (fun u => (0 - u) ^ 2 / (u * (1 - u))) volume 0 b ∧
    ∫ u in (0 : ℝ)..b, (0 - u) ^ 2 / (u * (1 - u)) = adPrimitive 0 b := by
  have e : Set.EqOn (fun u : ℝ => u / (1 - u)) (fun u => (0 - u) ^ 2 / (u * (1 - u))) (Set.uIoo 0 b) := by
    intro u hu
    rw [Set.uIoo_of_le h0] at hu
    have h1 := hu.1.ne'
    have h2 : 1 - u ≠ 0 := by linarith [hu.2]
    simp only
    field_simp
    ring
  have hc : ContinuousOn (fun u : ℝ => u / (1 - u)) (Set.uIcc 0 b) := by
    rw [Set.uIcc_of_le h0]
    refine ContinuousOn.div (by fun_prop) (by fun_prop) fun u hu => ?_
    have := hu.2
    intro h
    linarith
  refine ⟨hc.intervalIntegrable.congr_uIoo e, ?_⟩
  rw [← intervalIntegral.integral_congr_uIoo e,
    intervalIntegral.integral_eq_sub_of_hasDerivAt (f := fun u => -Real.log (1 - u) - u)]
  · simp [adPrimitive]
  · intro u hu
    rw [Set.uIcc_of_le h0] at hu
    have hu' : 1 - u ≠ 0 := by linarith [hu.2]
    have b : HasDerivAt (fun u : ℝ => Real.log (1 - u)) (-1 / (1 - u)) u :=
      ((hasDerivAt_id u).const_sub 1).log hu'
    refine (b.neg.sub (hasDerivAt_id u)).congr_deriv ?_
    field_simp
    ring
  · exact hc.intervalIntegrable

/-- The last piece, `c = 1`. -/
theorem ad_last {a : ℝ} (h0 : 0 < a) (h1 : a ≤ 1) :
    IntervalIntegrable (fun u => (1 - u) ^ 2 / (u * (1 - u))) volume a 1 ∧
    ∫ u in a..1, (1 - u) ^ 2 / (u * (1 - u)) = -1 - adPrimitive 1 a := by
  have e : Set.EqOn (fun u : ℝ => (1 - u) / u) (fun u => (1 - u) ^ 2 / (u * (1 - u))) (Set.uIoo a 1) := by
    intro u hu
    rw [Set.uIoo_of_le h1] at hu
    have h1 : u ≠ 0 := by linarith [hu.1]
    have h2 : 1 - u ≠ 0 := by linarith [hu.2]
    simp only
    field_simp
  have hc : ContinuousOn (fun u : ℝ => (1 - u) / u) (Set.uIcc a 1) := by
    rw [Set.uIcc_of_le h1]
    refine ContinuousOn.div (by fun_prop) (by fun_prop) fun u hu => ?_
    exact (h0.trans_le hu.1).ne'
  refine ⟨hc.intervalIntegrable.congr_uIoo e, ?_⟩
  rw [← intervalIntegral.integral_congr_uIoo e,
    intervalIntegral.integral_eq_sub_of_hasDerivAt (f := fun u => Real.log u - u)]
  · simp [adPrimitive]
  · intro u hu
    rw [Set.uIcc_of_le h1] at hu
    have hu' : u ≠ 0 := (h0.trans_le hu.1).ne'
    refine ((Real.hasDerivAt_log hu').sub (hasDerivAt_id u)).congr_deriv ?_
    field_simp
  · exact hc.intervalIntegrable

/-- The integral from `a` on, when `k` values lie at or below `a` and `s` are the others. -/
theorem ad_rest {N : ℝ} (hN : 0 < N) : ∀ (s : List ℝ) (k a : ℝ), k + s.length = N → 0 < a → a ≤ 1 →
    s.Pairwise (· ≤ ·) → (∀ x ∈ s, a ≤ x ∧ x < 1) →
    IntervalIntegrable (fun u => gap N k s u ^ 2 / (u * (1 - u))) volume a 1 ∧
    ∫ u in a..1, gap N k s u ^ 2 / (u * (1 - u)) = -1 - adPrimitive (k / N) a +
      (s.mapIdx fun i x => adPrimitive ((k + i) / N) x - adPrimitive ((k + i + 1) / N) x).sum := by
  intro s
  induction s with
  | nil =>
    intro k a hk ha h1 _ _
    have hk1 : k / N = 1 := by
      rw [div_eq_one_iff_eq hN.ne']; simpa using hk
    have := ad_last ha h1
    simpa [gap, hk1] using this
  | cons x s ih =>
    intro k a hk ha h1 hs hb
    have hx := hb x (by simp)
    have b := ad_piece (c := k / N) ha hx.1 hx.2
    have i := ih (k + 1) x (by rw [← hk]; simp; ring) (ha.trans_le hx.1) hx.2.le hs.of_cons
      fun y hy => ⟨List.rel_of_pairwise_cons hs hy, (hb y (by simp [hy])).2⟩
    have hl : Set.EqOn (fun u => (k / N - u) ^ 2 / (u * (1 - u)))
        (fun u => gap N k (x :: s) u ^ 2 / (u * (1 - u))) (Set.uIoo a x) := by
      intro u hu
      rw [Set.uIoo_of_le hx.1] at hu
      simp only [gap_cons_left hs hu.2]
    have hr : Set.EqOn (fun u => gap N (k + 1) s u ^ 2 / (u * (1 - u)))
        (fun u => gap N k (x :: s) u ^ 2 / (u * (1 - u))) (Set.uIoo x 1) := by
      intro u hu
      rw [Set.uIoo_of_le hx.2.le] at hu
      simp only [gap_cons_right hu.1.le]
    have i1 := b.1.congr_uIoo hl
    have i2 := i.1.congr_uIoo hr
    refine ⟨i1.trans i2, ?_⟩
    rw [← intervalIntegral.integral_add_adjacent_intervals i1 i2,
      ← intervalIntegral.integral_congr_uIoo hl, ← intervalIntegral.integral_congr_uIoo hr, b.2, i.2]
    simp only [List.mapIdx_cons, List.sum_cons, Nat.cast_add, Nat.cast_one, Nat.cast_zero, add_zero]
    have e1 : ∀ i : ℕ, k + 1 + (i : ℝ) = k + ((i : ℝ) + 1) := fun i => by ring
    simp only [e1]
    ring

/-- The weighted integral of a sorted list of values. -/
theorem ad_integral {vals : List ℝ} (hs : vals.Pairwise (· ≤ ·)) (hne : vals ≠ [])
    (h01 : ∀ x ∈ vals, 0 < x ∧ x < 1) :
    IntervalIntegrable (fun u => (fracLe vals u - u) ^ 2 / (u * (1 - u))) volume 0 1 ∧
    ∫ u in (0 : ℝ)..1, (fracLe vals u - u) ^ 2 / (u * (1 - u)) = -1 +
      (vals.mapIdx fun i x => adPrimitive ((i : ℝ) / vals.length) x -
        adPrimitive (((i : ℝ) + 1) / vals.length) x).sum := by
  have hN : (0 : ℝ) < vals.length := by exact_mod_cast List.length_pos_iff.2 hne
  have e : ∀ u, fracLe vals u - u = gap vals.length 0 vals u := by
    intro u
    rw [fracLe_eq, gap, zero_add]
  simp only [e]
  obtain ⟨x, s, rfl⟩ := List.exists_cons_of_ne_nil hne
  have hx := h01 x (by simp)
  have b := ad_first hx.1.le hx.2
  generalize hNN : ((x :: s).length : ℝ) = N at *
  have i := ad_rest hN s 1 x (by rw [← hNN]; simp; ring) hx.1 hx.2.le hs.of_cons
    fun y hy => ⟨List.rel_of_pairwise_cons hs hy, (h01 y (by simp [hy])).2⟩
  have hl : Set.EqOn (fun u => (0 - u) ^ 2 / (u * (1 - u)))
      (fun u => gap N 0 (x :: s) u ^ 2 / (u * (1 - u))) (Set.uIoo 0 x) := by
    intro u hu
    rw [Set.uIoo_of_le hx.1.le] at hu
    simp only [gap_cons_left hs hu.2, zero_div]
  have hr : Set.EqOn (fun u => gap N 1 s u ^ 2 / (u * (1 - u)))
      (fun u => gap N 0 (x :: s) u ^ 2 / (u * (1 - u))) (Set.uIoo x 1) := by
    intro u hu
    rw [Set.uIoo_of_le hx.2.le] at hu
    simp only [gap_cons_right hu.1.le, zero_add]
  have i1 := b.1.congr_uIoo hl
  have i2 := i.1.congr_uIoo hr
  refine ⟨i1.trans i2, ?_⟩
  rw [← intervalIntegral.integral_add_adjacent_intervals i1 i2,
    ← intervalIntegral.integral_congr_uIoo hl, ← intervalIntegral.integral_congr_uIoo hr, b.2, i.2]
  simp only [List.mapIdx_cons, List.sum_cons, Nat.cast_add, Nat.cast_one, Nat.cast_zero, zero_add,
    zero_div]
  have e1 : ∀ i : ℕ, 1 + (i : ℝ) = (i : ℝ) + 1 := fun i => by ring
  simp only [e1]
  ring

/-- The sum of the code, observation by observation. -/
theorem ad_sum (vals : List ℝ) (f g : ℝ → ℝ) :
    Edf.ad (vals.map f) (vals.map g) = -(vals.length : ℝ) -
      ∑ i : Fin vals.length, ((2 * (i : ℝ) + 1) / vals.length * f vals[i] +
        (2 * ((vals.length : ℝ) - i) - 1) / vals.length * g vals[i]) := by
  unfold Edf.ad
  rw [List.length_map]
  congr 1
  have e : ((vals.map f).zip (vals.map g).reverse).mapIdx (fun i p =>
      (2 * ((i : ℝ) + 1) - 1) / (vals.length : ℝ) * (p.1 + p.2)) =
      List.ofFn fun i : Fin vals.length => (2 * (i : ℝ) + 1) / vals.length * f vals[i] +
        (2 * (i : ℝ) + 1) / vals.length * g vals[i.rev] := by
    refine List.ext_getElem (by simp) fun i h1 h2 => ?_
    simp only [List.getElem_mapIdx, List.getElem_zip, List.getElem_reverse, List.getElem_map,
      List.length_map, List.getElem_ofFn, Fin.getElem_fin, Fin.val_rev]
    have e2 : vals.length - 1 - i = vals.length - (i + 1) := by omega
    simp only [e2]
    ring
  rw [e, List.sum_ofFn, Finset.sum_add_distrib, Finset.sum_add_distrib]
  congr 1
  rw [← Equiv.sum_comp Fin.revPerm]
  refine Finset.sum_congr rfl fun i _ => ?_
  simp only [Fin.revPerm_apply, Fin.rev_rev]
  congr 2
  rw [Fin.val_rev, Nat.cast_sub (by omega)]
  push_cast
  ring

/-- The statistic of a sorted list of values in `(0, 1)`. -/
theorem ad_weighted {vals : List ℝ} (hs : vals.Pairwise (· ≤ ·)) (hne : vals ≠ [])
    (h01 : ∀ x ∈ vals, 0 < x ∧ x < 1) :
    Edf.ad (vals.map Real.log) (vals.map fun x => Real.log (1 - x)) = Spec.andersonDarling vals := by
  have hN : (0 : ℝ) < vals.length := by exact_mod_cast List.length_pos_iff.2 hne
  rw [Spec.andersonDarling, (ad_integral hs hne h01).2, ad_sum, sum_mapIdx, mul_add, Finset.mul_sum,
    mul_neg_one, sub_eq_add_neg, ← Finset.sum_neg_distrib]
  congr 1
  refine Finset.sum_congr rfl fun i _ => ?_
  simp only [adPrimitive]
  generalize Real.log vals[i] = p
  generalize Real.log (1 - vals[i]) = q
  generalize (vals.length : ℝ) = N at *
  field_simp
  ring

theorem andersonDarling_perm {L M : List ℝ} (h : L.Perm M) :
    Spec.andersonDarling L = Spec.andersonDarling M := by
  simp only [Spec.andersonDarling, fracLe_perm h, h.length_eq]

/-- **C120.** The Anderson-Darling statistic of a sample under a hypothetical distribution function
that is neither 0 nor 1 at an observation is `n` times the integral over `[0,1]` of the squared
difference between the fraction of transformed observations at or below `u` and `u`, divided by
`u (1 - u)`; the integral converges. -/
theorem C120_integral {F : ℝ → ℝ} (hm : Monotone F) {rvs : List ℝ} (hne : rvs ≠ [])
    (h01 : ∀ x ∈ rvs, 0 < F x ∧ F x < 1) :
    adOf (fun x => Real.log (F x)) (fun x => Real.log (1 - F x)) rvs =
      Spec.andersonDarling (rvs.map F) ∧
    IntervalIntegrable (fun u => (fracLe (rvs.map F) u - u) ^ 2 / (u * (1 - u))) volume 0 1 := by
  have hp : ((sort rvs).map F).Perm (rvs.map F) := (sort_perm rvs).map F
  have hb : ∀ v ∈ (sort rvs).map F, 0 < v ∧ v < 1 := by
    intro v hv
    obtain ⟨x, hx, rfl⟩ := List.mem_map.1 hv
    exact h01 x ((sort_perm rvs).mem_iff.1 hx)
  have hn : (sort rvs).map F ≠ [] := by simpa using sort_ne_nil hne
  constructor
  · rw [← andersonDarling_perm hp, ← ad_weighted (map_sorted hm rvs) hn hb, adOf, List.map_map,
      List.map_map]
    rfl
  · have := (ad_integral (map_sorted hm rvs) hn hb).1
    simpa only [fracLe_perm hp] using this

/-! ### Extremes -/

/-- The midpoints `(2i-1)/(2n)`, `i = 1, ..., n`. -/
noncomputable def midpoints (n : ℕ) : List ℝ :=
  (List.range n).map fun i : ℕ => (2 * ((i : ℝ) + 1) - 1) / (2 * n)

theorem gibbs_binary {p x : ℝ} (p0 : 0 < p) (p1 : p < 1) (x0 : 0 < x) (x1 : x < 1) :
    p * Real.log x + (1 - p) * Real.log (1 - x) ≤ p * Real.log p + (1 - p) * Real.log (1 - p) ∧
    (p * Real.log x + (1 - p) * Real.log (1 - x) = p * Real.log p + (1 - p) * Real.log (1 - p) → x = p) := by
  have q0 : 0 < 1 - p := by linarith
  have y0 : 0 < 1 - x := by linarith
  have a := Real.log_le_sub_one_of_pos (div_pos x0 p0)
  have b := Real.log_le_sub_one_of_pos (div_pos y0 q0)
  have ea : p * (x / p - 1) = x - p := by field_simp
  have eb : (1 - p) * ((1 - x) / (1 - p) - 1) = p - x := by field_simp; ring
  have a' := mul_le_mul_of_nonneg_left a p0.le
  have b' := mul_le_mul_of_nonneg_left b q0.le
  rw [ea, Real.log_div x0.ne' p0.ne'] at a'
  rw [eb, Real.log_div y0.ne' q0.ne'] at b'
  refine ⟨by nlinarith, fun h => ?_⟩
  by_contra hxp
  have c := Real.log_lt_sub_one_of_pos (div_pos x0 p0) (by rwa [ne_eq, div_eq_one_iff_eq p0.ne'])
  have c' := mul_lt_mul_of_pos_left c p0
  rw [ea, Real.log_div x0.ne' p0.ne'] at c'
  nlinarith

theorem midpoints_sorted (n : ℕ) : (midpoints n).Pairwise (· ≤ ·) := by
  refine List.pairwise_map.2 (List.pairwise_lt_range.imp fun {a b} h => ?_)
  have : (a : ℝ) < b := by exact_mod_cast h
  gcongr

theorem midpoints_mem {n : ℕ} : ∀ v ∈ midpoints n, 0 < v ∧ v < 1 := by
  intro v hv
  obtain ⟨i, hi, rfl⟩ := List.mem_map.1 hv
  have h : ((i : ℝ) + 1) ≤ n := by exact_mod_cast List.mem_range.1 hi
  have h0 : (0 : ℝ) ≤ i := by positivity
  exact ⟨div_pos (by linarith) (by linarith), by rw [div_lt_one (by linarith)]; linarith⟩

theorem ad_form {n : ℕ} {w : List ℝ} (hl : w.length = n) (hw : w.Pairwise (· ≤ ·)) (hwn : w ≠ [])
    (hwb : ∀ x ∈ w, 0 < x ∧ x < 1) : Spec.andersonDarling w = -(n : ℝ) -
      2 * ∑ i : Fin n, ((2 * ((i : ℝ) + 1) - 1) / (2 * n) * Real.log (w.getD i 0) +
        (1 - (2 * ((i : ℝ) + 1) - 1) / (2 * n)) * Real.log (1 - w.getD i 0)) := by
  subst hl
  have hN : (0 : ℝ) < w.length := by exact_mod_cast List.length_pos_iff.2 hwn
  rw [← ad_weighted hw hwn hwb, ad_sum, Finset.mul_sum]
  congr 1
  refine Finset.sum_congr rfl fun i _ => ?_
  simp only [List.getD_eq_getElem _ _ i.2, Fin.getElem_fin]
  generalize Real.log w[(i : ℕ)] = p
  generalize Real.log (1 - w[(i : ℕ)]) = q
  field_simp
  ring

theorem Phi_pos (x : ℝ) : 0 < Phi x :=
  (cdf_nonneg _ (x - 1)).trans_lt (Phi_strictMono (by linarith : x - 1 < x))

theorem Phi_lt_one (x : ℝ) : Phi x < 1 :=
  (Phi_strictMono (by linarith : x < x + 1)).trans_le (cdf_le_one _ _)

/-- **C120.** Among the samples of `n` transformed observations the statistic is smallest for the
midpoints `(2i-1)/(2n)`, and only for them. -/
theorem C120_minimum {vals : List ℝ} (hne : vals ≠ []) (h01 : ∀ x ∈ vals, 0 < x ∧ x < 1) :
    Spec.andersonDarling (midpoints vals.length) ≤ Spec.andersonDarling vals ∧
    (Spec.andersonDarling vals = Spec.andersonDarling (midpoints vals.length) ↔
      vals.Perm (midpoints vals.length)) := by
  have key : ∀ s : List ℝ, s.Pairwise (· ≤ ·) → s ≠ [] → (∀ x ∈ s, 0 < x ∧ x < 1) →
      Spec.andersonDarling (midpoints s.length) ≤ Spec.andersonDarling s ∧
      (Spec.andersonDarling s = Spec.andersonDarling (midpoints s.length) → s = midpoints s.length) := by
    intro s hs hn hb
    have hlen : (midpoints s.length).length = s.length := by simp [midpoints]
    have hN : (0 : ℝ) < s.length := by exact_mod_cast List.length_pos_iff.2 hn
    have hmn : midpoints s.length ≠ [] := by
      rw [← List.length_pos_iff, hlen]; exact List.length_pos_iff.2 hn
    have mid : ∀ i : Fin s.length, (midpoints s.length).getD i 0 =
        (2 * ((i : ℝ) + 1) - 1) / (2 * s.length) := by
      intro i
      rw [List.getD_eq_getElem _ _ (by rw [hlen]; exact i.2)]
      simp [midpoints]
    have hpm : ∀ i : Fin s.length, 0 < (2 * ((i : ℝ) + 1) - 1) / (2 * s.length) ∧
        (2 * ((i : ℝ) + 1) - 1) / (2 * s.length) < 1 := fun i => by
      rw [← mid, List.getD_eq_getElem _ _ (by rw [hlen]; exact i.2)]
      exact midpoints_mem _ (List.getElem_mem _)
    have hsm : ∀ i : Fin s.length, 0 < s.getD i 0 ∧ s.getD i 0 < 1 := fun i => by
      rw [List.getD_eq_getElem _ _ i.2]
      exact hb _ (List.getElem_mem _)
    have le := fun i : Fin s.length => gibbs_binary (hpm i).1 (hpm i).2 (hsm i).1 (hsm i).2
    rw [ad_form rfl hs hn hb, ad_form hlen (midpoints_sorted _) hmn midpoints_mem]
    simp only [mid]
    refine ⟨by linarith [Finset.sum_le_sum fun i (_ : i ∈ Finset.univ) => (le i).1], fun h => ?_⟩
    have h' : ∑ i : Fin s.length, ((2 * ((i : ℝ) + 1) - 1) / (2 * s.length) * Real.log (s.getD i 0) +
          (1 - (2 * ((i : ℝ) + 1) - 1) / (2 * s.length)) * Real.log (1 - s.getD i 0)) =
        ∑ i : Fin s.length, ((2 * ((i : ℝ) + 1) - 1) / (2 * s.length) *
          Real.log ((2 * ((i : ℝ) + 1) - 1) / (2 * s.length)) +
          (1 - (2 * ((i : ℝ) + 1) - 1) / (2 * s.length)) *
            Real.log (1 - (2 * ((i : ℝ) + 1) - 1) / (2 * s.length))) := by linarith
    have h'' := (Finset.sum_eq_sum_iff_of_le fun i _ => (le i).1).1 h'
    refine List.ext_getElem hlen.symm fun i h1 h2 => ?_
    have := (le ⟨i, h1⟩).2 (h'' ⟨i, h1⟩ (Finset.mem_univ _))
    rw [← mid, List.getD_eq_getElem _ _ h1, List.getD_eq_getElem _ _ h2] at this
    exact this
  have hp := sort_perm vals
  have k := key (sort vals) (sort_pairwise _) (sort_ne_nil hne) fun x hx => h01 x (hp.mem_iff.1 hx)
  rw [andersonDarling_perm hp, length_sort] at k
  refine ⟨k.1, fun h => ?_, andersonDarling_perm⟩
  rw [← k.2 h]
  exact hp.symm

/-- **C120.** It is at least four times the Cramer-von Mises statistic of the same sample. -/
theorem C120_cvm {F : ℝ → ℝ} (hm : Monotone F) {rvs : List ℝ} (hne : rvs ≠ [])
    (h01 : ∀ x ∈ rvs, 0 < F x ∧ F x < 1) :
    4 * cvmOf F rvs ≤ adOf (fun x => Real.log (F x)) (fun x => Real.log (1 - F x)) rvs ∧
    0 < adOf (fun x => Real.log (F x)) (fun x => Real.log (1 - F x)) rvs := by
  have hN : (0 : ℝ) < rvs.length := by exact_mod_cast List.length_pos_iff.2 hne
  obtain ⟨e, hi⟩ := C120_integral hm hne h01
  have hp : ((sort rvs).map F).Perm (rvs.map F) := (sort_perm rvs).map F
  have hcv : cvmOf F rvs = rvs.length * ∫ u in (0 : ℝ)..1, (fracLe (rvs.map F) u - u) ^ 2 := by
    unfold cvmOf
    rw [cvm_integral_sorted (map_sorted hm rvs) (by simpa using sort_ne_nil hne), hp.length_eq,
      List.length_map]
    · simp only [fracLe_perm hp]
    · intro v hv
      obtain ⟨x, hx, rfl⟩ := List.mem_map.1 hv
      have := h01 x ((sort_perm rvs).mem_iff.1 hx)
      exact ⟨this.1.le, this.2.le⟩
  have hc : IntervalIntegrable (fun u => (fracLe (rvs.map F) u - u) ^ 2) volume 0 1 := by
    have := hi.mul_continuousOn (g := fun u : ℝ => u * (1 - u)) (by fun_prop)
    refine this.congr_uIoo fun u hu => ?_
    rw [Set.uIoo_of_le zero_le_one] at hu
    have h1 := hu.1.ne'
    have h2 : 1 - u ≠ 0 := by linarith [hu.2]
    simp only
    field_simp
  have hle : 4 * cvmOf F rvs ≤ adOf (fun x => Real.log (F x)) (fun x => Real.log (1 - F x)) rvs := by
    rw [e, hcv, Spec.andersonDarling, List.length_map, mul_left_comm]
    refine mul_le_mul_of_nonneg_left ?_ hN.le
    rw [← intervalIntegral.integral_const_mul]
    refine intervalIntegral.integral_mono_on_of_le_Ioo zero_le_one (hc.const_mul 4) hi fun u hu => ?_
    have h1 := hu.1
    have h2 : 0 < 1 - u := by linarith [hu.2]
    have hs := sq_nonneg (fracLe (rvs.map F) u - u)
    rw [le_div_iff₀ (mul_pos h1 h2)]
    nlinarith [sq_nonneg (2 * u - 1), mul_nonneg hs (sq_nonneg (2 * u - 1))]
  refine ⟨hle, lt_of_lt_of_le ?_ hle⟩
  have := (C56_lower_bound hm hne).1
  have h3 : (0 : ℝ) < 1 / (12 * rvs.length) := by positivity
  linarith

example : 4 * cvmOf Phi [1, -2, 0] ≤
    adOf (fun x => Real.log (Phi x)) (fun x => Real.log (1 - Phi x)) [1, -2, 0] :=
  (C120_cvm Phi_strictMono.monotone (by simp) fun x _ => ⟨Phi_pos x, Phi_lt_one x⟩).1

example : Spec.andersonDarling (midpoints 2) ≤ Spec.andersonDarling [1 / 2, 1 / 3] :=
  (C120_minimum (vals := [1 / 2, 1 / 3]) (by simp) (by
    intro x hx
    simp only [List.mem_cons, List.not_mem_nil, or_false] at hx
    rcases hx with rfl | rfl <;> norm_num)).1

/-! ### The families -/

/-- A law with a density that is positive around `x` puts mass on both sides. -/
theorem cdf_interior {μ : Measure ℝ} [IsProbabilityMeasure μ] {f : ℝ → ENNReal} (hf : Measurable f)
    (hμ : μ = volume.withDensity f) {l r x : ℝ} (hl : l < x) (hr : x < r)
    (hpos : ∀ y ∈ Set.Ioo l r, f y ≠ 0) : 0 < cdf μ x ∧ cdf μ x < 1 := by
  have pos : ∀ a b, l ≤ a → a < b → b ≤ r → 0 < μ.real (Set.Ioo a b) := by
    intro a b ha hab hb
    rw [measureReal_def, ENNReal.toReal_pos_iff]
    refine ⟨pos_iff_ne_zero.2 fun h0 => ?_, measure_lt_top _ _⟩
    rw [hμ, withDensity_apply_eq_zero hf] at h0
    have hs : Set.Ioo a b ⊆ {y | f y ≠ 0} ∩ Set.Ioo a b :=
      fun y hy => ⟨hpos y ⟨ha.trans_lt hy.1, hy.2.trans_le hb⟩, hy⟩
    have := measure_mono_null hs h0
    rw [Real.volume_Ioo, ENNReal.ofReal_eq_zero] at this
    linarith
  rw [cdf_eq_real]
  constructor
  · exact (pos l x le_rfl hl hr.le).trans_le (measureReal_mono fun y hy => hy.2.le)
  · have h1 := pos x r hl.le hr le_rfl
    have h2 : μ.real (Set.Ioo x r) ≤ μ.real (Set.Iic x)ᶜ :=
      measureReal_mono fun y hy => by simpa using hy.1
    rw [probReal_compl_eq_one_sub measurableSet_Iic] at h2
    linarith


theorem gamma_interior {a r x : ℝ} (ha : 0 < a) (hr : 0 < r) (hx : 0 < x) :
    0 < cdf (gammaMeasure a r) x ∧ cdf (gammaMeasure a r) x < 1 := by
  have := isProbabilityMeasure_gammaMeasure ha hr
  refine cdf_interior (μ := gammaMeasure a r) (measurable_gammaPDFReal a r).ennreal_ofReal rfl hx (lt_add_one x) fun y hy => ?_
  have hy0 := hy.1
  have hG := Real.Gamma_pos_of_pos ha
  rw [ne_eq, ENNReal.ofReal_eq_zero, not_le, gammaPDFReal, if_pos hy0.le]
  positivity

theorem beta_interior {a b x : ℝ} (ha : 0 < a) (hb : 0 < b) (h0 : 0 < x) (h1 : x < 1) :
    0 < cdf (betaMeasure a b) x ∧ cdf (betaMeasure a b) x < 1 := by
  have := isProbabilityMeasureBeta ha hb
  refine cdf_interior (μ := betaMeasure a b) (measurable_betaPDFReal a b).ennreal_ofReal rfl h0 h1 fun y hy => ?_
  have hy0 := hy.1
  have hy1 : 0 < 1 - y := by linarith [hy.2]
  have hB := beta_pos ha hb
  rw [ne_eq, ENNReal.ofReal_eq_zero, not_le, betaPDFReal, if_pos (⟨hy.1, hy.2⟩ : 0 < y ∧ y < 1)]
  positivity

/-- **C120**, normality: the distance between the sample and the normal law with its mean and
unbiased variance. -/
theorem C120_normal {xs : List ℝ} (hv : Varies xs) :
    NormStat.andersonDarling.value scipyNorm xs =
      .ok (some (Spec.andersonDarling (xs.map (fittedNormal xs)))) := by
  have hmono : Monotone (fittedNormal xs) := by
    intro x y hxy
    refine (cdf (gaussianReal 0 1)).mono ?_
    gcongr
  rw [← (C120_integral hmono hv.ne_nil fun x _ => ⟨Phi_pos _, Phi_lt_one _⟩).1, NormStat.value,
    Normal.andersonDarling, adOf, List.map_map, List.map_map]
  rfl

/-- **C120**, log-normality: the same distance for the logarithms of a positive sample, whatever the
parameters of the hypothesis. -/
theorem C120_lognormal {s scale : ℝ} (hs : 0 < s) {xs : List ℝ} (hx : ∀ x ∈ xs, 0 < x)
    (hv : Varies (xs.map Real.log)) :
    LogNormal.wrapped scipyNorm .andersonDarling s scale xs =
      .ok (some (Spec.andersonDarling ((xs.map Real.log).map (fittedNormal (xs.map Real.log))) : ℝ)) := by
  rw [wrapped_pos _ _ _ _ hx, standardLogs_aff hs,
    C63_location_scale scipyNorm_symmetric (wrapped_free (cls := .andersonDarling) trivial) _ _
      (by positivity), C120_normal hv]
  rfl

/-- **C120**, the uniform family. -/
theorem C120_uniform {a b : ℝ} (hab : a < b) {xs : List ℝ} (hne : xs ≠ []) (hx : ∀ x ∈ xs, a < x ∧ x < b) :
    UniStat.andersonDarling.value a b xs =
      .ok (Spec.andersonDarling (xs.map fun x => (x - a) / (b - a))) := by
  have hc : ∀ x ∈ xs, uniformCdf a b x = (x - a) / (b - a) := fun x h => by
    rw [uniformCdf, if_neg (hx x h).1.not_ge, if_neg (hx x h).2.not_ge]
  have hba : 0 < b - a := by linarith
  have hm : Monotone fun x => (x - a) / (b - a) := by
    intro x y hxy
    simp only
    gcongr
  rw [← (C120_integral hm hne fun x h => ⟨div_pos (by linarith [(hx x h).1]) hba, by
      rw [div_lt_one hba]; linarith [(hx x h).2]⟩).1, UniStat.value,
    validateUniform_ok fun x h => ⟨(hx x h).1.le, (hx x h).2.le⟩, adOf]
  have e : ∀ g : ℝ → ℝ, (sort xs).map (fun x => g (uniformCdf a b x)) =
      (sort xs).map fun x => g ((x - a) / (b - a)) := fun g =>
    List.map_congr_left fun x h => by rw [hc x ((sort_perm xs).mem_iff.1 h)]
  simp only [bind, Except.bind, e Real.log, e fun u => Real.log (1 - u)]
  rfl

/-- The documented functions of `scipy.stats.gamma`, with shape and scale. -/
structure ScipyGamma (lib : Gamma.GammaLib) : Prop where
  cdf : ∀ {a s : ℝ}, 0 < a → 0 < s → ∀ x, lib.cdf a s x = ProbabilityTheory.cdf (gammaMeasure a (1 / s)) x
  logcdf : ∀ {a s : ℝ}, 0 < a → 0 < s → ∀ x, lib.logcdf a s x = Real.log (lib.cdf a s x)
  logsf : ∀ {a s : ℝ}, 0 < a → 0 < s → ∀ x, lib.logsf a s x = Real.log (1 - lib.cdf a s x)

/-- **C120**, the gamma family: `beta` is the rate. -/
theorem C120_gamma {lib : Gamma.GammaLib} (hlib : ScipyGamma lib) {p : Gamma.Params} (ha : 0 < p.alpha)
    (hb : 0 < p.beta) {xs : List ℝ} (hne : xs ≠ []) (hx : ∀ x ∈ xs, 0 < x) :
    Gamma.GammaStat.andersonDarling.value lib p xs =
      .ok (Spec.andersonDarling (xs.map fun x => cdf (gammaMeasure p.alpha p.beta) x)) := by
  have hs : 0 < 1 / p.beta := by positivity
  have h1 : lib.cdf p.alpha (1 / p.beta) = fun x => cdf (gammaMeasure p.alpha p.beta) x := by
    funext x; rw [hlib.cdf ha hs, one_div_one_div]
  rw [← (C120_integral (cdf (gammaMeasure p.alpha p.beta)).mono hne
    fun x h => gamma_interior ha hb (hx x h)).1, Gamma.GammaStat.value]
  congr 2
  · funext x; rw [hlib.logcdf ha hs, h1]
  · funext x; rw [hlib.logsf ha hs, h1]

/-- The documented distribution function, log-distribution and log-survival functions of
`scipy.stats.beta`. -/
structure ScipyBetaCdf (lib : Beta.BetaLib) : Prop where
  cdf : ∀ {a b : ℝ}, 0 < a → 0 < b → ∀ x, lib.cdf a b x = ProbabilityTheory.cdf (betaMeasure a b) x
  logcdf : ∀ {a b : ℝ}, 0 < a → 0 < b → ∀ x, lib.logcdf a b x = Real.log (lib.cdf a b x)
  logsf : ∀ {a b : ℝ}, 0 < a → 0 < b → ∀ x, lib.logsf a b x = Real.log (1 - lib.cdf a b x)

theorem scipyBetaCdf_ideal : ScipyBetaCdf idealBeta :=
  ⟨fun _ _ _ => rfl, fun _ _ _ => rfl, fun _ _ _ => rfl⟩

/-- **C120**, the beta family. -/
theorem C120_beta {lib : Beta.BetaLib} (hlib : ScipyBetaCdf lib) {p : Beta.Params} (ha : 0 < p.alpha)
    (hb : 0 < p.beta) {xs : List ℝ} (hne : xs ≠ []) (hx : ∀ x ∈ xs, 0 < x ∧ x < 1) :
    Beta.BetaStat.andersonDarling.value lib p xs =
      .ok (Spec.andersonDarling (xs.map fun x => cdf (betaMeasure p.alpha p.beta) x)) := by
  have h1 : lib.cdf p.alpha p.beta = fun x => cdf (betaMeasure p.alpha p.beta) x := by
    funext x; rw [hlib.cdf ha hb]
  rw [← (C120_integral (cdf (betaMeasure p.alpha p.beta)).mono hne
    fun x h => beta_interior ha hb (hx x h).1 (hx x h).2).1, Beta.BetaStat.value,
    beta_validate_ok fun x h => ⟨(hx x h).1.le, (hx x h).2.le⟩]
  have h2 : lib.logcdf p.alpha p.beta = fun x => Real.log (cdf (betaMeasure p.alpha p.beta) x) := by
    funext x; rw [hlib.logcdf ha hb, h1]
  have h3 : lib.logsf p.alpha p.beta = fun x => Real.log (1 - cdf (betaMeasure p.alpha p.beta) x) := by
    funext x; rw [hlib.logsf ha hb, h1]
  simp only [bind, Except.bind, h2, h3]
  rfl

/-- **C120**, the Student family: the distance between the sample and the law with the given location
and scale, for any continuous law `μ` without bounds that the library gives for the degrees of freedom. -/
theorem C120_student {lib : Student.StudentLib} {p : Student.Params} (hsc : 0 < p.scale) {μ : Measure ℝ}
    (hcdf : ∀ x, lib.cdf p.df x = cdf μ x) (hlog : ∀ x, lib.logcdf p.df x = Real.log (lib.cdf p.df x))
    (hsf : ∀ x, lib.logsf p.df x = Real.log (1 - lib.cdf p.df x)) (hμ : ∀ x, 0 < cdf μ x ∧ cdf μ x < 1)
    {xs : List ℝ} (hne : xs ≠ []) :
    Student.StudentStat.andersonDarling.value lib p xs =
      .ok (Spec.andersonDarling (xs.map fun x => cdf μ ((x - p.loc) / p.scale))) := by
  have hm : Monotone fun x => cdf μ ((x - p.loc) / p.scale) := by
    intro x y hxy
    refine (cdf μ).mono ?_
    gcongr
  rw [← (C120_integral hm hne fun x _ => hμ _).1, Student.StudentStat.value, Student.standardized, adOf,
    List.map_map, List.map_map]
  congr 2
  · refine List.map_congr_left fun x _ => ?_
    simp only [Function.comp, hlog, hcdf]
  · refine List.map_congr_left fun x _ => ?_
    simp only [Function.comp, hsf, hcdf]

example : NormStat.andersonDarling.value scipyNorm [1, 5, 2] =
    .ok (some (Spec.andersonDarling ([1, 5, 2].map (fittedNormal [1, 5, 2])))) :=
  C120_normal ⟨1, by simp, 5, by simp, by norm_num⟩

example : LogNormal.wrapped scipyNorm .andersonDarling 2 3 [1, Real.exp 1] =
    .ok (some (Spec.andersonDarling (([1, Real.exp 1].map Real.log).map
      (fittedNormal ([1, Real.exp 1].map Real.log))) : ℝ)) :=
  C120_lognormal (by norm_num) (by simp [Real.exp_pos]) ⟨0, by simp, 1, by simp, by norm_num⟩

example : UniStat.andersonDarling.value 1 3 [2, 5 / 2] =
    .ok (Spec.andersonDarling ([2, 5 / 2].map fun x => (x - 1) / (3 - 1))) :=
  C120_uniform (by norm_num) (by simp) (by
    intro x hx
    simp only [List.mem_cons, List.not_mem_nil, or_false] at hx
    rcases hx with rfl | rfl <;> norm_num)

example : Gamma.GammaStat.andersonDarling.value
    ⟨fun a s x => cdf (gammaMeasure a (1 / s)) x, fun a s x => Real.log (cdf (gammaMeasure a (1 / s)) x),
      fun a s x => Real.log (1 - cdf (gammaMeasure a (1 / s)) x), fun _ _ _ => 0⟩ ⟨2, 3⟩ [1, 4] =
    .ok (Spec.andersonDarling ([1, 4].map fun x => cdf (gammaMeasure 2 3) x)) :=
  C120_gamma ⟨fun _ _ _ => rfl, fun _ _ _ => rfl, fun _ _ _ => rfl⟩ (by norm_num) (by norm_num) (by simp)
    (by simp)

example : Beta.BetaStat.andersonDarling.value idealBeta ⟨2, 3⟩ [1 / 2, 1 / 3] =
    .ok (Spec.andersonDarling ([1 / 2, 1 / 3].map fun x => cdf (betaMeasure 2 3) x)) :=
  C120_beta scipyBetaCdf_ideal (by norm_num) (by norm_num) (by simp) (by
    intro x hx
    simp only [List.mem_cons, List.not_mem_nil, or_false] at hx
    rcases hx with rfl | rfl <;> norm_num)

example : Student.StudentStat.andersonDarling.value
    ⟨fun _ => Phi, fun _ x => Real.log (Phi x), fun _ x => Real.log (1 - Phi x), fun _ _ => 0⟩ ⟨3, 1, 2⟩ [1, 4] =
    .ok (Spec.andersonDarling ([1, 4].map fun x => cdf (gaussianReal 0 1) ((x - 1) / 2))) :=
  C120_student (by norm_num) (fun _ => rfl) (fun _ => rfl) (fun _ => rfl)
    (fun x => ⟨Phi_pos x, Phi_lt_one x⟩) (by simp)

end Pysatl.Props
