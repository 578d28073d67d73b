import Verif.Spec.WeibullShape
import Verif.Spec.NormalShape
import Verif.Spec.BetaLaw
import Verif.Lemmas.ListMeasurable
import Verif.Props.Weibull
import Verif.Props.NormalShape
import Verif.Props.Plotting
import Verif.Props.AndersonDarling
import Verif.Props.PearsonCells
import Mathlib.Analysis.SpecialFunctions.Log.Deriv
import Mathlib.MeasureTheory.Integral.Gamma
import Mathlib.Analysis.SpecialFunctions.Gamma.BohrMollerup

/-! # C124: what the Weibull criteria compute -/

namespace Pysatl.Props

open Pysatl.Decision Pysatl.Graph Pysatl.Edf Pysatl.Exponent Pysatl.Normal Pysatl.Spec Pysatl.Weibull

/-! ### The smooth criteria -/

theorem stMoment_spec (k : ℕ) (xs : List ℝ) :
    stMoment k xs = Spec.centralMoment k (xs.map fun x => -Real.log x) / stdDev (xs.map fun x => -Real.log x) ^ k := by
  have hp : (sort ((logs xs).map fun y => -y)).Perm (xs.map fun x => -Real.log x) := by
    refine (sort_perm _).trans ?_
    have := ((sort_perm (xs.map Real.log)).map fun y => -y)
    rwa [List.map_map] at this
  have hm : mean (sort ((logs xs).map fun y => -y)) = meanOf id (xs.map fun x => -Real.log x) := by
    rw [mean_perm hp]
    simp [mean, meanOf]
  have hl : (xs.length : ℝ) = ((xs.map fun x => -Real.log x).length : ℝ) := by simp
  have hs : sumSq (sort ((logs xs).map fun y => -y)) / xs.length =
      Spec.centralMoment 2 (xs.map fun x => -Real.log x) := by
    unfold sumSq
    rw [hm, (hp.map _).sum_eq, hl]; rfl
  simp only [stMoment, hs, hm]
  rw [(hp.map _).sum_eq, stdDev]
  generalize √(Spec.centralMoment 2 (xs.map fun x => -Real.log x)) = d
  simp only [div_pow, Spec.centralMoment, meanOf]
  rw [hl]
  generalize xs.map (fun x => -Real.log x) = l
  generalize (l.map id).sum / (l.length : ℝ) = m
  rw [div_right_comm]
  congr 1
  induction l with
  | nil => simp
  | cons a l ih => simp only [List.map_cons, List.sum_cons, ih, add_div]

/-- **C124, smooth criteria.** ST1 compares the skewness of the negative logarithms with 1.139547, ST2 their kurtosis
with `7.55 * skewness - 3.21`. -/
theorem C124_smooth (min : Minimizer) (p : Weibull.Params) (s : Sample ℝ) :
    WeibullStat.st1.value min p s = .ok (s.values.length / 20 *
      (skewness (s.values.map fun x => -Real.log x) - 1.139547) ^ 2) ∧
    WeibullStat.st2.value min p s = .ok (s.values.length / 219.72 *
      (kurtosis (s.values.map fun x => -Real.log x) - 7.55 * skewness (s.values.map fun x => -Real.log x) + 3.21) ^ 2) := by
  constructor
  · simp only [WeibullStat.value, st1, stMoment_spec, div_pow, skewness]
    rw [Real.sq_sqrt (by positivity)]
    congr 1
    rcases Nat.eq_zero_or_pos s.values.length with h | h
    · simp [h]
    · have : (0 : ℝ) < s.values.length := by exact_mod_cast h
      generalize Spec.centralMoment 3 _ / _ = a
      field_simp
      norm_num
      ring
  · simp only [WeibullStat.value, st2, stMoment_spec, div_pow, skewness, kurtosis]
    rw [Real.sq_sqrt (by positivity)]
    congr 1
    rcases Nat.eq_zero_or_pos s.values.length with h | h
    · simp [h]
    · have : (0 : ℝ) < s.values.length := by exact_mod_cast h
      generalize Spec.centralMoment 3 _ / _ = a
      generalize Spec.centralMoment 4 _ / _ = b
      field_simp
      norm_num
      ring

/-! ### The expected order statistics -/

section
variable {p : ℝ}

noncomputable def q1 (p : ℝ) : ℝ := -1 / ((1 - p) * Real.log (1 - p))
noncomputable def q2 (p : ℝ) : ℝ := q1 p / (1 - p) - q1 p * q1 p
noncomputable def q3 (p : ℝ) : ℝ := q2 p / (1 - p) + q1 p / ((1 - p) * (1 - p)) - 2 * (q1 p * q2 p)
noncomputable def q4 (p : ℝ) : ℝ := q3 p / (1 - p) + 2 * q2 p / ((1 - p) * (1 - p)) +
  (2 * q1 p / ((1 - p) * (1 - p) * (1 - p)) - 2 * (q2 p * q2 p + q1 p * q3 p))

theorem hasDerivAt_one_sub (p : ℝ) : HasDerivAt (fun t : ℝ => 1 - t) (-1) p := by
  simpa using (hasDerivAt_id p).const_sub 1

theorem log_one_sub_ne (h0 : 0 < p) (h1 : p < 1) : Real.log (1 - p) < 0 :=
  Real.log_neg (by linarith) (by linarith)

theorem hasDerivAt_extremeQuantile (h0 : 0 < p) (h1 : p < 1) : HasDerivAt extremeQuantile (q1 p) p := by
  have hq : 1 - p ≠ 0 := by linarith
  have hl := log_one_sub_ne h0 h1
  have := ((hasDerivAt_one_sub p).log hq).neg.log (by linarith : -Real.log (1 - p) ≠ 0)
  refine this.congr_deriv ?_
  show -(-1 / (1 - p)) / -Real.log (1 - p) = _
  unfold q1
  field_simp

theorem hasDerivAt_q1 (h0 : 0 < p) (h1 : p < 1) : HasDerivAt q1 (q2 p) p := by
  have hq : 1 - p ≠ 0 := by linarith
  have hl := (log_one_sub_ne h0 h1).ne
  have := ((hasDerivAt_one_sub p).mul ((hasDerivAt_one_sub p).log hq))
  have := (hasDerivAt_const p (-1 : ℝ)).div this (mul_ne_zero hq hl)
  refine this.congr_deriv ?_
  unfold q2 q1
  simp only [Pi.mul_apply]
  field_simp
  ring

theorem hasDerivAt_q2 (h0 : 0 < p) (h1 : p < 1) : HasDerivAt q2 (q3 p) p := by
  have hq : 1 - p ≠ 0 := by linarith
  have d1 := hasDerivAt_q1 h0 h1
  refine ((d1.div (hasDerivAt_one_sub p) hq).sub (d1.mul d1)).congr_deriv ?_
  unfold q3
  generalize q1 p = a
  generalize q2 p = b
  field_simp
  ring

theorem hasDerivAt_q3 (h0 : 0 < p) (h1 : p < 1) : HasDerivAt q3 (q4 p) p := by
  have hq : 1 - p ≠ 0 := by linarith
  have d0 := hasDerivAt_one_sub p
  have d1 := hasDerivAt_q1 h0 h1
  have d2 := hasDerivAt_q2 h0 h1
  refine (((d2.div d0 hq).add (d1.div (d0.mul d0) (mul_ne_zero hq hq))).sub ((d1.mul d2).const_mul 2)).congr_deriv ?_
  unfold q4
  simp only [Pi.mul_apply]
  generalize q1 p = a
  generalize q2 p = b
  generalize q3 p = c
  field_simp
  ring

theorem deriv_step {f g g' : ℝ → ℝ} (hf : ∀ p, 0 < p → p < 1 → f p = g p)
    (hg : ∀ p, 0 < p → p < 1 → HasDerivAt g (g' p) p) : ∀ p, 0 < p → p < 1 → deriv f p = g' p := by
  intro p h0 h1
  have : f =ᶠ[nhds p] g := by
    filter_upwards [Ioo_mem_nhds h0 h1] with t ht using hf t ht.1 ht.2
  rw [this.deriv_eq, (hg p h0 h1).deriv]

theorem iteratedDeriv_extremeQuantile : (∀ p, 0 < p → p < 1 → iteratedDeriv 2 extremeQuantile p = q2 p) ∧
    (∀ p, 0 < p → p < 1 → iteratedDeriv 3 extremeQuantile p = q3 p) ∧
    (∀ p, 0 < p → p < 1 → iteratedDeriv 4 extremeQuantile p = q4 p) := by
  have e1 : ∀ p, 0 < p → p < 1 → iteratedDeriv 1 extremeQuantile p = q1 p := by
    intro p h0 h1
    rw [iteratedDeriv_one, (hasDerivAt_extremeQuantile h0 h1).deriv]
  have e2 : ∀ p, 0 < p → p < 1 → iteratedDeriv 2 extremeQuantile p = q2 p := by
    rw [iteratedDeriv_succ]; exact deriv_step e1 fun p => hasDerivAt_q1
  have e3 : ∀ p, 0 < p → p < 1 → iteratedDeriv 3 extremeQuantile p = q3 p := by
    rw [iteratedDeriv_succ]; exact deriv_step e2 fun p => hasDerivAt_q2
  refine ⟨e2, e3, ?_⟩
  rw [iteratedDeriv_succ]; exact deriv_step e3 fun p => hasDerivAt_q3

end

/-- **C124, scores.** The expected order statistics by which the spacings are divided are those of David and Johnson
for the extreme value law. -/
theorem C124_scores {n i : ℕ} (hi : i < n) :
    at_ (goFNS n) i = davidJohnson extremeQuantile n (i + 1) := by
  have hn : (0 : ℝ) < (n : ℝ) + 1 := by positivity
  have hp0 : (0 : ℝ) < ((i + 1 : ℕ) : ℝ) / ((n : ℝ) + 1) := by positivity
  have hp1 : ((i + 1 : ℕ) : ℝ) / ((n : ℝ) + 1) < 1 := by
    rw [div_lt_one hn]
    exact_mod_cast Nat.succ_lt_succ hi
  unfold goFNS
  rw [at_range_map, if_pos hi]
  obtain ⟨e2, e3, e4⟩ := iteratedDeriv_extremeQuantile
  simp only [davidJohnson, e2 _ hp0 hp1, e3 _ hp0 hp1, e4 _ hp0 hp1]
  have e : (1 + (i : ℝ)) / ((n : ℝ) + 1) = ((i + 1 : ℕ) : ℝ) / ((n : ℝ) + 1) := by push_cast; ring
  rw [e]
  generalize ((i + 1 : ℕ) : ℝ) / ((n : ℝ) + 1) = p
  change extremeQuantile p + p * (1 - p) / (2 * ((n : ℝ) + 2)) * q2 p +
    (1 - p) * p / (((n : ℝ) + 2) * ((n : ℝ) + 2)) * (1 / 3 * (1 - p - p) * q3 p + 1 / 8 * p * (1 - p) * q4 p) = _
  generalize q2 p = a
  generalize q3 p = b
  generalize q4 p = c
  ring

/-! ### The criteria of normalised spacings -/

theorem sum_Icc_range (f : ℕ → ℝ) (m : ℕ) : ∑ i ∈ Finset.Icc 1 m, f i = ∑ i ∈ Finset.range m, f (i + 1) := by
  rw [Finset.range_eq_Ico, Finset.sum_Ico_add' f 0 m 1]; rfl

theorem spacingsG_spec {xs : List ℝ} {o : ℕ → ℝ} (ho : OrderStats (xs.map Real.log) o) :
    spacingsG xs = (List.range (xs.length - 1)).map fun i =>
      normSpacing (davidJohnson extremeQuantile xs.length) o (i + 1) := by
  have hl : (logs xs).length = xs.length := by unfold logs; rw [length_sort, List.length_map]
  have hg : (goFNS xs.length).length = xs.length := by simp [goFNS]
  unfold spacingsG
  refine List.ext_getElem (by simp [length_npDiff, hl, hg]) fun i h1 h2 => ?_
  have hi : i + 1 < xs.length := by
    simp only [List.length_map, List.length_range] at h2
    omega
  rw [List.getElem_zipWith, List.getElem_map, List.getElem_range]
  have ha : ∀ (l : List ℝ) (h : i < (npDiff l).length), (npDiff l)[i] = at_ l (i + 1) - at_ l i := by
    intro l h
    rw [length_npDiff] at h
    rw [← at_npDiff l i (by omega), at_, List.getD_eq_getElem]
  have hlog : ∀ j, j < xs.length → at_ (logs xs) j = o (j + 1) := fun j hj =>
    at_sort_orderStats ho (by rw [List.length_map]; exact hj)
  rw [ha, ha, hlog _ hi, hlog _ (by omega), C124_scores hi, C124_scores (by omega)]
  rfl

theorem sum_take_range (g : ℕ → ℝ) {m k : ℕ} (hk : k ≤ m) :
    (((List.range m).map g).take k).sum = ∑ i ∈ Finset.range k, g i := by
  rw [← List.map_take, List.take_range, min_eq_left hk, sum_list_range]

theorem sum_drop_range (g : ℕ → ℝ) {m k : ℕ} (hk : k ≤ m) :
    (((List.range m).map g).drop k).sum = ∑ i ∈ Finset.range m, g i - ∑ i ∈ Finset.range k, g i := by
  have h := congrArg List.sum (List.take_append_drop k ((List.range m).map g))
  rw [List.sum_append, sum_take_range g hk, sum_list_range] at h
  linarith

theorem sum_triangle (g : ℕ → ℝ) (N : ℕ) :
    ∑ i ∈ Finset.range N, ((N : ℝ) - i) * g i = ∑ j ∈ Finset.range N, ∑ i ∈ Finset.range (j + 1), g i := by
  induction N with
  | zero => simp
  | succ N ih =>
    rw [Finset.sum_range_succ _ N, Finset.sum_range_succ _ N, ← ih, Finset.sum_range_succ _ N]
    have : ∑ i ∈ Finset.range N, (((N + 1 : ℕ) : ℝ) - i) * g i =
        ∑ i ∈ Finset.range N, ((N : ℝ) - i) * g i + ∑ i ∈ Finset.range N, g i := by
      rw [← Finset.sum_add_distrib]
      exact Finset.sum_congr rfl fun i _ => by push_cast; ring
    rw [this]
    push_cast
    ring

/-- **C124, normalised spacings.** With the spacings of the ordered logarithms in units of their expectations and
`z j` the share of the first `j` of them: Tiku-Singh is twice the average of `z 1, …, z (n - 2)`, Mann-Scheuer-Fertig
is `1 - z (n / 2)`, and Lockhart-O'Reilly-Stephens the Anderson-Darling distance of `z 1, …, z (n - 2)` from the
uniform law. -/
theorem C124_spacings (min : Minimizer) (p : Weibull.Params) {s : Sample ℝ} (hn : 3 ≤ s.values.length) {o : ℕ → ℝ}
    (ho : OrderStats (s.values.map Real.log) o) {z : ℕ → ℝ}
    (hz : z = spacingShare (davidJohnson extremeQuantile s.values.length) o s.values.length)
    (hpos : ∑ i ∈ Finset.Icc 1 (s.values.length - 1),
      normSpacing (davidJohnson extremeQuantile s.values.length) o i ≠ 0) :
    WeibullStat.tikuSingh.value min p s =
      .ok (2 * ((∑ j ∈ Finset.Icc 1 (s.values.length - 2), z j) / ((s.values.length : ℝ) - 2))) ∧
    WeibullStat.msf.value min p s = .ok (1 - z (s.values.length / 2)) ∧
    ((∀ j, 1 ≤ j → j ≤ s.values.length - 2 → 0 < z j ∧ z j < 1) →
      WeibullStat.los.value min p s =
        .ok (Spec.andersonDarling ((List.range (s.values.length - 2)).map fun j => z (j + 1)))) := by
  generalize hxs : s.values = xs at *
  set n := xs.length with hnd
  set g : ℕ → ℝ := fun i => normSpacing (davidJohnson extremeQuantile n) o (i + 1) with hg
  have hG : spacingsG xs = (List.range (n - 1)).map g := spacingsG_spec ho
  have hT : ∑ i ∈ Finset.Icc 1 (n - 1), normSpacing (davidJohnson extremeQuantile n) o i =
      ∑ i ∈ Finset.range (n - 1), g i := sum_Icc_range _ _
  rw [hT] at hpos
  have hzj : ∀ j, z j = (∑ i ∈ Finset.range j, g i) / ∑ i ∈ Finset.range (n - 1), g i := by
    intro j
    rw [hz, spacingShare, hT, sum_Icc_range]
  have hn2 : ((n - 2 : ℕ) : ℝ) = (n : ℝ) - 2 := by
    rw [Nat.cast_sub (by omega)]; norm_num
  have hN : (0 : ℝ) < (n : ℝ) - 2 := by
    rw [← hn2]; exact_mod_cast (by omega : 0 < n - 2)
  have c1 : code "TS" ≠ code "LOS" := by decide
  have c2 : code "TS" ≠ code "MSF" := by decide
  have c3 : code "LOS" ≠ code "MSF" := by decide
  have hsum : ((List.range (n - 1)).map g).sum = ∑ i ∈ Finset.range (n - 1), g i := sum_list_range _ _
  refine ⟨?_, ?_, fun h01 => ?_⟩
  · show normalizeSpace (code "TS") s.values = _
    rw [hxs]
    simp only [normalizeSpace, if_true, hG, hsum, ← hnd]
    congr 1
    have ht : ((List.range (n - 1)).map g).take (n - 2) = (List.range (n - 2)).map g := by
      rw [← List.map_take, List.take_range, min_eq_left (by omega)]
    rw [ht, range_map_mapIdx, sum_list_range, sum_Icc_range]
    simp only [hzj]
    rw [← Finset.sum_div, ← sum_triangle, hn2]
    have : ∀ i ∈ Finset.range (n - 2), ((n : ℝ) - 1 - ((i : ℝ) + 1)) * g i = ((n : ℝ) - 2 - i) * g i :=
      fun i _ => by ring
    rw [Finset.sum_congr rfl this]
    field_simp
  · show normalizeSpace (code "MSF") s.values = _
    rw [hxs]
    simp only [normalizeSpace, if_neg c2.symm, if_neg c3.symm, if_true, hG, hsum, ← hnd]
    congr 1
    rw [sum_drop_range g (by omega), hzj]
    field_simp
  · show normalizeSpace (code "LOS") s.values = _
    rw [hxs]
    have hm : n ≠ 2 := by omega
    simp only [normalizeSpace, if_neg c1.symm, if_true, hG, hsum, ← hnd, if_neg hm]
    congr 1
    have hlist : ((List.range (n - 2)).map fun i => (((List.range (n - 1)).map g).take (i + 1)).sum /
        ∑ i ∈ Finset.range (n - 1), g i) = (List.range (n - 2)).map fun j => z (j + 1) := by
      refine List.map_congr_left fun i hi => ?_
      rw [List.mem_range] at hi
      rw [sum_take_range g (by omega), hzj]
    rw [hlist]
    set L := (List.range (n - 2)).map fun j => z (j + 1) with hL
    have hLl : L.length = n - 2 := by simp [hL]
    have hmem : ∀ x ∈ sort L, 0 < x ∧ x < 1 := by
      intro x hx
      obtain ⟨j, hj, rfl⟩ := List.mem_map.1 ((sort_perm L).mem_iff.1 hx)
      rw [List.mem_range] at hj
      exact h01 _ (by omega) (by omega)
    have hne : sort L ≠ [] := by
      intro h
      have := (sort_perm L).length_eq
      rw [h, hLl] at this
      simp at this
      omega
    rw [← andersonDarling_perm (sort_perm L), ← ad_weighted (sort_pairwise L) hne hmem, Edf.ad]
    simp only [List.length_map, (sort_perm L).length_eq, hLl, hn2]
    rw [← List.map_reverse, List.zip_map]
    congr 1
    have key : ∀ (l : List (ℝ × ℝ)) (k : ℝ),
        1 / k * (l.mapIdx fun i p => (2 * ((i : ℝ) + 1) - 1) * (Real.log p.1 + Real.log (1 - p.2))).sum =
        ((l.map (Prod.map Real.log fun x => Real.log (1 - x))).mapIdx
          fun i p => (2 * ((i : ℝ) + 1) - 1) / k * (p.1 + p.2)).sum := by
      intro l k
      have : (l.map (Prod.map Real.log fun x => Real.log (1 - x))).mapIdx
          (fun i p => (2 * ((i : ℝ) + 1) - 1) / k * (p.1 + p.2)) =
          (l.mapIdx fun i p => (2 * ((i : ℝ) + 1) - 1) * (Real.log p.1 + Real.log (1 - p.2))).map
            (1 / k * ·) := by
        refine List.ext_getElem (by simp) fun i h1 h2 => ?_
        simp only [List.getElem_mapIdx, List.getElem_map, Prod.map]
        ring
      rw [this, List.sum_map_mul_left]
      simp
    exact key _ _

/-! ### The estimators of the scale -/

theorem eq_range_map_at (l : List ℝ) : l = (List.range l.length).map (at_ l) := by
  refine List.ext_getElem (by simp) fun i h1 h2 => ?_
  rw [List.getElem_map, List.getElem_range, at_, List.getD_eq_getElem]

theorem sum_zipWith_completed {y : List ℝ} {m : ℕ} (hy : y.length = m + 1) (w : ℕ → ℝ) (c : ℝ) :
    (List.zipWith (· * ·) ((List.range m).map w ++ [c]) y).sum =
      ∑ i ∈ Finset.range m, w i * at_ y i + c * at_ y m := by
  conv_lhs => rw [eq_range_map_at y, hy, List.range_succ, List.map_append]
  rw [List.zipWith_append (by simp), List.sum_append, List.zipWith_map, List.zipWith_self, sum_list_range]
  simp

/-- The weighted sum of Shapiro and Brain. -/
theorem sbB_spec {xs : List ℝ} (hne : xs ≠ []) {o : ℕ → ℝ} (ho : OrderStats (xs.map Real.log) o) :
    sbB (logs xs) = shapiroBrain xs.length o := by
  obtain ⟨m, hm⟩ : ∃ m, xs.length = m + 1 := ⟨xs.length - 1, by have := List.length_pos_iff.2 hne; omega⟩
  have hlog : ∀ j, j < m + 1 → at_ (logs xs) j = o (j + 1) := fun j hj =>
    at_sort_orderStats ho (by rw [List.length_map, hm]; exact hj)
  have hw : sbW (m + 1) = (List.range m).map fun i => brainWeight (m + 1) (i + 1) := by
    unfold sbW brainWeight
    rw [Nat.add_sub_cancel]
    refine List.map_congr_left fun i _ => ?_
    congr 2
    push_cast
    ring
  have hIco : ∀ f : ℕ → ℝ, ∑ i ∈ Finset.Ico 1 (m + 1), f i = ∑ i ∈ Finset.range m, f (i + 1) := by
    intro f
    rw [Finset.range_eq_Ico, Finset.sum_Ico_add' f 0 m 1]
  have hL : (logs xs).length = m + 1 := by rw [length_logs, hm]
  have key : ∀ w : ℕ → ℝ, ∀ t : ℝ,
      (List.zipWith (· * ·) ((List.range m).map (fun i => w (i + 1)) ++ [t - ((List.range m).map fun i => w (i + 1)).sum])
        (logs xs)).sum = completed (m + 1) w t o := by
    intro w t
    rw [sum_zipWith_completed hL, completed, hIco, hIco, sum_list_range, hlog m (by omega)]
    congr 1
    refine Finset.sum_congr rfl fun i hi => ?_
    rw [hlog i (by have := Finset.mem_range.1 hi; omega)]
  unfold sbB shapiroBrain
  rw [hL, hm]
  simp only [sbWn, sbWi, hw, List.map_map, Function.comp_def]
  rw [key, key (fun i => brainWeight (m + 1) i * (1 + Real.log (brainWeight (m + 1) i)) - 1)]
  norm_num

theorem varies_logs_ne {xs : List ℝ} (hv : Varies (xs.map Real.log)) : xs ≠ [] := by
  rintro rfl
  obtain ⟨x, hx, -⟩ := hv
  simp at hx

theorem varies_length {l : List ℝ} (hv : Varies l) : 2 ≤ l.length := by
  obtain ⟨x, hx, y, hy, hxy⟩ := hv
  match l, hx, hy with
  | [a], hx, hy =>
    rw [List.mem_singleton] at hx hy
    exact absurd (hx.trans hy.symm) hxy
  | a :: b :: l, _, _ => simp

/-- **C124, regression on the probability plot.** With `b` the linear estimate of the scale of the logarithms by
Shapiro and Brain, the Shapiro-Brain statistics are `n b² / Σ (y - ȳ)²`, and the statistic of Öztürk and Korukoğlu
compares `b` with the estimate `D / (2 log 2)` of the same scale from Gini's mean difference `D`. -/
theorem C124_estimators (min : Minimizer) (p : Weibull.Params) {s : Sample ℝ} {o : ℕ → ℝ}
    (hv : Varies (s.values.map Real.log)) (ho : OrderStats (s.values.map Real.log) o) {b : ℝ}
    (hb : b = shapiroBrain s.values.length o / s.values.length) :
    WeibullStat.sb.value min p s = .ok (b ^ 2 / Spec.centralMoment 2 (s.values.map Real.log)) ∧
    WeibullStat.sbSmall.value min p s = .ok (b ^ 2 / Spec.centralMoment 2 (s.values.map Real.log)) ∧
    WeibullStat.ok.value min p s = .ok (
      (b / (meanDifference (s.values.map Real.log) / (2 * Real.log 2)) - 1 - 0.13 / √(s.values.length : ℝ) +
        1.18 / s.values.length) / (0.49 / √(s.values.length : ℝ) - 0.36 / s.values.length)) := by
  have hne := varies_logs_ne hv
  have hn : (0 : ℝ) < s.values.length := by exact_mod_cast List.length_pos_iff.2 hne
  have hsb : Weibull.sb s.values = b ^ 2 / Spec.centralMoment 2 (s.values.map Real.log) := by
    have hq : sumSq (logs s.values) = s.values.length * Spec.centralMoment 2 (s.values.map Real.log) := by
      have hp := sort_perm (s.values.map Real.log)
      have hm : mean (logs s.values) = meanOf id (s.values.map Real.log) := by
        rw [logs, mean_perm hp]
        simp [mean, meanOf]
      unfold sumSq
      rw [hm, logs, (hp.map _).sum_eq, Spec.centralMoment]
      generalize meanOf id (s.values.map Real.log) = m
      rw [meanOf, List.length_map]
      field_simp
    rw [Weibull.sb, sbB_spec hne ho, ← hb, hq]
    field_simp
  have c1 : code "SB" ≠ code "OK" := by decide
  refine ⟨?_, ?_, ?_⟩
  · show wpp min (code "SB") s.values = _
    rw [wpp, if_neg c1, if_pos rfl, hsb]
  · show Except.ok (Weibull.sb s.values) = _
    rw [hsb]
  · show wpp min (code "OK") s.values = _
    rw [wpp, if_pos rfl]
    congr 1
    have hg := dagostino_gini (s.values.map Real.log)
    rw [List.length_map] at hg
    have hsig : ((logs s.values).mapIdx fun i v => (2 * ((i : ℝ) + 1) - 1 - s.values.length) * v).sum =
        2 * (((s.values.map Real.log).map fun x => ((s.values.map Real.log).map fun y => |x - y|).sum).sum / 4) := by
      rw [← hg, dot, logs, sum_mapIdx_at, sum_mapIdx_at, Finset.mul_sum]
      exact Finset.sum_congr rfl fun i _ => by ring
    have h1 : (s.values.length : ℝ) - 1 ≠ 0 := by
      have h2 := varies_length hv
      rw [List.length_map] at h2
      have : (2 : ℝ) ≤ s.values.length := by exact_mod_cast h2
      linarith
    simp only [Weibull.ok, hsig, sbB_spec hne ho]
    have hS : meanDifference (s.values.map Real.log) =
      (((s.values.map Real.log).map fun x => ((s.values.map Real.log).map fun y => |x - y|).sum).sum) /
        (s.values.length * ((s.values.length : ℝ) - 1)) := by
      rw [meanDifference, List.length_map]
    rw [hS, hb]
    have hl2 : Real.log 2 ≠ 0 := (Real.log_pos one_lt_two).ne'
    generalize (((s.values.map Real.log).map fun x => ((s.values.map Real.log).map fun y => |x - y|).sum).sum) = G
    generalize shapiroBrain s.values.length o = B
    generalize (s.values.length : ℝ) = n at *
    have e : B / (2 * (G / 4) / (Real.log 2 * (n - 1))) = B / n / (G / (n * (n - 1)) / (2 * Real.log 2)) := by
      by_cases hG : G = 0
      · simp [hG]
      · field_simp
        ring
    rw [e]
    norm_num

/-! ### Liao-Shimokawa -/

theorem max_abs_eq {a b : ℝ} (h : 0 ≤ a + b) : max |a| |b| = max a b := by
  rcases le_total a b with hab | hab
  · rw [max_eq_right hab, abs_of_nonneg (by linarith : 0 ≤ b), max_eq_right (abs_le.2 ⟨by linarith, hab⟩)]
  · rw [max_eq_left hab, abs_of_nonneg (by linarith : 0 ≤ a), max_eq_left (abs_le.2 ⟨by linarith, hab⟩)]

/-- **C124, Liao-Shimokawa.** The average over the observations of the largest distance between the empirical and the
hypothetical distribution function there, in units of `√(F (1 - F))` (up to the guard `1e-10`), times `√n`. -/
theorem C124_liaoShimokawa (min : Minimizer) (p : Weibull.Params) {s : Sample ℝ} {o : ℕ → ℝ}
    (ho : OrderStats s.values o) {n : ℕ} (hn : n = s.values.length) {F : ℕ → ℝ}
    (hF : F = fun i => Weibull.cdf p.a p.k (o i)) :
    WeibullStat.liaoShimokawa.value min p s = .ok (√(n : ℝ) * ((∑ i ∈ Finset.Icc 1 n,
      max |(i : ℝ) / n - F i| |F i - ((i : ℝ) - 1) / n| / √(F i * (1 - F i + 1e-10))) / n)) := by
  have hl : (vals p s.values).length = n := by rw [vals, List.length_map, length_sort, hn]
  show Except.ok (Weibull.liaoShimokawa (vals p s.values)) = _
  simp only [Weibull.liaoShimokawa]
  rw [hl]
  congr 1
  have h1 : ((vals p s.values).mapIdx fun i v => max (((i : ℝ) + 1) / n - v) (v - (i : ℝ) / n) /
      √(v * (1 - v + 1 / 10 ^ 10))).sum = ∑ i ∈ Finset.Icc 1 n,
      max |(i : ℝ) / n - F i| |F i - ((i : ℝ) - 1) / n| / √(F i * (1 - F i + 1e-10)) := by
    rw [vals, Normal.mapIdx_map, sum_mapIdx_sort ho, ← hn]
    refine Finset.sum_congr rfl fun i hi => ?_
    have hi := Finset.mem_Icc.1 hi
    have hc : ((i - 1 : ℕ) : ℝ) = (i : ℝ) - 1 := by rw [Nat.cast_sub hi.1]; norm_num
    have hpos : (0 : ℝ) < n := by exact_mod_cast (by omega : 0 < n)
    rw [max_abs_eq (by
      have : (i : ℝ) / n - F i + (F i - ((i : ℝ) - 1) / n) = 1 / n := by ring
      rw [this]; positivity), hc, hF]
    norm_num
  rw [h1]
  rcases Nat.eq_zero_or_pos n with h | h
  · simp [h]
  · have hpos : (0 : ℝ) < n := by exact_mod_cast h
    have hs : √(n : ℝ) * √(n : ℝ) = n := Real.mul_self_sqrt hpos.le
    have hs0 : √(n : ℝ) ≠ 0 := (Real.sqrt_pos.2 hpos).ne'
    rw [div_eq_iff hs0, mul_right_comm, hs]
    field_simp

/-! ### Kullback-Leibler -/

theorem log_logDensity_weibull (y : ℝ) : Real.log (logDensity (Weibull.cdf 1 1) y) = y - Real.exp y := by
  have e : (fun t => Weibull.cdf 1 1 (Real.exp t)) = fun t => 1 - Real.exp (-Real.exp t) := by
    funext t
    rw [Weibull.cdf, if_neg (not_le.2 (Real.exp_pos t)), Real.rpow_one, Real.rpow_one]
  have h : HasDerivAt (fun t => 1 - Real.exp (-Real.exp t)) (Real.exp (-Real.exp y) * Real.exp y) y := by
    have := ((Real.hasDerivAt_exp y).neg.exp).const_sub 1
    exact this.congr_deriv (by simp only [Pi.neg_apply]; ring)
  rw [logDensity, e, h.deriv, ← Real.exp_add, Real.log_exp]
  ring

theorem sum_log_sub (l : List ℝ) :
    (l.map fun x => Real.log x - x).sum = (l.map Real.log).sum - (l.map id).sum := by
  induction l with
  | nil => simp
  | cons a l ih => simp only [List.map_cons, List.sum_cons, ih, id]; ring

theorem kl_spec (m : Option ℕ) {xs : List ℝ} (hpos : ∀ x ∈ xs, 0 < x) {o : ℕ → ℝ}
    (ho : OrderStats (xs.map Real.log) o) {w : ℕ} (hw : w = m.getD (xs.length / 2)) (hw1 : 1 ≤ w) :
    kl m xs = .ok (-vasicekEntropy xs.length w o - meanOf (fun x => Real.log x - x) xs) := by
  have hl : (sort xs).map Real.log = logs xs := by
    refine (((sort_perm xs).map _).trans (sort_perm _).symm).eq_of_pairwise
      (fun a b _ _ h1 h2 => le_antisymm h1 h2) (List.pairwise_map.2 ?_) (sort_pairwise _)
    refine (sort_pairwise xs).imp_of_mem fun {a b} ha _ hab => ?_
    exact Real.log_le_log (hpos a ((sort_perm xs).mem_iff.1 ha)) hab
  simp only [kl]
  rw [← hw, if_neg (by omega), hl]
  congr 1
  have h1 : mean ((List.range xs.length).map fun i =>
      Real.log ((xs.length : ℝ) / (2 * w) * ((logs xs).getD (Nat.min (xs.length - 1) (i + w)) 0 -
        (logs xs).getD (i - w) 0))) = vasicekEntropy xs.length w o := by
    rw [mean_range_map, vasicekEntropy, sum_Icc_range]
    congr 1
    refine Finset.sum_congr rfl fun i hi => ?_
    have hi := Finset.mem_range.1 hi
    have hlog : ∀ j, j < xs.length → (logs xs).getD j 0 = o (j + 1) := fun j hj =>
      at_sort_orderStats ho (by rw [List.length_map]; exact hj)
    have e1 : Nat.min (xs.length - 1) (i + w) + 1 = min xs.length (i + 1 + w) := by
      change min (xs.length - 1) (i + w) + 1 = _
      omega
    rw [hlog _ (by change min (xs.length - 1) (i + w) < _; omega), hlog _ (by omega), e1,
      show i - w + 1 = max 1 (i + 1 - w) by omega]
  rw [h1]
  have h2 : mean (logs xs) = meanOf Real.log xs := by
    rw [logs, mean_perm (sort_perm _)]
    simp [mean, meanOf]
  have h3 : mean ((logs xs).map Real.exp) = meanOf id xs := by
    rw [logs, mean_perm ((sort_perm _).map _), List.map_map]
    have : xs.map (Real.exp ∘ Real.log) = xs.map id := List.map_congr_left fun x hx => Real.exp_log (hpos x hx)
    rw [this]
    simp [mean, meanOf]
  have h4 : meanOf (fun x => Real.log x - x) xs = meanOf Real.log xs - meanOf id xs := by
    simp only [meanOf]
    rw [← sub_div, sum_log_sub]
  rw [h2, h3, h4]
  ring

/-- **C124, Kullback-Leibler** (`a = k = 1`). Vasicek's estimate of the entropy of the logarithms against their mean
log density under the hypothesis: an estimate of the Kullback-Leibler divergence. -/
theorem C124_kl_partial (min : Minimizer) {p : Weibull.Params} (hp : p = ⟨1, 1⟩) (m : Option ℕ) {s : Sample ℝ}
    (hpos : ∀ x ∈ s.values, 0 < x) {o : ℕ → ℝ} (ho : OrderStats (s.values.map Real.log) o) {w : ℕ}
    (hw : w = m.getD (s.values.length / 2)) (hw1 : 1 ≤ w) :
    (WeibullStat.kl m).value min p s = .ok (-vasicekEntropy s.values.length w o -
      meanOf (fun x => Real.log (logDensity (Weibull.cdf p.a p.k) (Real.log x))) s.values) := by
  show kl m s.values = _
  rw [kl_spec m hpos ho hw hw1, hp]
  simp only [meanOf, log_logDensity_weibull]
  have : s.values.map (fun x => Real.log x - Real.exp (Real.log x)) = s.values.map fun x => Real.log x - x :=
    List.map_congr_left fun x hx => by rw [Real.exp_log (hpos x hx)]
  rw [this]

theorem log_logDensity_two : Real.log (logDensity (Weibull.cdf 1 2) 0) = Real.log 2 - 1 := by
  have e : (fun t => Weibull.cdf 1 2 (Real.exp t)) = fun t => 1 - Real.exp (-Real.exp (2 * t)) := by
    funext t
    rw [Weibull.cdf, if_neg (not_le.2 (Real.exp_pos t)), Real.rpow_one, ← Real.exp_mul, mul_comm]
  have h : HasDerivAt (fun t => 1 - Real.exp (-Real.exp (2 * t))) (2 * Real.exp (-1)) 0 := by
    have h1 : HasDerivAt (fun t : ℝ => -Real.exp (2 * t)) (-(Real.exp (2 * 0) * (2 * 1))) 0 :=
      (((hasDerivAt_id (0 : ℝ)).const_mul 2).exp).neg
    have := (h1.exp).const_sub 1
    exact this.congr_deriv (by simp; ring)
  rw [logDensity, e, h.deriv, Real.log_mul (by norm_num) (Real.exp_pos _).ne', Real.log_exp]
  ring

theorem log_logDensity_two_one : Real.log (logDensity (Weibull.cdf 1 2) 1) = Real.log 2 + 2 - Real.exp 2 := by
  have e : (fun t => Weibull.cdf 1 2 (Real.exp t)) = fun t => 1 - Real.exp (-Real.exp (2 * t)) := by
    funext t
    rw [Weibull.cdf, if_neg (not_le.2 (Real.exp_pos t)), Real.rpow_one, ← Real.exp_mul, mul_comm]
  have h : HasDerivAt (fun t => 1 - Real.exp (-Real.exp (2 * t))) (2 * (Real.exp (-Real.exp 2) * Real.exp 2)) 1 := by
    have h1 : HasDerivAt (fun t : ℝ => -Real.exp (2 * t)) (-(Real.exp (2 * 1) * (2 * 1))) 1 :=
      (((hasDerivAt_id (1 : ℝ)).const_mul 2).exp).neg
    have := (h1.exp).const_sub 1
    exact this.congr_deriv (by simp; ring)
  rw [logDensity, e, h.deriv, Real.log_mul (by norm_num) (by positivity), ← Real.exp_add, Real.log_exp]
  ring

/-- **C124 refuted for Kullback-Leibler**: the statistic does not use the parameters of the hypothesis; at `k = 2` its
value at the sample `1, e` is not the estimate of the divergence from the hypothesis. -/
theorem C124_refuted_kl (min : Minimizer) :
    (∀ m s p q, (WeibullStat.kl m).value min p s = (WeibullStat.kl m).value min q s) ∧
    ∀ o, OrderStats ([1, Real.exp 1].map Real.log) o →
      (WeibullStat.kl none).value min ⟨1, 2⟩ (.ndarray [1, Real.exp 1]) ≠ .ok (-vasicekEntropy 2 1 o -
        meanOf (fun x => Real.log (logDensity (Weibull.cdf 1 2) (Real.log x))) [1, Real.exp 1]) := by
  refine ⟨fun _ _ _ _ => rfl, fun o ho h => ?_⟩
  have h1 := kl_spec none (xs := [1, Real.exp 1]) (by simp [Real.exp_pos]) ho (w := 1) rfl le_rfl
  have h2 : kl none [1, Real.exp 1] = _ := h
  rw [h1] at h2
  have h3 := Except.ok.inj h2
  simp only [meanOf, List.map_cons, List.map_nil, List.sum_cons, List.sum_nil, List.length_cons, List.length_nil,
    Real.log_one, Real.log_exp, log_logDensity_two, log_logDensity_two_one] at h3
  have e2 : Real.exp 2 = Real.exp 1 ^ 2 := by rw [← Real.exp_nat_mul]; norm_num
  have hl : Real.log 2 < 1 := by
    have := Real.log_two_lt_d9
    linarith
  have he := Real.exp_one_gt_d9
  rw [e2] at h3
  norm_num at h3
  nlinarith

/-! ### Mahdi-Doostparast -/

theorem sort_concat {xs : List ℝ} {x : ℝ} (h : ∀ y ∈ xs, y ≤ x) : sort (xs ++ [x]) = sort xs ++ [x] := by
  refine List.Perm.eq_of_pairwise (le := (· ≤ ·)) (fun a b _ _ h1 h2 => le_antisymm h1 h2)
    (sort_pairwise _) ?_ ((sort_perm _).trans ((sort_perm xs).symm.append_right _))
  refine List.pairwise_append.2 ⟨sort_pairwise xs, List.pairwise_singleton _ _, fun a ha b hb => ?_⟩
  rw [List.mem_singleton] at hb
  rw [hb]
  exact h a ((sort_perm xs).mem_iff.1 ha)

theorem npDiff_concat (l : List ℝ) (u v : ℝ) : npDiff (l ++ [u, v]) = npDiff (l ++ [u]) ++ [v - u] := by
  induction l with
  | nil => simp [npDiff]
  | cons a l ih =>
    cases l with
    | nil => simp [npDiff]
    | cons b l =>
      simp only [List.cons_append, npDiff] at ih ⊢
      rw [ih]

theorem md_last (l : List ℝ) (u : ℝ) : ∃ c, ∀ v : ℝ, Weibull.mahdiDoostparast (l ++ [u, v]) =
    c + Real.log v / ((l.length : ℝ) + 2) - 2 * v := by
  have hl : ∀ v : ℝ, ((l ++ [u, v]).length : ℝ) = (l.length : ℝ) + 2 := by intro v; simp
  have hn : (0 : ℝ) < (l.length : ℝ) + 2 := by positivity
  refine ⟨((l.length : ℝ) + 2) * (((npDiff ((l ++ [u]).map Real.log)).mapIdx fun i d =>
      (((i : ℝ) + 1) / ((l.length : ℝ) + 2) - 1) ^ 2 * d).sum +
      2 * ((npDiff (l ++ [u])).mapIdx fun i d => (((i : ℝ) + 1) / ((l.length : ℝ) + 2) - 1) * d).sum + 1 / 2) -
      Real.log u / ((l.length : ℝ) + 2) + 2 * u, fun v => ?_⟩
  simp only [Weibull.mahdiDoostparast]
  rw [hl, npDiff_concat, List.map_append, List.map_cons, List.map_cons, List.map_nil, npDiff_concat,
    List.mapIdx_append, List.mapIdx_append, List.sum_append, List.sum_append, List.map_append, List.map_cons,
    List.map_nil]
  simp only [List.mapIdx_cons, List.mapIdx_nil, List.sum_cons, List.sum_nil, length_npDiff, List.length_append,
    List.length_map, List.length_cons, List.length_nil, zero_add, Nat.add_sub_cancel]
  field_simp
  ring

theorem log_sub_le {u v : ℝ} (hu : 0 < u) (huv : u < v) : Real.log v - Real.log u < (v - u) / u := by
  rw [← Real.log_div (hu.trans huv).ne' hu.ne']
  have := Real.log_lt_sub_one_of_pos (div_pos (hu.trans huv) hu) (by rw [ne_eq, div_eq_one_iff_eq hu.ne']; exact huv.ne')
  rw [sub_div, div_self hu.ne']
  exact this

/-- **C124 refuted for Mahdi-Doostparast**: the criterion rejects for large values, but the further the largest of
`n ≥ 2` observations is moved out into the upper tail of the hypothesis, the smaller is the statistic; the
Cramér-von Mises distance of the same sample from the same law grows. -/
theorem C124_refuted_mahdiDoostparast (min : Minimizer) {p : Weibull.Params} (ha : 0 < p.a) (hk : 0 < p.k)
    {xs : List ℝ} (hne : xs ≠ []) {x x' : ℝ} (hpos : 0 < x) (hxx : x < x') (hle : ∀ y ∈ xs, y ≤ x)
    (htail : 1 - 1 / (2 * ((xs.length : ℝ) + 1)) ≤ Weibull.cdf p.a p.k x) :
    WeibullStat.alternative .mahdiDoostparast = .right ∧
    (∃ v v', WeibullStat.mahdiDoostparast.value min p (.ndarray (xs ++ [x])) = .ok v ∧
      WeibullStat.mahdiDoostparast.value min p (.ndarray (xs ++ [x'])) = .ok v' ∧ v' < v) ∧
    ∃ v v', WeibullStat.cvm.value min p (.ndarray (xs ++ [x])) = .ok v ∧
      WeibullStat.cvm.value min p (.ndarray (xs ++ [x'])) = .ok v' ∧ v < v' := by
  have hv : ∀ z, x ≤ z → vals p (xs ++ [z]) = (sort xs).map (cdf p.a p.k) ++ [cdf p.a p.k z] := by
    intro z hz
    rw [vals, sort_concat fun y hy => (hle y hy).trans hz, List.map_append]
    rfl
  have hF := cdf_strict ha hk hpos hxx
  have hlen : (1 : ℝ) ≤ xs.length := by exact_mod_cast List.length_pos_iff.2 hne
  set F := cdf p.a p.k x with hFd
  set F' := cdf p.a p.k x' with hFd'
  have hF0 : 0 < F := by
    have : 1 / (2 * ((xs.length : ℝ) + 1)) ≤ 1 / 2 := by
      apply one_div_le_one_div_of_le <;> linarith
    linarith
  refine ⟨rfl, ⟨_, _, rfl, rfl, ?_⟩, _, _, rfl, rfl, ?_⟩
  · show Weibull.mahdiDoostparast (vals p (xs ++ [x'])) < Weibull.mahdiDoostparast (vals p (xs ++ [x]))
    rw [hv x le_rfl, hv x' hxx.le]
    obtain ⟨l, u, hlu⟩ : ∃ l u, (sort xs).map (cdf p.a p.k) = l ++ [u] := by
      rcases List.eq_nil_or_concat ((sort xs).map (cdf p.a p.k)) with h | ⟨l, u, h⟩
      · rw [List.map_eq_nil_iff] at h
        exact absurd h (sort_ne_nil hne)
      · exact ⟨l, u, by rw [h, List.concat_eq_append]⟩
    have hll : (l.length : ℝ) + 2 = (xs.length : ℝ) + 1 := by
      have := congrArg List.length hlu
      rw [List.length_map, length_sort, List.length_append] at this
      rw [this]
      push_cast
      simp
      ring
    obtain ⟨c, hc⟩ := md_last l u
    rw [hlu, List.append_assoc, List.append_assoc]
    change Weibull.mahdiDoostparast (l ++ [u, F']) < Weibull.mahdiDoostparast (l ++ [u, F])
    rw [hc, hc, hll]
    have h1 := log_sub_le hF0 hF
    have h2 : (Real.log F' - Real.log F) / ((xs.length : ℝ) + 1) < 2 * (F' - F) := by
      rw [div_lt_iff₀ (by linarith)]
      refine h1.trans_le ?_
      rw [div_le_iff₀ hF0]
      have h3 : 1 ≤ 2 * ((xs.length : ℝ) + 1) * F := by
        have h4 := mul_le_mul_of_nonneg_left htail (by linarith : (0 : ℝ) ≤ 2 * ((xs.length : ℝ) + 1))
        rw [mul_sub, mul_one_div_cancel (by linarith)] at h4
        linarith
      nlinarith
    rw [sub_div] at h2
    linarith
  · show Edf.cvm (vals p (xs ++ [x])) < Edf.cvm (vals p (xs ++ [x']))
    rw [hv x le_rfl, hv x' hxx.le]
    simp only [Edf.cvm, List.mapIdx_append, List.sum_append, List.length_append, List.length_map, length_sort,
      List.length_cons, List.length_nil, List.mapIdx_cons, List.mapIdx_nil, List.sum_cons, List.sum_nil]
    have h5 : (2 * (((0 + xs.length : ℕ) : ℝ) + 1) - 1) / (2 * ((xs.length + (0 + 1) : ℕ) : ℝ)) =
        1 - 1 / (2 * ((xs.length : ℝ) + 1)) := by
      push_cast
      field_simp
      ring
    rw [h5]
    generalize 1 - 1 / (2 * ((xs.length : ℝ) + 1)) = t at *
    have : (t - F) ^ 2 < (t - F') ^ 2 := by nlinarith
    linarith

/-! ### The criteria of the Laplace transform -/

/-- `Γ (1 - t)` is the Laplace transform at `t` of the *logarithm* of an observation of the hypothesis `a = k = 1`. -/
theorem C124_laplace_of_log {t : ℝ} (ht : t < 1) :
    ∫ x, Real.exp (-t * Real.log x) ∂ProbabilityTheory.expMeasure 1 = Real.Gamma (1 - t) := by
  have h := Expon.integral_rpow one_pos (s := -t) (by linarith)
  rw [Real.one_rpow, div_one, ← sub_eq_add_neg] at h
  rw [← h]
  refine MeasureTheory.integral_congr_ae ?_
  filter_upwards [Expon.ae_pos one_pos] with x hx
  rw [Real.rpow_def_of_pos hx, mul_comm]

theorem gamma_between {a : ℝ} (h0 : 0 < a) (h1 : a ≤ 1 / 2) : Real.Gamma (1 + a) < 1 := by
  have h := (Real.convexOn_Gamma).2 (Set.mem_Ioi.2 one_pos) (Set.mem_Ioi.2 (by norm_num : (0 : ℝ) < 3 / 2))
    (by linarith : 0 ≤ 1 - 2 * a) (by linarith : 0 ≤ 2 * a) (by ring)
  have e : (1 - 2 * a) • (1 : ℝ) + (2 * a) • (3 / 2 : ℝ) = 1 + a := by simp only [smul_eq_mul]; ring
  rw [e, Real.Gamma_one] at h
  simp only [smul_eq_mul] at h
  have := Real.Gamma_three_div_two_lt_one
  nlinarith

theorem gamma_below {a : ℝ} (h0 : 0 < a) (h1 : a < 1) : 1 < Real.Gamma (1 - a) := by
  have := Real.Gamma_strictAntiOn_Ioc (a := 1 - a) (b := 1) ⟨by linarith, by linarith⟩ ⟨one_pos, le_rfl⟩ (by linarith)
  rwa [Real.Gamma_one] at this

theorem one_le_mean {l : List ℝ} (hne : l ≠ []) (h : ∀ x ∈ l, 1 ≤ x) : 1 ≤ mean l := by
  have hn : (0 : ℝ) < l.length := by exact_mod_cast List.length_pos_iff.2 hne
  rw [mean, le_div_iff₀ hn]
  have := List.card_nsmul_le_sum l 1 h
  simpa using this

theorem mean_le_one {l : List ℝ} (hne : l ≠ []) (h : ∀ x ∈ l, x ≤ 1) : mean l ≤ 1 := by
  have hn : (0 : ℝ) < l.length := by exact_mod_cast List.length_pos_iff.2 hne
  rw [mean, div_le_iff₀ hn]
  have := List.sum_le_card_nsmul l 1 h
  simpa using this

/-- **C124 refuted for the criteria of the Laplace transform**: they compare the transform of the sample itself with
`Γ (1 - t)`, the transform of the logarithm. At every sample of positive numbers, whatever it is, the statistics of
Cabaña and Quiroz and of Henze and Meintanis (`LT2`) exceed a fixed positive multiple of the sample size. -/
theorem C124_refuted_laplace (min : Minimizer) (p : Weibull.Params) :
    (∃ c : ℝ, 0 < c ∧ ∀ xs : List ℝ, xs ≠ [] → (∀ x ∈ xs, 0 < x) →
      ∃ v, WeibullStat.cabanaQuiroz.value min p (.ndarray xs) = .ok v ∧ c * xs.length ≤ v) ∧
    ∀ (m : ℕ) (a : ℝ), 2 ≤ m → ∃ c : ℝ, 0 < c ∧ ∀ xs : List ℝ, xs ≠ [] → (∀ x ∈ xs, 0 < x) →
      ∃ v, laplaceTransform "LT2_WEIBULL" m a xs = .ok v ∧ c * xs.length ≤ v := by
  constructor
  · have g1 := gamma_between (a := 1 / 10) (by norm_num) (by norm_num)
    have g2 := gamma_below (a := 2 / 100) (by norm_num) (by norm_num)
    refine ⟨(53 / 100) * (1 - Real.Gamma (1 + 1 / 10)) ^ 2 / (159 / 100 * (53 / 100) - (91 / 100) ^ 2),
      div_pos (mul_pos (by norm_num) (by have := sub_pos.2 g1; positivity)) (by norm_num), fun xs hne hpos => ?_⟩
    refine ⟨_, rfl, ?_⟩
    have hn : (0 : ℝ) ≤ xs.length := by positivity
    have m1 : 1 ≤ mean (xs.map fun v => Real.exp (-v * (-1 / 10))) :=
      one_le_mean (by simpa using hne) (fun y hy => by
        obtain ⟨x, hx, rfl⟩ := List.mem_map.1 hy
        exact Real.one_le_exp (by have := hpos x hx; nlinarith))
    have m2 : mean (xs.map fun v => Real.exp (-v * (2 / 100))) ≤ 1 :=
      mean_le_one (by simpa using hne) (fun y hy => by
        obtain ⟨x, hx, rfl⟩ := List.mem_map.1 hy
        exact Real.exp_le_one_iff.2 (by have := hpos x hx; nlinarith))
    have e1 : (1 : ℝ) - -1 / 10 = 1 + 1 / 10 := by norm_num
    rw [e1]
    generalize mean (xs.map fun v => Real.exp (-v * (-1 / 10))) = M1 at *
    generalize mean (xs.map fun v => Real.exp (-v * (2 / 100))) = M2 at *
    generalize Real.Gamma (1 + 1 / 10) = G1 at *
    generalize Real.Gamma (1 - 2 / 100) = G2 at *
    have hs : √(xs.length : ℝ) ^ 2 = xs.length := Real.sq_sqrt hn
    have hs0 := Real.sqrt_nonneg (xs.length : ℝ)
    generalize √(xs.length : ℝ) = r at *
    rw [← hs]
    have k1 : (1 - G1) ^ 2 ≤ (M1 - G1) ^ 2 := by nlinarith
    have k2 : (M1 - G1) * (M2 - G2) ≤ 0 := by nlinarith
    have k3 : 0 ≤ (M2 - G2) ^ 2 := sq_nonneg _
    have k4 : (53 / 100 : ℝ) * (1 - G1) ^ 2 ≤
        53 / 100 * (M1 - G1) ^ 2 - 2 * ((M1 - G1) * (M2 - G2)) * (91 / 100) + 159 / 100 * (M2 - G2) ^ 2 := by
      nlinarith
    have k5 := mul_le_mul_of_nonneg_left k4 (sq_nonneg r)
    have k6 : (0 : ℝ) ≤ 1 / (159 / 100 * (53 / 100) - (91 / 100) ^ 2) := by norm_num
    have k7 := mul_le_mul_of_nonneg_left k5 k6
    refine le_trans (le_of_eq ?_) (k7.trans (le_of_eq ?_))
    · generalize (1 - G1) ^ 2 = u
      ring
    · ring
  · intro m a hm
    have hm' : (2 : ℝ) ≤ m := by exact_mod_cast hm
    have g := gamma_between (a := 1 / (m : ℝ)) (by positivity) (one_div_le_one_div_of_le (by norm_num) hm')
    set t : ℝ := -(1 / (m : ℝ)) with ht
    have w0 : 0 < Real.exp (-Real.exp (a * t) + a * t) := Real.exp_pos _
    refine ⟨Real.exp (-Real.exp (a * t) + a * t) * (1 - Real.Gamma (1 + 1 / (m : ℝ))) ^ 2,
      mul_pos w0 (by have := sub_pos.2 g; positivity), fun xs hne hpos => ?_⟩
    refine ⟨_, by rw [laplaceTransform]; exact if_pos rfl, ?_⟩
    have hn : (0 : ℝ) < xs.length := by exact_mod_cast List.length_pos_iff.2 hne
    rw [mul_comm]
    refine mul_le_mul_of_nonneg_left ?_ hn.le
    have hmem : t ∈ (List.range m).map fun i : ℕ => (-(m : ℝ) + i) / m := by
      refine List.mem_map.2 ⟨m - 1, List.mem_range.2 (by omega), ?_⟩
      rw [Nat.cast_sub (by omega), ht]
      field_simp
      push_cast
      ring
    refine le_trans ?_ (List.single_le_sum (fun y hy => ?_) _ (List.mem_map_of_mem hmem))
    · refine mul_le_mul_of_nonneg_left ?_ w0.le
      have m1 : 1 ≤ (xs.map fun x => Real.exp (-(x * t))).sum / xs.length := by
        have := one_le_mean (l := xs.map fun x => Real.exp (-(x * t))) (by simpa using hne) (fun y hy => by
          obtain ⟨x, hx, rfl⟩ := List.mem_map.1 hy
          refine Real.one_le_exp ?_
          have := hpos x hx
          have : 0 < 1 / (m : ℝ) := by positivity
          rw [ht]
          nlinarith)
        rwa [mean, List.length_map] at this
      have e : 1 - t = 1 + 1 / (m : ℝ) := by rw [ht]; ring
      rw [e]
      generalize (xs.map fun x => Real.exp (-(x * t))).sum / (xs.length : ℝ) = M at *
      generalize Real.Gamma (1 + 1 / (m : ℝ)) = G at *
      nlinarith
    · obtain ⟨t', -, rfl⟩ := List.mem_map.1 hy
      positivity

/-! ### The hypotheses are met -/

theorem davidJohnson_three {i : ℕ} (h1 : 1 ≤ i) (h3 : i ≤ 3) {p : ℝ} (hp : p = i / 4) :
    davidJohnson extremeQuantile 3 i = extremeQuantile p + p * (1 - p) / 10 * q2 p +
      p * (1 - p) / 25 * ((1 - p - p) / 3 * q3 p + p * (1 - p) / 8 * q4 p) := by
  have h1' : (1 : ℝ) ≤ i := by exact_mod_cast h1
  have h3' : (i : ℝ) ≤ 3 := by exact_mod_cast h3
  have hp0 : 0 < p := by rw [hp]; linarith
  have hp1 : p < 1 := by rw [hp]; linarith
  obtain ⟨e2, e3, e4⟩ := iteratedDeriv_extremeQuantile
  have e : (i : ℝ) / (((3 : ℕ) : ℝ) + 1) = p := by rw [hp]; norm_num
  simp only [davidJohnson, e, e2 _ hp0 hp1, e3 _ hp0 hp1, e4 _ hp0 hp1]
  norm_num

theorem scores_three : davidJohnson extremeQuantile 3 1 < -1 ∧
    -0.7 < davidJohnson extremeQuantile 3 2 ∧ davidJohnson extremeQuantile 3 2 < 0 ∧
    0 < davidJohnson extremeQuantile 3 3 := by
  have hl1 := Real.log_two_gt_d9
  have hl2 := Real.log_two_lt_d9
  refine ⟨?_, ?_⟩
  · rw [davidJohnson_three le_rfl (by norm_num) (p := 1 / 4) (by norm_num)]
    have hu0 : (1 / 4 : ℝ) ≤ -Real.log (3 / 4) := by
      have := Real.log_le_sub_one_of_pos (x := 3 / 4) (by norm_num)
      linarith
    have hu1 : -Real.log (3 / 4) ≤ 3 / 10 := by
      have h := Real.quadratic_le_exp_of_nonneg (x := 3 / 10) (by norm_num)
      have h2 : Real.exp (-(3 / 10)) ≤ 3 / 4 := by
        rw [Real.exp_neg]
        exact inv_le_of_inv_le₀ (by norm_num) (by norm_num at h ⊢; linarith)
      have := (Real.le_log_iff_exp_le (by norm_num)).2 h2
      linarith
    have hx : q1 (1 / 4) = 4 / 3 / -Real.log (3 / 4) := by
      rw [q1]
      norm_num
      field_simp
    set u := -Real.log (3 / 4) with hu
    have hQ : extremeQuantile (1 / 4) < -1 := by
      have : extremeQuantile (1 / 4) = Real.log u := by rw [extremeQuantile, hu]; norm_num
      rw [this, Real.log_lt_iff_lt_exp (by linarith), Real.exp_neg]
      have := Real.exp_one_lt_d9
      rw [lt_inv_comm₀ (by linarith) (Real.exp_pos 1)]
      refine this.trans ?_
      rw [lt_inv_comm₀ (by norm_num) (by linarith)]
      norm_num
      linarith
    have hx0 : 4.4 ≤ q1 (1 / 4) := by
      rw [hx, le_div_iff₀ (by linarith)]; linarith
    have hx1 : q1 (1 / 4) ≤ 5.4 := by
      rw [hx, div_le_iff₀ (by linarith)]; linarith
    simp only [q4, q3, q2]
    generalize q1 (1 / 4) = x at *
    norm_num
    nlinarith [mul_nonneg (sub_nonneg.2 hx0) (sub_nonneg.2 hx1)]
  · have hx2 : q1 (1 / 2) = 2 / Real.log 2 := by
      have : Real.log (1 - 1 / 2) = -Real.log 2 := by
        rw [← Real.log_inv]; norm_num
      rw [q1, this]
      field_simp
      norm_num
    have hx3 : q1 (3 / 4) = 2 / Real.log 2 := by
      have : Real.log (1 - 3 / 4) = -(2 * Real.log 2) := by
        rw [← Real.log_rpow two_pos, ← Real.log_inv]; norm_num
      rw [q1, this]
      field_simp
      norm_num
    have hx0 : 2.88 ≤ 2 / Real.log 2 := by
      rw [le_div_iff₀ (by linarith)]; linarith
    have hx1 : 2 / Real.log 2 ≤ 2.89 := by
      rw [div_le_iff₀ (by linarith)]; linarith
    have hQ2 : extremeQuantile (1 / 2) = Real.log (Real.log 2) := by
      have : Real.log (1 - 1 / 2) = -Real.log 2 := by
        rw [← Real.log_inv]; norm_num
      rw [extremeQuantile, this, neg_neg]
    have hQ3 : extremeQuantile (3 / 4) = Real.log (2 * Real.log 2) := by
      have : Real.log (1 - 3 / 4) = -(2 * Real.log 2) := by
        rw [← Real.log_rpow two_pos, ← Real.log_inv]; norm_num
      rw [extremeQuantile, this, neg_neg]
    have b1 := Real.log_le_sub_one_of_pos (x := Real.log 2) (by linarith)
    have b2 : -0.45 ≤ Real.log (Real.log 2) := by
      have := Real.one_sub_inv_le_log_of_pos (x := Real.log 2) (by linarith)
      have h3 : (Real.log 2)⁻¹ ≤ 1.45 := by
        rw [inv_le_comm₀ (by linarith) (by norm_num)]; norm_num; linarith
      linarith
    have b3 : 0 ≤ Real.log (2 * Real.log 2) := Real.log_nonneg (by linarith)
    rw [davidJohnson_three (by norm_num) (by norm_num) (p := 1 / 2) (by norm_num),
      davidJohnson_three (by norm_num) le_rfl (p := 3 / 4) (by norm_num), hQ2, hQ3]
    simp only [q4, q3, q2, hx2, hx3]
    generalize Real.log (Real.log 2) = A at *
    generalize Real.log (2 * Real.log 2) = B at *
    have hA : A < -0.3 := by linarith
    generalize 2 / Real.log 2 = x at *
    refine ⟨?_, ?_, ?_⟩
    · norm_num
      nlinarith [mul_nonneg (sub_nonneg.2 hx0) (sub_nonneg.2 hx1)]
    · norm_num
      nlinarith [mul_nonneg (sub_nonneg.2 hx0) (sub_nonneg.2 hx1)]
    · norm_num
      nlinarith [mul_nonneg (sub_nonneg.2 hx0) (sub_nonneg.2 hx1)]

/-- Observations with logarithms 0, 1, 2: all shares lie strictly between 0 and 1. -/
theorem spacings_case : ∃ o : ℕ → ℝ, OrderStats ([Real.exp 0, Real.exp 1, Real.exp 2].map Real.log) o ∧
    0 < ∑ i ∈ Finset.Icc 1 (3 - 1), normSpacing (davidJohnson extremeQuantile 3) o i ∧
    ∀ j, 1 ≤ j → j ≤ 3 - 2 → 0 < spacingShare (davidJohnson extremeQuantile 3) o 3 j ∧
      spacingShare (davidJohnson extremeQuantile 3) o 3 j < 1 := by
  obtain ⟨o, ho⟩ := exists_orderStats ([Real.exp 0, Real.exp 1, Real.exp 2].map Real.log)
  have hl : [Real.exp 0, Real.exp 1, Real.exp 2].map Real.log = [0, 1, 2] := by simp
  have hs : sort [(0 : ℝ), 1, 2] = [0, 1, 2] := sort_of_sorted (by norm_num)
  have h1 := at_sort_orderStats ho (i := 0) (by simp)
  have h2 := at_sort_orderStats ho (i := 1) (by simp)
  have h3 := at_sort_orderStats ho (i := 2) (by simp)
  rw [hl, hs] at h1 h2 h3
  simp only [at_, List.getD_cons_zero, List.getD_cons_succ, Nat.reduceAdd] at h1 h2 h3
  obtain ⟨e1, e2, e3, e4⟩ := scores_three
  have g1 : 0 < normSpacing (davidJohnson extremeQuantile 3) o 1 := by
    rw [normSpacing, ← h1, ← h2]
    exact div_pos (by norm_num) (by linarith)
  have g2 : 0 < normSpacing (davidJohnson extremeQuantile 3) o 2 := by
    rw [normSpacing, ← h2, ← h3]
    exact div_pos (by norm_num) (by linarith)
  have hsum : ∑ i ∈ Finset.Icc 1 (3 - 1), normSpacing (davidJohnson extremeQuantile 3) o i =
      normSpacing (davidJohnson extremeQuantile 3) o 1 + normSpacing (davidJohnson extremeQuantile 3) o 2 := by
    rw [sum_Icc_range, Finset.sum_range_succ, Finset.sum_range_one]
  refine ⟨o, ho, by rw [hsum]; linarith, fun j hj1 hj2 => ?_⟩
  obtain rfl : j = 1 := by omega
  rw [spacingShare, hsum, Finset.Icc_self, Finset.sum_singleton]
  exact ⟨by positivity, (div_lt_one (by linarith)).2 (by linarith)⟩

example : ∃ v o, OrderStats ([Real.exp 0, Real.exp 1, Real.exp 2].map Real.log) o ∧
    WeibullStat.los.value (fun _ => 1) ⟨1, 1⟩ (.ndarray [Real.exp 0, Real.exp 1, Real.exp 2]) = .ok v ∧
    v = Spec.andersonDarling [spacingShare (davidJohnson extremeQuantile 3) o 3 1] := by
  obtain ⟨o, ho, hpos, h01⟩ := spacings_case
  refine ⟨_, o, ho, (C124_spacings _ _ (s := .ndarray [Real.exp 0, Real.exp 1, Real.exp 2]) (by simp [Sample.values]) ho
    rfl hpos.ne').2.2 h01, rfl⟩

example : Varies ([1, Real.exp 1].map Real.log) ∧ ∃ o, OrderStats ([1, Real.exp 1].map Real.log) o :=
  ⟨⟨0, by simp, 1, by simp, by norm_num⟩, exists_orderStats _⟩

example : (∀ x ∈ [1, Real.exp 1], 0 < x) ∧ (1 : ℕ) = (none : Option ℕ).getD ([1, Real.exp 1].length / 2) :=
  ⟨by simp [Real.exp_pos], by simp⟩

/-- The tail condition for Mahdi-Doostparast holds for every large observation. -/
example : ∃ x : ℝ, 0 < x ∧ (∀ y ∈ [(1 : ℝ)], y ≤ x) ∧
    1 - 1 / (2 * (([(1 : ℝ)].length : ℝ) + 1)) ≤ Weibull.cdf 1 1 x := by
  refine ⟨2, by norm_num, by simp, ?_⟩
  rw [Weibull.cdf, if_neg (by norm_num), Real.rpow_one, Real.rpow_one]
  have h := Real.exp_one_gt_d9
  have e2 : Real.exp (-2) = (Real.exp 1 ^ 2)⁻¹ := by
    rw [Real.exp_neg, ← Real.exp_nat_mul]; norm_num
  have : (Real.exp 1 ^ 2)⁻¹ ≤ 1 / 4 := by
    rw [inv_le_comm₀ (by positivity) (by norm_num)]
    nlinarith
  rw [e2]
  norm_num at this ⊢
  linarith

end Pysatl.Props
