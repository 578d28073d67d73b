import Verif.Lemmas.Edf
import Verif.Spec.Edf

set_option linter.unusedSectionVars false

/-! # C55-C58: statistics based on the empirical distribution function -/

namespace Pysatl.Props

open Pysatl.Decision Pysatl.Graph Pysatl.Spec Pysatl.Edf

/-- The distribution function of the uniform distribution on `[0,1]`, for the examples. -/
noncomputable def unitCdf (x : ℝ) : ℝ := max 0 (min x 1)

theorem unitCdf_continuous : Continuous unitCdf := by unfold unitCdf; fun_prop

theorem unitCdf_mono : Monotone unitCdf := fun _ _ h =>
  max_le_max_left _ (min_le_min_right _ h)

theorem unitCdf_bounds (x : ℝ) : 0 ≤ unitCdf x ∧ unitCdf x ≤ 1 :=
  ⟨le_max_left _ _, max_le zero_le_one (min_le_right _ _)⟩

/-! ### C55 -/

/-- **C55.** For every continuous distribution function `F` and every non-empty sample the three
Kolmogorov-Smirnov statistics are the suprema over the real line of the distances between the
fraction of observations at or below `x` and `F x`: absolute (two-tailed), upwards (right),
downwards (left).  All are in `[0,1]`, and the two-tailed one is at least `1/(2n)`. -/
theorem C55_sup_distance {F : ℝ → ℝ} (hc : Continuous F) (hm : Monotone F)
    (h01 : ∀ x, 0 ≤ F x ∧ F x ≤ 1) {rvs : List ℝ} (hne : rvs ≠ []) :
    ∃ d p m, ksOf .twoTailed F rvs = .ok d ∧ ksOf .right F rvs = .ok p ∧ ksOf .left F rvs = .ok m ∧
      IsLUB (Set.range fun x => |fracLe rvs x - F x|) d ∧
      IsLUB (Set.range fun x => fracLe rvs x - F x) p ∧
      IsLUB (Set.range fun x => F x - fracLe rvs x) m ∧
      0 ≤ p ∧ p ≤ 1 ∧ 0 ≤ m ∧ m ≤ 1 ∧ d ≤ 1 ∧ 1 / (2 * rvs.length) ≤ d := by
  have hlen : ((sort rvs).map F).length = rvs.length := by
    rw [List.length_map, (sort_perm rvs).length_eq]
  have hpos : 0 < rvs.length := List.length_pos_iff.2 hne
  have hn : (0 : ℝ) < rvs.length := by exact_mod_cast hpos
  have hvne : (sort rvs).map F ≠ [] := by
    rw [← List.length_pos_iff, hlen]; exact hpos
  obtain ⟨p, hp⟩ := dPlus_exists hvne
  obtain ⟨m, hmm⟩ := dMinus_exists hvne
  have lp := isLUB_plus hm h01 hp
  have lm := isLUB_minus hc hm h01 hmm
  have hfr : ∀ x, 0 ≤ fracLe rvs x ∧ fracLe rvs x ≤ 1 := by
    intro x
    rw [fracLe_eq]
    refine ⟨by positivity, (div_le_one hn).2 ?_⟩
    exact_mod_cast List.countP_le_length
  have b1 : p ≤ 1 := lp.2 (by rintro _ ⟨x, rfl⟩; simp only; linarith [(hfr x).2, (h01 x).1])
  have b2 : m ≤ 1 := lm.2 (by rintro _ ⟨x, rfl⟩; simp only; linarith [(hfr x).1, (h01 x).2])
  have pu := (dPlus_eq_ok.1 hp).2
  have mu := (dMinus_eq_ok.1 hmm).2
  have hl : (((sort rvs).map F).length : ℝ) = rvs.length := by rw [hlen]
  have b3 : 0 ≤ p := by
    refine le_trans ?_ (pu (rvs.length - 1) (by omega))
    rw [hl, Nat.cast_sub hpos, Nat.cast_one, sub_add_cancel, div_self hn.ne', List.getElem_map]
    linarith [(h01 ((sort rvs)[rvs.length - 1]'(by rw [(sort_perm rvs).length_eq]; omega))).2]
  have b4 : 0 ≤ m := by
    refine le_trans ?_ (mu 0 (by omega))
    rw [List.getElem_map]
    simp only [Nat.cast_zero, zero_div, sub_zero]
    exact (h01 _).1
  refine ⟨max p m, p, m, ks_two hp hmm, ks_right hp hmm, ks_left hmm, ?_, lp, lm, b3, b1, b4, b2,
    max_le b1 b2, ?_⟩
  · exact isLUB_abs lp (by simpa only [neg_sub] using lm)
  · have h1 := pu 0 (by omega)
    have h2 := mu 0 (by omega)
    rw [hl] at h1 h2
    simp only [Nat.cast_zero, zero_add, zero_div, sub_zero] at h1 h2
    have h3 := le_max_left p m
    have h4 := le_max_right p m
    have : (1 : ℝ) / (2 * rvs.length) = (1 / rvs.length) / 2 := by field_simp
    rw [this]
    linarith

example : ∃ d, ksOf .twoTailed unitCdf [3 / 4, 1 / 4] = .ok d ∧
    IsLUB (Set.range fun x => |fracLe [3 / 4, 1 / 4] x - unitCdf x|) d := by
  obtain ⟨d, _, _, h, _, _, h', _⟩ := C55_sup_distance unitCdf_continuous unitCdf_mono
    unitCdf_bounds (rvs := [3 / 4, 1 / 4]) (by simp)
  exact ⟨d, h, h'⟩

example : ks .twoTailed [(1 : ℚ) / 4, 3 / 4] = .ok (1 / 4) := by decide +kernel

/-! ### C56 -/

theorem sum_odd {K : Type} [Field K] (n : ℕ) :
    ∑ i : Fin n, (2 * ((i : ℕ) : K) + 1) = (n : K) ^ 2 := by
  rw [Fin.sum_univ_eq_sum_range (fun i => 2 * (i : K) + 1) n]
  induction n with
  | zero => simp
  | succ n ih => rw [Finset.sum_range_succ, ih]; push_cast; ring

/-- The integral of the squared difference, for the values in increasing order. -/
theorem cvm_integral_sorted {vals : List ℝ} (hs : vals.Pairwise (· ≤ ·)) (hne : vals ≠ [])
    (h01 : ∀ x ∈ vals, 0 ≤ x ∧ x ≤ 1) :
    cvm vals = vals.length * ∫ u in (0 : ℝ)..1, (fracLe vals u - u) ^ 2 := by
  have hn : (0 : ℝ) < vals.length := by exact_mod_cast List.length_pos_iff.2 hne
  have key := (integral_gap (fun x => x ^ 2) (fun x => x ^ 3 / 3) (by fun_prop)
    (fun x => by simpa using ((hasDerivAt_pow 3 x).div_const 3)) vals.length vals 0 0 hs h01
    zero_le_one).2
  have e : ∀ u, (-gap vals.length 0 vals u) ^ 2 = (fracLe vals u - u) ^ 2 := by
    intro u
    rw [neg_sq, fracLe_eq]
    unfold gap
    rw [zero_add]
  simp only [e] at key
  rw [key, sum_mapIdx]
  unfold cvm
  rw [sum_mapIdx]
  have h2 : ∀ i : Fin vals.length,
      (vals[i] - (0 + ((i : ℕ) : ℝ)) / vals.length) ^ 3 / 3 -
        (vals[i] - (0 + ((i : ℕ) : ℝ) + 1) / vals.length) ^ 3 / 3 =
      ((2 * (((i : ℕ) : ℝ) + 1) - 1) / (2 * vals.length) - vals[i]) ^ 2 / vals.length +
        1 / (12 * (vals.length : ℝ) ^ 3) := by
    intro i
    field_simp
    ring
  rw [Finset.sum_congr rfl fun i _ => h2 i, Finset.sum_add_distrib, ← Finset.sum_div]
  simp only [Finset.sum_const, Finset.card_univ, Fintype.card_fin, nsmul_eq_mul, zero_add, zero_div,
    sub_zero]
  field_simp
  ring

/-- **C56.** The Cramer-von Mises statistic of a sample is `n` times the integral over `[0,1]` of
the squared difference between the fraction of transformed observations at or below `u` and `u`. -/
theorem C56_integral {F : ℝ → ℝ} (hm : Monotone F) (h01 : ∀ x, 0 ≤ F x ∧ F x ≤ 1)
    {rvs : List ℝ} (hne : rvs ≠ []) :
    cvmOf F rvs = rvs.length * ∫ u in (0 : ℝ)..1, (fracLe (rvs.map F) u - u) ^ 2 := by
  have hp : ((sort rvs).map F).Perm (rvs.map F) := (sort_perm rvs).map F
  unfold cvmOf
  rw [cvm_integral_sorted (map_sorted hm rvs) ?_ ?_, hp.length_eq, List.length_map]
  · congr 2
    funext u
    rw [fracLe_perm hp]
  · rw [← List.length_pos_iff, hp.length_eq, List.length_map]
    exact List.length_pos_iff.2 hne
  · intro x hx
    obtain ⟨y, _, rfl⟩ := List.mem_map.1 hx
    exact h01 y

section

variable {K : Type} [Field K] [LinearOrder K] [IsStrictOrderedRing K]

/-- **C56.** It is at least `1/(12n)`, with equality exactly when the `i`-th smallest transformed
observation is the midpoint `(2i-1)/(2n)`, `i = 1, ..., n`. -/
theorem C56_lower_bound {F : K → K} (hm : Monotone F) {rvs : List K} (hne : rvs ≠ []) :
    1 / (12 * rvs.length) ≤ cvmOf F rvs ∧
    (cvmOf F rvs = 1 / (12 * rvs.length) ↔ (rvs.map F).Perm
      ((List.range rvs.length).map fun i : ℕ => (2 * ((i : K) + 1) - 1) / (2 * rvs.length))) := by
  have hp : ((sort rvs).map F).Perm (rvs.map F) := (sort_perm rvs).map F
  have hlen : ((sort rvs).map F).length = rvs.length := by rw [hp.length_eq, List.length_map]
  set vals := (sort rvs).map F with hv
  have hpos : 0 < rvs.length := List.length_pos_iff.2 hne
  have hn : (0 : K) < rvs.length := by exact_mod_cast hpos
  have hform : cvmOf F rvs = 1 / (12 * rvs.length) +
      ∑ i : Fin vals.length, ((2 * (((i : ℕ) : K) + 1) - 1) / (2 * rvs.length) - vals[i]) ^ 2 := by
    have hl : (vals.length : K) = rvs.length := by rw [hlen]
    show cvm vals = _
    unfold cvm
    rw [sum_mapIdx, hl]
  have hnn : 0 ≤ ∑ i : Fin vals.length,
      ((2 * (((i : ℕ) : K) + 1) - 1) / (2 * rvs.length) - vals[i]) ^ 2 :=
    Finset.sum_nonneg fun i _ => sq_nonneg _
  refine ⟨by rw [hform]; linarith, ?_⟩
  have hmid : ((List.range rvs.length).map fun i : ℕ =>
      (2 * ((i : K) + 1) - 1) / (2 * (rvs.length : K))).Pairwise (· ≤ ·) := by
    rw [List.pairwise_map]
    refine List.pairwise_lt_range.imp fun {a b} hab => ?_
    have : (a : K) ≤ b := by exact_mod_cast hab.le
    gcongr
  rw [hform]
  constructor
  · intro h
    have h0 : ∑ i : Fin vals.length,
        ((2 * (((i : ℕ) : K) + 1) - 1) / (2 * rvs.length) - vals[i]) ^ 2 = 0 := by linarith
    rw [Finset.sum_eq_zero_iff_of_nonneg fun i _ => sq_nonneg _] at h0
    refine hp.symm.trans (List.Perm.of_eq ?_)
    apply List.ext_getElem
    · simp [hlen]
    · intro i h1 h2
      have := pow_eq_zero_iff (two_ne_zero) |>.1 (h0 ⟨i, h1⟩ (Finset.mem_univ _))
      simp only [Fin.getElem_fin] at this
      simp only [List.getElem_map (f := fun i : ℕ => (2 * ((i : K) + 1) - 1) / (2 * (rvs.length : K))), List.getElem_range]
      linarith
  · intro h
    have heq : vals = (List.range rvs.length).map fun i : ℕ =>
        (2 * ((i : K) + 1) - 1) / (2 * (rvs.length : K)) :=
      (hp.trans h).eq_of_pairwise (le := (· ≤ ·)) (fun _ _ _ _ h1 h2 => le_antisymm h1 h2)
        (map_sorted hm rvs) hmid
    have : ∀ i : Fin vals.length,
        ((2 * (((i : ℕ) : K) + 1) - 1) / (2 * rvs.length) - vals[i]) ^ 2 = 0 := by
      intro i
      have h3 : vals[i] = (2 * (((i : ℕ) : K) + 1) - 1) / (2 * rvs.length) := by
        have := List.getElem_of_eq heq i.2
        simp only [List.getElem_map (f := fun i : ℕ => (2 * ((i : K) + 1) - 1) / (2 * (rvs.length : K))), List.getElem_range] at this
        exact this
      rw [h3, sub_self]; ring
    rw [Finset.sum_congr rfl fun i _ => this i]
    simp

end

example : cvmOf (fun x : ℚ => x) [3 / 4, 1 / 4] = 1 / 24 := by decide +kernel
example : cvmOf (fun x : ℚ => x) [1 / 2, 1 / 4] = 1 / 24 + 1 / 16 := by decide +kernel

/-! ### C57 -/

/-- The integral of the difference, for the values in increasing order. -/
theorem gap_integral_sorted {vals : List ℝ} (hs : vals.Pairwise (· ≤ ·)) (hne : vals ≠ [])
    (h01 : ∀ x ∈ vals, 0 ≤ x ∧ x ≤ 1) :
    ∫ u in (0 : ℝ)..1, (fracLe vals u - u) = 1 / 2 - mean vals := by
  have hn : (0 : ℝ) < vals.length := by exact_mod_cast List.length_pos_iff.2 hne
  have key := (integral_gap (fun x => -x) (fun x => -(x ^ 2 / 2)) (by fun_prop)
    (fun x => by
      have h := ((hasDerivAt_pow 2 x).div_const 2).neg
      have e : -((2 : ℕ) * x ^ (2 - 1) / 2 : ℝ) = -x := by norm_num
      rw [e] at h
      exact h) vals.length vals 0 0 hs h01
    zero_le_one).2
  have e : ∀ u, -(-gap vals.length 0 vals u) = fracLe vals u - u := by
    intro u
    rw [neg_neg, fracLe_eq]
    unfold gap
    rw [zero_add]
  simp only [e] at key
  rw [key, sum_mapIdx]
  have h2 : ∀ i : Fin vals.length,
      -((vals[i] - (0 + ((i : ℕ) : ℝ)) / vals.length) ^ 2 / 2) -
        -((vals[i] - (0 + ((i : ℕ) : ℝ) + 1) / vals.length) ^ 2 / 2) =
      (2 * ((i : ℕ) : ℝ) + 1) / (2 * (vals.length : ℝ) ^ 2) - vals[i] / vals.length := by
    intro i
    field_simp
    ring
  rw [Finset.sum_congr rfl fun i _ => h2 i, Finset.sum_sub_distrib, ← Finset.sum_div,
    ← Finset.sum_div, sum_odd, ← sum_eq_fin]
  unfold mean
  simp only [zero_add, zero_div, sub_zero]
  field_simp
  ring

/-- **C57, what holds.** For every sample and every distribution function `F`, the beta, Student,
gamma and Weibull families all compute Watson's statistic of the transformed sample. -/
theorem C57_families_partial {F : ℝ → ℝ} (hm : Monotone F) (h01 : ∀ x, 0 ≤ F x ∧ F x ≤ 1)
    {rvs : List ℝ} (hne : rvs ≠ []) :
    watsonBeta ((sort rvs).map F) = watsonU2 (rvs.map F) ∧
    watsonWeibull ((sort rvs).map F) = watsonU2 (rvs.map F) ∧
    watsonGamma ((sort rvs).map F) = .ok (watsonU2 (rvs.map F)) := by
  have hp : ((sort rvs).map F).Perm (rvs.map F) := (sort_perm rvs).map F
  have hvne : (sort rvs).map F ≠ [] := by
    rw [← List.length_pos_iff, hp.length_eq, List.length_map]
    exact List.length_pos_iff.2 hne
  have hb : ∀ x ∈ (sort rvs).map F, 0 ≤ x ∧ x ≤ 1 := by
    intro x hx
    obtain ⟨y, _, rfl⟩ := List.mem_map.1 hx
    exact h01 y
  have hU : watsonU2 (rvs.map F) = watsonBeta ((sort rvs).map F) := by
    unfold watsonBeta watsonU2
    have hf : ∀ u, fracLe (rvs.map F) u = fracLe ((sort rvs).map F) u :=
      fun u => (fracLe_perm hp u).symm
    simp only [hf]
    rw [cvm_integral_sorted (map_sorted hm rvs) hvne hb, gap_integral_sorted (map_sorted hm rvs) hvne hb,
      ← hp.length_eq]
    ring
  refine ⟨hU.symm, hU.symm, ?_⟩
  rw [hU]
  generalize (sort rvs).map F = vals at hvne
  have hpos : 0 < vals.length := List.length_pos_iff.2 hvne
  have hn : (0 : ℝ) < vals.length := by exact_mod_cast hpos
  unfold watsonGamma watsonBeta cvm mean
  rw [if_neg (by omega)]
  congr 1
  have : ∀ i : ℕ, ∀ v : ℝ, (v - (2 * ((i : ℝ) + 1) - 1) / (2 * vals.length)) ^ 2 =
      ((2 * ((i : ℝ) + 1) - 1) / (2 * vals.length) - v) ^ 2 := fun i v => by ring
  simp only [this]
  field_simp

section

variable {K : Type} [Field K] [LinearOrder K] [IsStrictOrderedRing K]

/-- **C57, what the uniform family computes instead**: for every non-empty sample its value is
`U²/n + 1/4`. -/
theorem C57_uniform_partial {vals : List K} (hne : vals ≠ []) :
    watsonUniform vals = watsonBeta vals / vals.length + 1 / 4 := by
  have hpos : 0 < vals.length := List.length_pos_iff.2 hne
  have hn : (0 : K) < vals.length := by exact_mod_cast hpos
  unfold watsonUniform watsonBeta cvm
  rw [sum_mapIdx, sum_mapIdx]
  have h : ∀ i : Fin vals.length, (vals[i] - (((i : ℕ) : K) + 1) / vals.length +
      1 / 2 / vals.length - mean vals) ^ 2 =
      ((2 * (((i : ℕ) : K) + 1) - 1) / (2 * vals.length) - vals[i]) ^ 2 +
      (mean vals) * ((2 * ((i : ℕ) : K) + 1) / vals.length) - 2 * mean vals * vals[i] +
      mean vals ^ 2 := by
    intro i
    field_simp
    ring
  rw [Finset.sum_congr rfl fun i _ => h i]
  rw [Finset.sum_add_distrib, Finset.sum_sub_distrib, Finset.sum_add_distrib, ← Finset.mul_sum,
    ← Finset.mul_sum, ← Finset.sum_div, sum_odd, ← sum_eq_fin, Finset.sum_const, Finset.card_univ,
    Fintype.card_fin, nsmul_eq_mul]
  have hm : vals.sum = mean vals * vals.length := by unfold mean; field_simp
  rw [hm]
  generalize ∑ i : Fin vals.length,
    ((2 * (((i : ℕ) : K) + 1) - 1) / (2 * vals.length) - vals[i]) ^ 2 = S
  field_simp
  ring

/-- **C57, refuted** for the uniform family: on a single observation at `1/2` Watson's statistic is
`1/12` and the uniform family reports `1/3`. -/
theorem C57_refuted : watsonBeta [(1 : ℚ) / 2] = 1 / 12 ∧ watsonUniform [(1 : ℚ) / 2] = 1 / 3 := by
  decide +kernel

end

example : watsonBeta [(1 : ℚ) / 4, 1 / 2] = 1 / 24 + 1 / 16 - 2 * (3 / 8 - 1 / 2) ^ 2 := by
  decide +kernel

example : watsonBeta ((sort [3 / 4, 1 / 4]).map unitCdf) = watsonU2 ([3 / 4, 1 / 4].map unitCdf) :=
  (C57_families_partial unitCdf_mono unitCdf_bounds (by simp)).1

/-! ### C58 -/

section

variable {K : Type} [Field K] [LinearOrder K] [IsStrictOrderedRing K]

/-- **C58.** Kuiper's statistic is the sum of the two one-sided Kolmogorov-Smirnov statistics, lies
between `1/n` and `1`, and is at least the two-tailed Kolmogorov-Smirnov statistic and at most twice
that. -/
theorem C58_kuiper {F : K → K} (hm : Monotone F) (h01 : ∀ x, 0 ≤ F x ∧ F x ≤ 1)
    {rvs : List K} (hne : rvs ≠ []) :
    ∃ v d p m, kuiperOf F rvs = .ok v ∧ ksOf .twoTailed F rvs = .ok d ∧
      ksOf .right F rvs = .ok p ∧ ksOf .left F rvs = .ok m ∧
      v = p + m ∧ 1 / rvs.length ≤ v ∧ v ≤ 1 ∧ d ≤ v ∧ v ≤ 2 * d := by
  have hp : ((sort rvs).map F).Perm (rvs.map F) := (sort_perm rvs).map F
  have hlen : ((sort rvs).map F).length = rvs.length := by rw [hp.length_eq, List.length_map]
  have hs := map_sorted hm rvs
  have hb : ∀ i, ∀ h : i < ((sort rvs).map F).length, 0 ≤ ((sort rvs).map F)[i] ∧
      ((sort rvs).map F)[i] ≤ 1 := by
    intro i h
    rw [List.getElem_map]
    exact h01 _
  unfold kuiperOf ksOf
  generalize (sort rvs).map F = vals at hlen hs hb
  rw [← hlen]
  have hpos : 0 < vals.length := by rw [hlen]; exact List.length_pos_iff.2 hne
  have hn : (0 : K) < vals.length := by exact_mod_cast hpos
  have hvne : vals ≠ [] := List.length_pos_iff.1 hpos
  obtain ⟨p, hp⟩ := dPlus_exists hvne
  obtain ⟨m, hmm⟩ := dMinus_exists hvne
  obtain ⟨⟨i, hi, hpi⟩, pu⟩ := dPlus_eq_ok.1 hp
  obtain ⟨⟨j, hj, hmj⟩, mu⟩ := dMinus_eq_ok.1 hmm
  have p0 : 0 ≤ p := by
    refine le_trans ?_ (pu (vals.length - 1) (by omega))
    rw [Nat.cast_sub hpos, Nat.cast_one, sub_add_cancel, div_self hn.ne']
    linarith [(hb (vals.length - 1) (by omega)).2]
  have m0 : 0 ≤ m := by
    refine le_trans ?_ (mu 0 hpos)
    simp only [Nat.cast_zero, zero_div, sub_zero]
    exact (hb 0 hpos).1
  refine ⟨p + m, max p m, p, m, kuiper_eq hp hmm, ks_two hp hmm, ks_right hp hmm, ks_left hmm, rfl,
    ?_, ?_, ?_, ?_⟩
  · have h1 := pu 0 hpos
    have h2 := mu 0 hpos
    simp only [Nat.cast_zero, zero_add, zero_div, sub_zero] at h1 h2
    linarith
  · rw [hpi, hmj]
    rcases Nat.lt_or_ge i j with h | h
    · have h1 : ((i : K) + 1) / vals.length ≤ (j : K) / vals.length :=
        div_le_div_of_nonneg_right (by exact_mod_cast h) hn.le
      linarith [(hb i hi).1, (hb j hj).2]
    · have h1 := sorted_le hs hj hi h
      have h2 : ((i : K) + 1) / vals.length ≤ 1 := (div_le_one hn).2 (by exact_mod_cast hi)
      have h3 : 0 ≤ (j : K) / vals.length := by positivity
      linarith
  · exact max_le (by linarith) (by linarith)
  · linarith [le_max_left p m, le_max_right p m]

example : kuiperOf (fun x : ℚ => max 0 (min x 1)) [3 / 4, 1 / 4] = .ok (1 / 2) := by decide +kernel

end

end Pysatl.Props
