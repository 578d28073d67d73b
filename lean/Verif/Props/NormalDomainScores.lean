import Verif.Props.NormalDomain
import Verif.Props.SensitiveNormal
import Verif.Props.Royston
import Verif.Props.NormalFit
import Verif.Lemmas.CoinScores

/-! # C110: the normality statistics that use the distribution functions of `scipy.stats` -/

namespace Pysatl.Props

open Pysatl.Graph Pysatl.Normal Pysatl.Exponent Pysatl.Spec Pysatl.Edf
open MeasureTheory ProbabilityTheory

theorem pppf_ok {lib : NormLib} {p : ℝ} (h0 : 0 < p) (h1 : p < 1) : pppf lib p = .ok (lib.ppf p) := if_pos ⟨h0, h1⟩

theorem scoresC_ok {lib : NormLib} {n : ℕ} {p : ℕ → ℝ} (h : ∀ i < n, 0 < p i ∧ p i < 1) :
    scoresC lib n p = .ok ((List.range n).map fun i => lib.ppf (p i)) :=
  mapM_ok fun i hi => pppf_ok (h i (List.mem_range.1 hi)).1 (h i (List.mem_range.1 hi)).2

theorem blom_mem {n i : ℕ} (h : i < n) : 0 < blom n i ∧ blom n i < 1 := ⟨blom_pos n i, blom_lt_one h⟩

theorem standardisedC_ok {xs : List ℝ} (h : Varies xs) (h2 : 2 ≤ xs.length) :
    standardisedC xs = .ok (standardised xs) := by
  have hv := var1_pos h h2
  have h2' : (2 : ℝ) ≤ xs.length := by exact_mod_cast h2
  unfold standardisedC
  rw [pdiv_ok (by linarith), ok_bind]
  change (psqrt (var1 xs) >>= _) = _
  rw [psqrt_ok hv.le, ok_bind, mapM_ok fun x _ => pdiv_ok (Real.sqrt_pos.2 hv).ne']
  rfl

theorem andersonDarlingC_ok (lib : NormLib) {xs : List ℝ} (h : Varies xs) (h2 : 2 ≤ xs.length) :
    andersonDarlingC lib xs = .ok (andersonDarling lib xs) := by
  have hv := var1_pos h h2
  have h2' : (2 : ℝ) ≤ xs.length := by exact_mod_cast h2
  unfold andersonDarlingC
  rw [pdiv_ok (by linarith), ok_bind]
  change (psqrt (var1 xs) >>= _) = _
  rw [psqrt_ok hv.le, ok_bind, mapM_ok fun x _ => pdiv_ok (Real.sqrt_pos.2 hv).ne']
  rfl

theorem lillieforsC_ok (lib : NormLib) {xs : List ℝ} (h : Varies xs) (h2 : 2 ≤ xs.length) :
    lillieforsC lib xs = lilliefors lib xs := by
  unfold lillieforsC
  rw [standardisedC_ok h h2, ok_bind]
  rfl

theorem cabanaCabana1C_ok (lib : NormLib) {xs : List ℝ} (h : Varies xs) (h2 : 2 ≤ xs.length) :
    cabanaCabana1C lib xs = cc1 lib (standardised xs) := by
  unfold cabanaCabana1C
  rw [standardisedC_ok h h2, ok_bind]

theorem cabanaCabana2C_ok (lib : NormLib) {xs : List ℝ} (h : Varies xs) (h2 : 2 ≤ xs.length) :
    cabanaCabana2C lib xs = cc2 lib (cc2Standardised xs) := by
  have hv := graph_variance_pos h
  have h2' : (2 : ℝ) ≤ xs.length := by exact_mod_cast h2
  have hp : 0 < (xs.length : ℝ) * Graph.variance xs / ((xs.length : ℝ) - 1) :=
    div_pos (mul_pos (by linarith) hv) (by linarith)
  unfold cabanaCabana2C
  rw [pdiv_ok (by linarith), ok_bind, psqrt_ok hp.le, ok_bind, mapM_ok fun x _ => pdiv_ok (Real.sqrt_pos.2 hp).ne', ok_bind]
  rfl

/-! ### Correlations -/

theorem pearsonrC_ok {z xs : List ℝ} (hz : Varies z) (hx : Varies xs) : pearsonrC z xs = pearsonr z xs := by
  unfold pearsonrC pearsonr
  split
  · rfl
  · have h1 := Real.sqrt_pos.2 (sumsq_pos hz (mean z))
    have h2 := Real.sqrt_pos.2 (sumsq_pos hx (mean xs))
    exact pdiv_ok (mul_pos h1 h2).ne'

theorem varies_range {n i j : ℕ} {f : ℕ → ℝ} (hi : i < n) (hj : j < n) (h : f i ≠ f j) :
    Varies ((List.range n).map fun i : ℕ => f i) :=
  ⟨f i, List.mem_map.2 ⟨i, by simpa using hi, rfl⟩, f j, List.mem_map.2 ⟨j, by simpa using hj, rfl⟩, h⟩

theorem filliMedian_mem' {n i : ℕ} (hn : 2 ≤ n) (hi : i < n) : 0 < filliMedian n i ∧ filliMedian n i < 1 := by
  obtain ⟨h0, h1, h2⟩ := filliMedian_mem hn
  by_cases a : i = n - 1
  · exact a ▸ ⟨h0.trans h1, h2⟩
  by_cases b : i = 0
  · exact b ▸ ⟨h0, h1.trans h2⟩
  have hi' : (i : ℝ) + 1 ≤ n := by exact_mod_cast hi
  have hi0 : (0 : ℝ) ≤ i := Nat.cast_nonneg i
  simp only [filliMedian, if_neg a, if_neg b]
  exact ⟨div_pos (by norm_num; linarith) (by norm_num; linarith), (div_lt_one (by norm_num; linarith)).2 (by norm_num; linarith)⟩

theorem filliC_ok {xs : List ℝ} (h : Varies xs) (h2 : 2 ≤ xs.length) : filliC scipyNorm xs = filli scipyNorm xs := by
  unfold filliC filli
  rw [if_neg (by omega), if_neg (by omega), scoresC_ok fun i hi => filliMedian_mem' h2 hi, ok_bind]
  obtain ⟨h0, h1, h3⟩ := filliMedian_mem h2
  exact pearsonrC_ok (varies_range (i := 0) (j := xs.length - 1) (f := fun i => scipyNorm.ppf (filliMedian xs.length i))
    (by omega) (by omega) (ppf_lt h0 h1 h3).ne) (varies_sort h)

theorem looneyGulledgeC_ok {xs : List ℝ} (h : Varies xs) (h2 : 2 ≤ xs.length) :
    looneyGulledgeC scipyNorm xs = looneyGulledge scipyNorm xs := by
  unfold looneyGulledgeC looneyGulledge
  rw [scoresC_ok fun i hi => blom_mem hi, ok_bind]
  exact pearsonrC_ok (varies_range (i := 0) (j := xs.length - 1) (f := fun i => scipyNorm.ppf (blom xs.length i))
    (by omega) (by omega) (score_lt (by omega) (by omega)).ne) (varies_sort h)

theorem rjOrder_mem (α : RjAlpha) {n i : ℕ} (hi : i < n) : 0 < rjOrder α n i ∧ rjOrder α n i < 1 := by
  have ha : 0 ≤ α.val ∧ α.val ≤ 1 / 2 := by cases α <;> norm_num [RjAlpha.val]
  have hi' : (i : ℝ) + 1 ≤ n := by exact_mod_cast hi
  have hi0 : (0 : ℝ) ≤ i := Nat.cast_nonneg i
  exact ⟨div_pos (by linarith) (by linarith), (div_lt_one (by linarith)).2 (by linarith)⟩

theorem rjOrder_lt (α : RjAlpha) {n i j : ℕ} (h : i < j) (hj : j < n) : rjOrder α n i < rjOrder α n j := by
  have ha : 0 ≤ α.val ∧ α.val ≤ 1 / 2 := by cases α <;> norm_num [RjAlpha.val]
  have hj' : (j : ℝ) + 1 ≤ n := by exact_mod_cast hj
  have hij : (i : ℝ) < j := by exact_mod_cast h
  have hi0 : (0 : ℝ) ≤ i := Nat.cast_nonneg i
  exact div_lt_div_of_pos_right (by linarith) (by linarith)

/-- The mean over a group lies between the bounds of the group. -/
theorem groupMean_bounds {l : List ℝ} {u : ℕ → ℝ} {i : ℕ} (hi : i < l.length) {a b : ℝ}
    (h : ∀ j < l.length, at_ l j = at_ l i → a ≤ u j ∧ u j ≤ b) : a ≤ groupMean l u i ∧ groupMean l u i ≤ b := by
  unfold groupMean
  dsimp only
  set g := (Finset.range l.length).filter fun j => at_ l j = at_ l i with hg
  have hig : i ∈ g := by simp [hg, hi]
  have hc : (0 : ℝ) < g.card := by exact_mod_cast Finset.card_pos.2 ⟨i, hig⟩
  have hm : ∀ j ∈ g, a ≤ u j ∧ u j ≤ b := fun j hj => by
    simp only [hg, Finset.mem_filter, Finset.mem_range] at hj
    exact h j hj.1 hj.2
  rw [le_div_iff₀ hc, div_le_iff₀ hc]
  have e1 := Finset.card_nsmul_le_sum g u a fun j hj => (hm j hj).1
  have e2 := Finset.sum_le_card_nsmul g u b fun j hj => (hm j hj).2
  rw [nsmul_eq_mul] at e1 e2
  exact ⟨by linarith, by linarith⟩

theorem ryanJoinerC_ok {xs : List ℝ} (h : Varies xs) (w : Bool) (α : RjAlpha) :
    ryanJoinerC scipyNorm w α xs = ryanJoiner scipyNorm w α xs := by
  have hl := length_sort xs
  have h0 : 0 < xs.length := List.length_pos_iff.2 h.ne_nil
  have hlt := varies_iff_sort.1 h
  set n := xs.length with hn
  have hn2 : 0 < n - 1 := by
    rcases Nat.eq_zero_or_pos (n - 1) with e | e
    · rw [e] at hlt; exact absurd hlt (lt_irrefl _)
    · exact e
  set p : ℕ → ℝ := fun i => if w then groupMean (sort xs) (rjOrder α n) i else rjOrder α n i with hp
  have mono : ∀ {i j}, i ≤ j → j < n → rjOrder α n i ≤ rjOrder α n j := fun hij hj => by
    rcases hij.eq_or_lt with rfl | hij
    · rfl
    · exact (rjOrder_lt α hij hj).le
  have hmem : ∀ i < n, 0 < p i ∧ p i < 1 := by
    intro i hi
    cases w
    · exact rjOrder_mem α hi
    · have := groupMean_bounds (l := sort xs) (u := rjOrder α n) (i := i) (by omega) (a := rjOrder α n 0) (b := rjOrder α n (n - 1))
        fun j hj _ => ⟨mono (Nat.zero_le _) (by omega), mono (by omega) (by omega)⟩
      exact ⟨(rjOrder_mem α h0).1.trans_le this.1, this.2.trans_lt (rjOrder_mem α (by omega : n - 1 < n)).2⟩
  have hends : p 0 < p (n - 1) := by
    cases w
    · exact rjOrder_lt α hn2 (by omega)
    · -- the last position of the least value
      obtain ⟨k, hk, hk1⟩ : ∃ k, (k + 1 < n ∧ at_ (sort xs) k = at_ (sort xs) 0) ∧ at_ (sort xs) (k + 1) ≠ at_ (sort xs) 0 := by
        by_contra hcon
        push Not at hcon
        have : ∀ k, k < n → at_ (sort xs) k = at_ (sort xs) 0 := by
          intro k
          induction k with
          | zero => intro _; rfl
          | succ k ih => intro hk; exact hcon k ⟨hk, ih (by omega)⟩
        exact hlt.ne (this (n - 1) (by omega)).symm
      have hk2 : at_ (sort xs) 0 < at_ (sort xs) (k + 1) :=
        lt_of_le_of_ne (at_sort_mono xs (Nat.zero_le _) (by omega)) (Ne.symm hk1)
      have a1 := groupMean_bounds (l := sort xs) (u := rjOrder α n) (i := 0) (by omega) (a := rjOrder α n 0) (b := rjOrder α n k)
        fun j hj e => ⟨mono (Nat.zero_le _) (by omega), mono (by
          by_contra hcon
          have := at_sort_mono xs (show k + 1 ≤ j by omega) (by omega)
          linarith) (by omega)⟩
      have a2 := groupMean_bounds (l := sort xs) (u := rjOrder α n) (i := n - 1) (by omega) (a := rjOrder α n (k + 1))
        (b := rjOrder α n (n - 1)) fun j hj e => ⟨mono (by
          by_contra hcon
          have e1 := at_sort_mono xs (show j ≤ k by omega) (by omega)
          have e2 := at_sort_mono xs (show k + 1 ≤ n - 1 by omega) (by omega)
          linarith [hk.2]) (by omega), mono (by omega) (by omega)⟩
      exact a1.2.trans_lt ((rjOrder_lt α (Nat.lt_succ_self k) (by omega)).trans_le a2.1)
  unfold ryanJoinerC ryanJoiner
  dsimp only
  rw [scoresC_ok hmem, ok_bind]
  exact pearsonrC_ok (varies_range (i := 0) (j := n - 1) (f := fun i => scipyNorm.ppf (p i)) h0 (by omega)
    (ppf_lt (hmem 0 h0).1 hends (hmem (n - 1) (by omega)).2).ne) (varies_sort h)

/-! ### Weighted sums of the order statistics -/

theorem dot_range {n : ℕ} (f : ℕ → ℝ) {l : List ℝ} (hl : l.length = n) :
    dot (at_ ((List.range n).map f)) l = dot f l :=
  dot_congr fun i hi => by rw [at_range_map, if_pos (by omega)]

theorem shapiroFranciaC_ok {xs : List ℝ} (h : Varies xs) (h2 : 2 ≤ xs.length) :
    shapiroFranciaC scipyNorm xs = .ok (shapiroFrancia scipyNorm xs) := by
  unfold shapiroFranciaC shapiroFrancia
  rw [scoresC_ok fun i hi => blom_mem hi, ok_bind]
  dsimp only
  rw [List.map_map, List.map_map, sum_list_range]
  have e : (List.range xs.length).map ((fun v => -v) ∘ fun i => scipyNorm.ppf (blom xs.length i)) =
    (List.range xs.length).map fun i => -scipyNorm.ppf (blom xs.length i) := rfl
  rw [e, dot_range _ (length_sort xs)]
  refine pdiv_ok (mul_pos (sumsq_pos (varies_sort h) _) ?_).ne'
  have h0 : scipyNorm.ppf (blom xs.length 0) < 0 := score_neg (by omega)
  exact lt_of_lt_of_le (show 0 < (-scipyNorm.ppf (blom xs.length 0)) ^ 2 by nlinarith)
    (Finset.single_le_sum (f := fun i => (-scipyNorm.ppf (blom xs.length i)) ^ 2) (fun i _ => sq_nonneg _) (by simp; omega))

theorem swrgC_ok {xs : List ℝ} (h : Varies xs) (h2 : 2 ≤ xs.length) : swrgC scipyNorm xs = .ok (swrg scipyNorm xs) := by
  obtain ⟨k, hk, hk0⟩ := swrgStar_ne_zero h2
  have hE : 0 < ∑ i ∈ Finset.range xs.length, swrgStar scipyNorm xs.length i ^ 2 :=
    lt_of_lt_of_le (pow_pos (abs_pos.2 hk0) 2 |>.trans_eq (sq_abs _))
      (Finset.single_le_sum (f := fun i => swrgStar scipyNorm xs.length i ^ 2) (fun i _ => sq_nonneg _) (by simpa using hk))
  unfold swrgC swrg
  rw [scoresC_ok fun i hi => ?_, ok_bind]
  · dsimp only
    rw [psqrt_ok hE.le, ok_bind, mapM_ok fun i _ => pdiv_ok (Real.sqrt_pos.2 hE).ne', ok_bind, dot_range _ (length_sort xs)]
    exact pdiv_ok (sumsq_pos (varies_sort h) _).ne'
  · have hi' : (i : ℝ) + 1 ≤ xs.length := by exact_mod_cast hi
    have hi0 : (0 : ℝ) ≤ i := Nat.cast_nonneg i
    exact ⟨div_pos (by linarith) (by linarith), (div_lt_one (by linarith)).2 (by linarith)⟩


theorem chenShapiroC_ok {xs : List ℝ} (h : Varies xs) (h2 : 2 ≤ xs.length) :
    chenShapiroC scipyNorm xs = .ok (chenShapiro scipyNorm xs) := by
  have hv := Real.sqrt_pos.2 (var1_pos h h2)
  have h2' : (2 : ℝ) ≤ xs.length := by exact_mod_cast h2
  unfold chenShapiroC chenShapiro
  dsimp only
  rw [scoresC_ok fun i hi => blom_mem hi, ok_bind, mapM_ok (g := fun i => at_ (npDiff (sort xs)) i /
    (scipyNorm.ppf (blom xs.length (i + 1)) - scipyNorm.ppf (blom xs.length i))) fun i hi => ?_, ok_bind,
    psqrt_ok (var1_pos h h2).le, ok_bind, pdiv_ok (mul_pos (by linarith) hv).ne', ok_bind, sum_mapIdx_at, sum_list_range,
    length_npDiff, length_sort]
  · rfl
  · have hi' := List.mem_range.1 hi
    rw [at_range_map, at_range_map, if_pos (by omega), if_pos (by omega)]
    exact pdiv_ok (sub_pos.2 (score_lt (Nat.lt_succ_self i) (by omega))).ne'

/-! ### Probability integral transforms -/

theorem at_phiz_mem {xs : List ℝ} {i : ℕ} (hi : i < xs.length) :
    0 < at_ (phiz scipyNorm xs) i ∧ at_ (phiz scipyNorm xs) i < 1 := by
  have hl : i < (phiz scipyNorm xs).length := by rwa [length_phiz]
  rw [at_, List.getD_eq_getElem _ _ hl]
  exact phiz_mem scipyNorm_mirror (List.getElem_mem _)

theorem zhangWuCC_ok {xs : List ℝ} (h : Varies xs) (h2 : 2 ≤ xs.length) :
    zhangWuCC scipyNorm xs = .ok (zhangWuC scipyNorm xs) := by
  unfold zhangWuCC zhangWuC
  dsimp only
  rw [standardisedC_ok h h2, ok_bind, ← phiz]
  rw [mapM_ok (g := fun i : ℕ => Real.log ((1 / at_ (phiz scipyNorm xs) i - 1) /
    (((xs.length : ℝ) - 0.5) / ((i : ℝ) + 1 - 0.75) - 1)) ^ 2) fun i hi => ?_, ok_bind, sum_list_range, sum_mapIdx_at, length_phiz]
  · rfl
  · have hi' := List.mem_range.1 hi
    obtain ⟨p0, p1⟩ := at_phiz_mem hi'
    have hi1 : (i : ℝ) + 1 ≤ xs.length := by exact_mod_cast hi'
    have hi0 : (0 : ℝ) ≤ i := Nat.cast_nonneg i
    have hd : (0 : ℝ) < (i : ℝ) + 1 - 0.75 := by norm_num; linarith
    have hq : 0 < ((xs.length : ℝ) - 0.5) / ((i : ℝ) + 1 - 0.75) - 1 := by
      rw [sub_pos, one_lt_div hd]
      norm_num
      linarith
    have hr : 0 < 1 / at_ (phiz scipyNorm xs) i - 1 := by
      rw [sub_pos, one_lt_div p0]
      exact p1
    rw [pdiv_ok p0.ne', ok_bind, pdiv_ok hd.ne', ok_bind, pdiv_ok hq.ne', ok_bind, plog_ok (div_pos hr hq), ok_bind]
    rfl

theorem zhangWuAC_ok {xs : List ℝ} (h : Varies xs) (h2 : 2 ≤ xs.length) :
    zhangWuAC scipyNorm xs = .ok (zhangWuA scipyNorm xs) := by
  unfold zhangWuAC zhangWuA
  dsimp only
  rw [standardisedC_ok h h2, ok_bind, ← phiz]
  rw [mapM_ok (g := fun i : ℕ => Real.log (at_ (phiz scipyNorm xs) i) / ((xs.length : ℝ) - ((i : ℝ) + 1) + 0.5) +
    Real.log (1 - at_ (phiz scipyNorm xs) i) / ((i : ℝ) + 1 - 0.5)) fun i hi => ?_, ok_bind, sum_list_range, sum_mapIdx_at,
    length_phiz]
  · rfl
  · have hi' := List.mem_range.1 hi
    obtain ⟨p0, p1⟩ := at_phiz_mem hi'
    have hi1 : (i : ℝ) + 1 ≤ xs.length := by exact_mod_cast hi'
    have hi0 : (0 : ℝ) ≤ i := Nat.cast_nonneg i
    have a1 : (0 : ℝ) < (xs.length : ℝ) - ((i : ℝ) + 1) + 0.5 := by norm_num; linarith
    have a2 : (0 : ℝ) < (i : ℝ) + 1 - 0.5 := by norm_num; linarith
    rw [plog_ok p0, ok_bind, plog_ok (sub_pos.2 p1), ok_bind, pdiv_ok a1.ne', ok_bind, pdiv_ok a2.ne', ok_bind]
    rfl

theorem incBeta_pos {p : ℝ} (h0 : 0 < p) (h1 : p < 1) (a b : ℕ) : 0 < incBeta p a b := by
  have hc : Continuous fun x : ℝ => x ^ (a - 1) * (1 - x) ^ (b - 1) := by fun_prop
  have hp : ∀ {q : ℝ}, 0 < q → q ≤ 1 → 0 < ∫ x in (0 : ℝ)..q, x ^ (a - 1) * (1 - x) ^ (b - 1) := fun {q} hq hq1 => by
    refine intervalIntegral.intervalIntegral_pos_of_pos_on (hc.intervalIntegrable _ _) (fun x hx => ?_) hq
    have h1 := hx.1
    have h2 : 0 < 1 - x := by linarith [hx.2]
    positivity
  exact div_pos (hp h0 h1.le) (hp one_pos le_rfl)

theorem incBeta_mem {p : ℝ} (h0 : 0 < p) (h1 : p < 1) (a b : ℕ) : 0 < incBeta p a b ∧ incBeta p a b < 1 := by
  refine ⟨incBeta_pos h0 h1 a b, ?_⟩
  have h := incBeta_pos (show 0 < 1 - p by linarith) (by linarith) b a
  rw [incBeta_symm] at h
  linarith

theorem glenLeemisBarrC_ok {xs : List ℝ} (h : Varies xs) (h2 : 2 ≤ xs.length) :
    glenLeemisBarrC scipyNorm xs = .ok (glenLeemisBarr scipyNorm xs) := by
  have hN : (2 : ℝ) ≤ xs.length := by exact_mod_cast h2
  unfold glenLeemisBarrC glenLeemisBarr
  dsimp only
  rw [standardisedC_ok h h2, ok_bind, ← phiz]
  set q := sort ((phiz scipyNorm xs).mapIdx fun i p => scipyNorm.betaCdf p (i + 1) (xs.length - (i + 1) + 1)) with hq
  have hl : q.length = xs.length := by rw [hq, length_sort, List.length_mapIdx, length_phiz]
  rw [mapM_ok (g := fun i : ℕ => (2 * (xs.length : ℝ) + 1 - 2 * ((i : ℝ) + 1)) * Real.log (at_ q i) +
    (2 * ((i : ℝ) + 1) - 1) * Real.log (1 - at_ q i)) fun i hi => ?_, ok_bind, sum_list_range, sum_mapIdx_at,
    hl, pdiv_ok (by linarith), ok_bind]
  · rfl
  · have hi' : i < q.length := by rw [hl]; exact List.mem_range.1 hi
    have hm : 0 < at_ q i ∧ at_ q i < 1 := by
      rw [at_, List.getD_eq_getElem _ _ hi']
      have hm := (sort_perm _).mem_iff.1 (List.getElem_mem hi')
      obtain ⟨j, hj, e⟩ := List.mem_mapIdx.1 hm
      rw [← e]
      obtain ⟨p0, p1⟩ := phiz_mem scipyNorm_mirror (List.getElem_mem hj)
      exact incBeta_mem p0 p1 _ _
    rw [plog_ok hm.1, ok_bind, plog_ok (sub_pos.2 hm.2), ok_bind]
    rfl

/-! ### Zhang's Q -/

theorem zqQuotientsC_ok {u : ℕ → ℝ} {n : ℕ} (hn : 8 ≤ n) (hu : ∀ i j, i < j → j < n → u i < u j) :
    zqQuotientsC u n = .ok () := by
  have hN : (8 : ℝ) ≤ n := by exact_mod_cast hn
  unfold zqQuotientsC
  rw [mapM_ok fun k hk => pdiv_ok (mul_pos (by linarith) (sub_pos.2 (hu 0 (k + 1) (by omega)
      (by have := List.mem_range.1 hk; omega)))).ne', ok_bind,
    mapM_ok fun k hk => pdiv_ok (mul_neg_of_pos_of_neg (by linarith) (sub_neg.2 (hu k (k + 4) (by omega)
      (by have := List.mem_range.1 hk; omega)))).ne, ok_bind]
  rfl

theorem zqA_pos {u : ℕ → ℝ} {l : List ℝ} {n : ℕ} (hl : l.length = n) (hn : 8 ≤ n)
    (hu : ∀ i j, i < j → j < n → u i < u j) (hm : ∀ i j, i ≤ j → j < n → at_ l i ≤ at_ l j)
    (hv : at_ l 0 < at_ l (n - 1)) : 0 < dot (zqA u n) l := by
  have hN : (8 : ℝ) ≤ n := by exact_mod_cast hn
  rw [zqA_dot u hl (by omega)]
  refine div_pos (Finset.sum_pos' (fun i hi => ?_) ⟨n - 2, by simp; omega, ?_⟩) (by linarith)
  · have hi := Finset.mem_range.1 hi
    exact div_nonneg (sub_nonneg.2 (hm _ _ (by omega) (by omega))) (sub_nonneg.2 (hu _ _ (by omega) (by omega)).le)
  · rw [show n - 2 + 1 = n - 1 by omega]
    exact div_pos (sub_pos.2 hv) (sub_pos.2 (hu _ _ (by omega) (by omega)))

theorem zqB_pos {u : ℕ → ℝ} {l : List ℝ} {n : ℕ} (hl : l.length = n) (hn : 8 ≤ n)
    (hu : ∀ i j, i < j → j < n → u i < u j) (hs : ∀ i < n, u (n - 1 - i) = -u i)
    (hm : ∀ i j, i ≤ j → j < n → at_ l i ≤ at_ l j)
    (hv : at_ l 0 < at_ l (n - 1)) : 0 < dot (zqB u n) l := by
  have hN : (8 : ℝ) ≤ n := by exact_mod_cast hn
  rw [zqB_dot hl hn hs]
  have hnn : ∀ i ∈ Finset.range (n - 4), 0 ≤ (at_ l (i + 4) - at_ l i) / (u (i + 4) - u i) := fun i hi => by
    have hi := Finset.mem_range.1 hi
    exact div_nonneg (sub_nonneg.2 (hm _ _ (by omega) (by omega))) (sub_nonneg.2 (hu _ _ (by omega) (by omega)).le)
  refine div_pos (lt_of_le_of_ne (Finset.sum_nonneg hnn) fun e => ?_) (by linarith)
  have hz := (Finset.sum_eq_zero_iff_of_nonneg hnn).1 e.symm
  have he : ∀ i, i + 4 < n → at_ l (i + 4) = at_ l i := fun i hi => by
    have := hz i (Finset.mem_range.2 (by omega))
    rw [div_eq_zero_iff] at this
    have hne := sub_pos.2 (hu i (i + 4) (by omega) (by omega))
    rcases this with h | h
    · linarith
    · exact absurd h hne.ne'
  have hstep : ∀ i, i < n → at_ l i = at_ l 0 := fun i => by
    induction i using Nat.strong_induction_on with
    | _ i ih =>
      intro hi
      by_cases h4 : i < 4
      · exact le_antisymm ((hm i 4 (by omega) (by omega)).trans (by rw [← he 0 (by omega)])) (hm 0 i (by omega) hi)
      · rw [← ih (i - 4) (by omega) (by omega), ← he (i - 4) (by omega), show i - 4 + 4 = i by omega]
  exact hv.ne (hstep (n - 1) (by omega)).symm

theorem zqA_congr {u v : ℕ → ℝ} {l : List ℝ} {n : ℕ} (hl : l.length = n) (hn : 8 ≤ n) (h : ∀ i < n, u i = v i) :
    dot (zqA u n) l = dot (zqA v n) l := by
  rw [zqA_dot u hl (by omega), zqA_dot v hl (by omega)]
  congr 1
  exact Finset.sum_congr rfl fun i hi => by
    have := Finset.mem_range.1 hi
    rw [h _ (by omega), h 0 (by omega)]

theorem zqB_congr {u v : ℕ → ℝ} {l : List ℝ} {n : ℕ} (hl : l.length = n) (hn : 8 ≤ n) (h : ∀ i < n, u i = v i)
    (hs : ∀ i < n, v (n - 1 - i) = -v i) : dot (zqB u n) l = dot (zqB v n) l := by
  rw [zqB_dot hl hn fun i hi => by rw [h _ (by omega), h _ hi, hs i hi], zqB_dot hl hn hs]
  congr 1
  exact Finset.sum_congr rfl fun i hi => by
    have := Finset.mem_range.1 hi
    rw [h _ (by omega), h i (by omega)]

theorem zhangQC_ok {xs : List ℝ} (h : Varies xs) : zhangQC scipyNorm xs = zhangQ scipyNorm xs := by
  have hu : ∀ i j, i < j → j < xs.length →
    scipyNorm.ppf (blom xs.length i) < scipyNorm.ppf (blom xs.length j) := fun i j hij hj => score_lt hij hj
  have hs : ∀ i < xs.length, scipyNorm.ppf (blom xs.length (xs.length - 1 - i)) = -scipyNorm.ppf (blom xs.length i) :=
    fun i hi => ppf_blom scipyNorm_symmetric hi
  have he : ∀ i < xs.length, at_ ((List.range xs.length).map fun i => scipyNorm.ppf (blom xs.length i)) i =
    scipyNorm.ppf (blom xs.length i) := fun i hi => by rw [at_range_map, if_pos hi]
  have hl := length_sort xs
  unfold zhangQC zhangQ
  dsimp only
  rw [scoresC_ok fun i hi => blom_mem hi, ok_bind]
  by_cases h8 : xs.length < 8
  · rw [if_pos h8, if_pos h8]
  have hm : ∀ i j, i ≤ j → j < xs.length → at_ (sort xs) i ≤ at_ (sort xs) j := fun i j hij hj =>
    at_sort_mono xs hij (by omega)
  have hv := varies_iff_sort.1 h
  have hA := zqA_pos hl (not_lt.1 h8) hu hm hv
  have hB := zqB_pos hl (not_lt.1 h8) hu hs hm hv
  rw [if_neg h8, if_neg h8, zqQuotientsC_ok (not_lt.1 h8) (fun i j hij hj => by
    rw [he i (by omega), he j hj]; exact hu i j hij hj), ok_bind, zqA_congr hl (not_lt.1 h8) he,
    zqB_congr hl (not_lt.1 h8) he hs, pdiv_ok hB.ne', ok_bind, plog_ok (div_pos hA hB)]

theorem dot_reverse_mirror (c : ℕ → ℝ) (xs : List ℝ) : -dot c (sort xs).reverse = dot c (sort (mirror xs)) := by
  rw [Normal.sort_mirror, mirror, ← List.map_reverse, dot_at, dot_at, ← Finset.sum_neg_distrib, List.length_map]
  refine Finset.sum_congr rfl fun i _ => ?_
  rw [show ((sort xs).reverse.map fun x => -x) = mirror (sort xs).reverse from rfl, Normal.at_mirror]
  ring

theorem zhangQStarC_ok {xs : List ℝ} (h : Varies xs) : zhangQStarC scipyNorm xs = zhangQStar scipyNorm xs := by
  have hm : Varies (mirror xs) := by
    obtain ⟨x, hx, y, hy, hxy⟩ := h
    exact ⟨-x, List.mem_map_of_mem hx, -y, List.mem_map_of_mem hy, fun e => hxy (neg_inj.1 e)⟩
  have := zhangQC_ok hm
  unfold zhangQC zhangQ at this
  unfold zhangQStarC zhangQStar
  simp only [length_mirror, dot_reverse_mirror] at this ⊢
  exact this

/-! ### Coin -/

theorem nscor2C_ok {n i : ℕ} (hn : 4 ≤ n) (hi : i < n / 2) : nscor2C scipyNorm n i = .ok (nscor2 scipyNorm n i) := by
  obtain ⟨p0, p1⟩ := coinP_mem hn hi
  have hN : (4 : ℝ) ≤ n := by exact_mod_cast hn
  have hi0 : (0 : ℝ) ≤ i := Nat.cast_nonneg i
  rw [nscor2_eq]
  simp only [nscor2C]
  simp only [coinP] at p0 p1 ⊢
  have hj : (if i < min 3 (n / 2) then i else 3) < 4 := by split <;> omega
  set j := (if i < min 3 (n / 2) then i else 3) with hjd
  have hg : 0 < at_ [0.474798, 0.469051, 0.208597, 0.259784] j ∧
      at_ [0.419885, 0.450536, 0.456936, 0.468488] j < 1 := by
    interval_cases j <;> norm_num [at_]
  have hd : (0 : ℝ) < n + at_ [0.474798, 0.469051, 0.208597, 0.259784] j := by linarith [hg.1]
  have hnum : 0 < (i : ℝ) + 1 - at_ [0.419885, 0.450536, 0.456936, 0.468488] j := by linarith [hg.2]
  have hc : (0 : ℝ) < (i : ℝ) + 1 + -0.106136 := by norm_num; linarith
  rw [pdiv_ok hd.ne', ok_bind]
  by_cases hk : i < min 3 (n / 2)
  · simp only [if_pos hk] at p0 p1 ⊢
    rw [ppow_ok (div_pos hnum hd).le, ok_bind, pdiv_ok (by linarith), ok_bind, pppf_ok p0 (p1.trans (by norm_num)), ok_bind]
    rfl
  · simp only [if_neg hk] at p0 p1 ⊢
    rw [pdiv_ok hc.ne', ok_bind, ppow_ok (div_pos hnum hd).le, ok_bind, pdiv_ok (by linarith), ok_bind,
      pppf_ok p0 (p1.trans (by norm_num)), ok_bind]
    rfl

theorem coinC_ok {xs : List ℝ} (h : Varies xs) (h4 : 4 ≤ xs.length) : coinC scipyNorm xs = .ok (Normal.coin scipyNorm xs) := by
  obtain ⟨h1, h2⟩ := coinA_scores (n := xs.length) h4
  have hv : 0 < var1' xs := by
    rw [← Real.sqrt_pos, var1'_spec h.ne_nil]
    have := Real.sqrt_pos.2 (var1_pos h (by omega))
    unfold var1 at this
    rw [mean_spec] at this
    exact this
  unfold coinC Normal.coin
  dsimp only
  rw [psqrt_ok hv.le, ok_bind, mapM_ok fun x _ => pdiv_ok (Real.sqrt_pos.2 hv).ne', ok_bind,
    mapM_ok fun i hi => nscor2C_ok h4 (List.mem_range.1 hi), ok_bind]
  set b : ℕ → ℝ := fun i => if i < xs.length / 2 then -at_ ((List.range (xs.length / 2)).map fun i =>
      nscor2 scipyNorm xs.length i) i
    else if xs.length % 2 = 1 ∧ i = xs.length / 2 then 0 else
      at_ ((List.range (xs.length / 2)).map fun i => nscor2 scipyNorm xs.length i) (xs.length - i - 1) with hb
  have ea : ∀ i < xs.length, b i = coinA scipyNorm xs.length i := fun i hi => by
    rw [hb]
    unfold coinA
    dsimp only
    split_ifs with a b
    · rw [at_range_map, if_pos a]
    · rfl
    · rw [at_range_map, if_pos (by omega)]
  set a := coinA scipyNorm xs.length with ha
  have hcs := cauchy_scores (n := xs.length) (a := fun i => a (i - 1)) ⟨1, by simp; omega, 2, by simp; omega, by
    norm_num
    rw [abs_of_neg (h1.trans h2), abs_of_neg h2]
    exact ⟨(h1.trans h2).ne, h2.ne, fun h => by linarith⟩⟩
  have hI : ∀ k : ℕ, ∑ i ∈ Finset.Icc 1 xs.length, a (i - 1) ^ k = ∑ i ∈ Finset.range xs.length, a i ^ k := fun k => by
    rw [sum_range_Icc]
  simp only [hI] at hcs
  have hsum : ∀ k : ℕ, ∑ i ∈ Finset.range xs.length, b i ^ k = ∑ i ∈ Finset.range xs.length, a i ^ k :=
    fun k => Finset.sum_congr rfl fun i hi => by rw [ea i (Finset.mem_range.1 hi)]
  have hz : (sort (xs.map fun x => (x - mean xs) / √(var1' xs))).length = xs.length := by simp [length_sort]
  change (pdiv ((∑ i ∈ Finset.range xs.length, b i ^ 4) * dot b _ - (∑ i ∈ Finset.range xs.length, b i ^ 2) *
    dot (fun i => b i ^ 3) _) ((∑ i ∈ Finset.range xs.length, b i ^ 4) * (∑ i ∈ Finset.range xs.length, b i ^ 4) -
    (∑ i ∈ Finset.range xs.length, b i ^ 2) * (∑ i ∈ Finset.range xs.length, b i ^ 6)) >>= _) = _
  rw [hsum 4, hsum 2, hsum 6, dot_congr (c := b) (d := a) fun i hi => ea i (by omega),
    dot_congr (c := fun i => b i ^ 3) (d := fun i => a i ^ 3) fun i hi => by rw [ea i (by omega)],
    pdiv_ok (by nlinarith), ok_bind]
  rfl

/-! ### Shapiro and Wilk -/

/-- The numerator and the denominator of `phi` in `ordered_statistic` are positive. -/
theorem royston_phi {n : ℕ} (hn : 3 < n) {m a : ℕ → ℝ}
    (hm : NormalScores n (position (3 / 8) n) m) (ha : RoystonWeights n m a) {w w1 : ℝ}
    (hw : w = polyval [-2.706056, 4.434685, -2.071190, -0.147981, 0.221157,
      scipyNorm.ppf (blom n (n - 1)) / √(∑ k ∈ Finset.range n, scipyNorm.ppf (blom n k) ^ 2)] (1 / √n))
    (hw1 : w1 = polyval [-3.582633, 5.682633, -1.752461, -0.293762, 0.042981,
      scipyNorm.ppf (blom n (n - 2)) / √(∑ k ∈ Finset.range n, scipyNorm.ppf (blom n k) ^ 2)] (1 / √n)) :
    (n ≤ 5 → 0 < ∑ k ∈ Finset.range n, scipyNorm.ppf (blom n k) ^ 2 - 2 * scipyNorm.ppf (blom n (n - 1)) ^ 2 ∧
      0 < 1 - 2 * w ^ 2) ∧
    (5 < n → 0 < ∑ k ∈ Finset.range n, scipyNorm.ppf (blom n k) ^ 2 - 2 * scipyNorm.ppf (blom n (n - 1)) ^ 2 -
        2 * scipyNorm.ppf (blom n (n - 2)) ^ 2 ∧ 0 < 1 - 2 * w ^ 2 - 2 * w1 ^ 2) := by
  subst hw hw1
  have e : ∀ j : ℕ, 1 ≤ j → j ≤ n → scipyNorm.ppf (blom n (j - 1)) = m j := by
    intro j hj hj'
    have : blom n (j - 1) = position (3 / 8) n j := by
      have hc : (((j - 1 : ℕ) : ℝ) + 1) = j := by exact_mod_cast Nat.sub_add_cancel hj
      rw [blom, position, hc]
      congr 1
      ring
    rw [this]
    exact ppf_scores hm hj hj'
  have hm2 : ∑ k ∈ Finset.range n, scipyNorm.ppf (blom n k) ^ 2 = ∑ i ∈ Finset.Icc 1 n, m i ^ 2 := by
    rw [sum_range_Icc n fun k => scipyNorm.ppf (blom n k) ^ 2]
    exact Finset.sum_congr rfl fun i hi => by
      obtain ⟨h1, h2⟩ := Finset.mem_Icc.1 hi
      rw [e i h1 h2]
  have en : scipyNorm.ppf (blom n (n - 1)) = m n := e n (by omega) le_rfl
  have en1 : scipyNorm.ppf (blom n (n - 2)) = m (n - 1) := by
    have := e (n - 1) (by omega) (by omega)
    rwa [show n - 1 - 1 = n - 2 by omega] at this
  have hsym := scores_symm hm
  obtain ⟨s, hs, hinner⟩ := ha.inner
  have hneg := scores_ne_zero hn hm
  have hwn := ha.last _ rfl
  set M := ∑ i ∈ Finset.Icc 1 n, m i ^ 2 with hM
  rw [hm2, en, en1]
  have hpoly : polyval [-2.706056, 4.434685, -2.071190, -0.147981, 0.221157, m n / √M] (1 / √n) = a n := by
    rw [hwn]
    simp only [polyval, List.foldl]
    ring
  have ha1 : a 1 = -a n := by
    have := ha.antisymmetric n (by omega) le_rfl
    rwa [Nat.add_sub_cancel_left] at this
  have hm1 : m 1 = -m n := by
    have := hsym n (by omega) le_rfl
    rwa [Nat.add_sub_cancel_left] at this
  have hu := ha.unit
  rw [hpoly]
  by_cases h5 : n ≤ 5
  · refine ⟨fun _ => ?_, fun h => absurd h5 (by omega)⟩
    simp only [h5, if_true] at hinner hneg
    have hS : ∀ k ∈ Finset.Icc 2 (n - 1), a k = m k / s := fun k hk =>
      hinner k (by have := Finset.mem_Icc.1 hk; omega)
    have hsum := sum_ends (by omega : 3 ≤ n) fun i => a i ^ 2
    have hsum' := sum_ends (by omega : 3 ≤ n) fun i => m i ^ 2
    rw [royston_inner hs _ hS] at hsum
    simp only [ha1, hm1, ← hM, hu, neg_sq] at hsum hsum'
    set I := ∑ i ∈ Finset.Icc 2 (n - 1), m i ^ 2 with hI
    have hIpos : 0 < I := lt_of_lt_of_le (pow_pos (neg_pos.2 hneg) 2 |>.trans_eq (neg_sq _))
      (Finset.single_le_sum (f := fun i => m i ^ 2) (fun i _ => sq_nonneg _) (by simp; omega))
    have e1 : M - 2 * m n ^ 2 = I := by linarith
    have e2 : 1 - 2 * a n ^ 2 = I / s ^ 2 := by linarith
    rw [e1, e2]
    exact ⟨hIpos, by positivity⟩
  · refine ⟨fun h => absurd h h5, fun _ => ?_⟩
    simp only [h5, if_false] at hinner hneg
    have hwn1 := ha.second (by omega) _ rfl
    have hpoly1 : polyval [-3.582633, 5.682633, -1.752461, -0.293762, 0.042981, m (n - 1) / √M]
        (1 / √n) = a (n - 1) := by
      rw [hwn1]
      simp only [polyval, List.foldl]
      ring
    have ha2 : a 2 = -a (n - 1) := by
      have := ha.antisymmetric (n - 1) (by omega) (by omega)
      rwa [show n + 1 - (n - 1) = 2 by omega] at this
    have hm2' : m 2 = -m (n - 1) := by
      have := hsym (n - 1) (by omega) (by omega)
      rwa [show n + 1 - (n - 1) = 2 by omega] at this
    have hin : ∀ f : ℕ → ℝ, ∑ i ∈ Finset.Icc 2 (n - 1), f i =
        f 2 + f (n - 1) + ∑ i ∈ Finset.Icc 3 (n - 2), f i := by
      intro f
      obtain ⟨k, rfl⟩ : ∃ k, n = k + 3 := ⟨n - 3, by omega⟩
      rw [show k + 3 - 1 = k + 1 + 1 by omega, Finset.sum_Icc_succ_top (by omega),
        ← Finset.add_sum_Ioc_eq_sum_Icc (by omega)]
      have : Finset.Ioc 2 (k + 1) = Finset.Icc 3 (k + 3 - 2) := by ext; simp; omega
      rw [this]
      ring
    have hsum := sum_ends (by omega : 3 ≤ n) fun i => a i ^ 2
    have hsum' := sum_ends (by omega : 3 ≤ n) fun i => m i ^ 2
    rw [hin] at hsum hsum'
    have hS : ∀ k ∈ Finset.Icc 3 (n - 2), a k = m k / s := fun k hk =>
      hinner k (by have := Finset.mem_Icc.1 hk; omega)
    rw [royston_inner hs _ hS] at hsum
    simp only [ha1, hm1, ha2, hm2', ← hM, hu, neg_sq] at hsum hsum'
    set I := ∑ i ∈ Finset.Icc 3 (n - 2), m i ^ 2 with hI
    have hIpos : 0 < I := lt_of_lt_of_le (pow_pos (neg_pos.2 hneg) 2 |>.trans_eq (neg_sq _))
      (Finset.single_le_sum (f := fun i => m i ^ 2) (fun i _ => sq_nonneg _) (by simp; omega))
    have e1 : M - 2 * m n ^ 2 - 2 * m (n - 1) ^ 2 = I := by linarith
    have e2 : 1 - 2 * a n ^ 2 - 2 * a (n - 1) ^ 2 = I / s ^ 2 := by linarith
    rw [hpoly1, e1, e2]
    exact ⟨hIpos, by positivity⟩

theorem at_ends {n i : ℕ} (hn : 3 < n) (hi : i < n) (f : ℕ → ℝ) (a b : ℝ) :
    at_ ([a] ++ ((List.range (n - 2)).map fun k => f (k + 1)) ++ [b]) i =
      if i = 0 then a else if i = n - 1 then b else f i := by
  rcases i with _ | i
  · simp [at_]
  · rw [if_neg (by omega)]
    by_cases h : i < n - 2
    · rw [if_neg (by omega), at_, List.getD_eq_getElem _ _ (by simp; omega)]
      simp [List.getElem_append, h]
    · rw [if_pos (by omega), at_, List.getD_eq_getElem _ _ (by simp; omega)]
      simp [List.getElem_append, h]

theorem at_ends2 {n i : ℕ} (hn : 5 < n) (hi : i < n) (f : ℕ → ℝ) (a a' b' b : ℝ) :
    at_ ([a, a'] ++ ((List.range (n - 4)).map fun k => f (k + 2)) ++ [b', b]) i =
      if i = 0 then a else if i = 1 then a' else if i = n - 2 then b' else if i = n - 1 then b else f i := by
  rcases i with _ | _ | i
  · simp [at_]
  · simp [at_]
  · rw [if_neg (by omega), if_neg (by omega)]
    by_cases h : i < n - 4
    · rw [if_neg (by omega), if_neg (by omega), at_, List.getD_eq_getElem _ _ (by simp; omega)]
      simp [List.getElem_append, h]
    · obtain rfl | rfl : i = n - 4 ∨ i = n - 3 := by omega
      · rw [if_pos (by omega), at_, List.getD_eq_getElem _ _ (by simp)]
        simp [List.getElem_append]
      · rw [if_neg (by omega), if_pos (by omega), at_, List.getD_eq_getElem _ _ (by simp; omega)]
        simp [List.getElem_append, show ¬ n - 3 < n - 4 by omega, show n - 3 - (n - 4) = 1 by omega]

theorem swWeightsC_ok {n : ℕ} (hn : 3 < n) : ∃ a, swWeightsC scipyNorm n = .ok a ∧
    ∀ i < n, at_ a i = swCoef scipyNorm n i := by
  have hm : NormalScores n (position (3 / 8) n) fun i => PhiInv (position (3 / 8) n i) :=
    exists_scores fun i h1 h2 => position_mem (by norm_num) h1 h2
  obtain ⟨w, hw⟩ := exists_royston hn hm
  obtain ⟨c1, c2⟩ := royston_phi hn hm hw rfl rfl
  have hN : (0 : ℝ) < √n := Real.sqrt_pos.2 (by exact_mod_cast (by omega : 0 < n))
  have h0 : scipyNorm.ppf (blom n 0) < 0 := score_neg (by omega)
  have hM : 0 < ∑ k ∈ Finset.range n, scipyNorm.ppf (blom n k) ^ 2 :=
    lt_of_lt_of_le (show 0 < scipyNorm.ppf (blom n 0) ^ 2 by nlinarith)
      (Finset.single_le_sum (f := fun i => scipyNorm.ppf (blom n i) ^ 2) (fun i _ => sq_nonneg _) (by simp; omega))
  have hat : ∀ i < n, at_ ((List.range n).map fun i => scipyNorm.ppf (blom n i)) i = scipyNorm.ppf (blom n i) :=
    fun i hi => by rw [at_range_map, if_pos hi]
  have hsum : (((List.range n).map fun i => scipyNorm.ppf (blom n i)).map (· ^ 2)).sum =
      ∑ k ∈ Finset.range n, scipyNorm.ppf (blom n k) ^ 2 := by
    rw [List.map_map, sum_list_range]; rfl
  unfold swWeightsC
  rw [if_neg (by omega), scoresC_ok fun i hi => blom_mem hi, ok_bind]
  dsimp only
  rw [hsum, hat (n - 1) (by omega), hat (n - 2) (by omega), psqrt_ok hM.le, ok_bind, pdiv_ok (Real.sqrt_pos.2 hM).ne', ok_bind,
    pdiv_ok (Real.sqrt_pos.2 hM).ne', ok_bind, pdiv_ok hN.ne', ok_bind]
  by_cases h5 : n ≤ 5
  · obtain ⟨p1, p2⟩ := c1 h5
    have hphi := div_pos p1 p2
    rw [if_pos h5, pdiv_ok p2.ne', ok_bind, psqrt_ok hphi.le, ok_bind,
      mapM_ok fun k _ => pdiv_ok (Real.sqrt_pos.2 hphi).ne', ok_bind]
    refine ⟨_, rfl, fun i hi => ?_⟩
    rw [at_ends hn hi (fun k => at_ ((List.range n).map fun i => scipyNorm.ppf (blom n i)) k / _)]
    simp only [swCoef, if_neg (show n ≠ 3 by omega), if_pos h5, hat i hi]
  · obtain ⟨p1, p2⟩ := c2 (by omega)
    have hphi := div_pos p1 p2
    rw [if_neg h5, pdiv_ok p2.ne', ok_bind, psqrt_ok hphi.le, ok_bind,
      mapM_ok fun k _ => pdiv_ok (Real.sqrt_pos.2 hphi).ne', ok_bind]
    refine ⟨_, rfl, fun i hi => ?_⟩
    rw [at_ends2 (by omega) hi (fun k => at_ ((List.range n).map fun i => scipyNorm.ppf (blom n i)) k / _)]
    simp only [swCoef, if_neg (show n ≠ 3 by omega), if_neg h5, hat i hi]

theorem shapiroWilkC_ok {xs : List ℝ} (h : Varies xs) (h3 : 3 ≤ xs.length) :
    shapiroWilkC scipyNorm xs = Normal.shapiroWilk scipyNorm xs := by
  have hs := (sumsq_pos h (mean xs)).ne'
  unfold shapiroWilkC Normal.shapiroWilk
  rw [if_neg (by omega), if_neg (by omega), if_neg (by omega), if_neg (by omega)]
  have hw : ∃ a, swWeightsC scipyNorm xs.length = .ok a ∧ ∀ i < xs.length, at_ a i = swCoef scipyNorm xs.length i := by
    rcases h3.eq_or_lt with e | e
    · rw [← e]
      refine ⟨_, rfl, fun i hi => ?_⟩
      interval_cases i <;> simp [swCoef, at_]
    · exact swWeightsC_ok e
  obtain ⟨a, ha, hc⟩ := hw
  rw [ha, ok_bind, dot_congr fun i hi => hc i (by rwa [length_sort] at hi), pdiv_ok hs]

/-! ### Kurtosis -/

theorem kurtosisZC_ok {n E V A b : ℝ} (hn : 5 ≤ n) (h : AnscombeGlynn n E V A) :
    (1 + (b - E) / √V * √(2 / (A - 4)) ≠ 0 → kurtosisZC n b = .ok (kurtosisZ n b)) ∧
    (1 + (b - E) / √V * √(2 / (A - 4)) = 0 → kurtosisZC n b = .error .zeroDivisionError) := by
  set sb : ℝ := 6 * (n * n - 5 * n + 2) / ((n + 7) * (n + 9)) *
      √((6 * (n + 3) * (n + 5)) / (n * (n - 2) * (n - 3))) with hsb
  obtain ⟨e, hA, hV⟩ := kurtosis_param hn h hsb
  have hd : 0 < n * (n - 2) * (n - 3) := mul_pos (mul_pos (by linarith) (by linarith)) (by linarith)
  have hq : 0 < (6 * (n + 3) * (n + 5)) / (n * (n - 2) * (n - 3)) := div_pos (by positivity) hd
  have hc : 0 < 6 * (n * n - 5 * n + 2) / ((n + 7) * (n + 9)) :=
    div_pos (by nlinarith) (by positivity)
  have hsb0 : 0 < sb := mul_pos hc (Real.sqrt_pos.2 hq)
  have hV' := hV
  rw [h.var, show (n + 1) ^ 2 * (n + 3) * (n + 5) = (n + 1) * (n + 1) * (n + 3) * (n + 5) by ring] at hV'
  have hmean := h.mean
  have hvar : V = 24 * n * (n - 2) * (n - 3) / ((n + 1) * (n + 1) * (n + 3) * (n + 5)) := by
    rw [h.var]; congr 1; ring
  have key : kurtosisZC n b = (pdiv (1 - 2 / A) |1 + (b - E) / √V * √(2 / (A - 4))| >>= fun r =>
      ppow r (1 / 3) >>= fun root => psqrt (2 / (9 * A)) >>= fun sf =>
      pdiv (1 - 2 / (9 * A) - Real.sign (1 + (b - E) / √V * √(2 / (A - 4))) * root) sf) := by
    unfold kurtosisZC
    rw [pdiv_ok (by linarith), ok_bind, pdiv_ok (by positivity), ok_bind, psqrt_ok hV'.le, ok_bind,
      pdiv_ok (Real.sqrt_pos.2 hV').ne', ok_bind, pdiv_ok (by positivity), ok_bind, pdiv_ok hd.ne', ok_bind,
      psqrt_ok hq.le, ok_bind]
    dsimp only
    rw [← hsb, pdiv_ok hsb0.ne', ok_bind, pdiv_ok hsb0.ne', ok_bind, pdiv_ok (by positivity), ok_bind,
      psqrt_ok (by positivity), ok_bind, e, pdiv_ok (by linarith), ok_bind, pdiv_ok (by linarith), ok_bind,
      psqrt_ok (div_pos two_pos (by linarith)).le, ok_bind, pdiv_ok (by linarith), ok_bind, ← hmean, ← hvar]
  have ha : 0 < 1 - 2 / A := sub_pos.2 ((div_lt_one (by linarith)).2 (by linarith))
  constructor <;> intro hD
  · rw [key, pdiv_ok (abs_pos.2 hD).ne', ok_bind, ppow_ok (div_nonneg ha.le (abs_nonneg _)), ok_bind,
      psqrt_ok (by positivity), ok_bind, pdiv_ok (Real.sqrt_pos.2 (by positivity)).ne', kurtosisZ_spec hn h rfl]
  · rw [key, hD, abs_zero, pdiv_zero]
    rfl

theorem kurtosisTestC_eq {xs : List ℝ} (h : Varies xs) (h5 : 5 ≤ xs.length) :
    kurtosisTestC xs = kurtosisZC xs.length (kurtosis xs) := by
  unfold kurtosisTestC
  rw [if_neg (by omega), kurtC_ok (varies_sort h), ok_bind, kurt_perm (sort_perm xs), kurt_spec]

theorem kurtosisTest_eq {xs : List ℝ} (h5 : 5 ≤ xs.length) :
    kurtosisTest xs = .ok (kurtosisZ xs.length (kurtosis xs)) := by
  unfold kurtosisTest
  rw [if_neg (by omega), kurt_perm (sort_perm xs), kurt_spec]

/-- **C110 (partial)**: the kurtosis criterion and the D'Agostino-Pearson statistic are defined unless the
kurtosis of the sample is the one value at which the transform of Anscombe and Glynn has its pole. -/
theorem C110_kurtosis_partial (lib : NormLib) {xs : List ℝ} (h : Varies xs) (h5 : 5 ≤ xs.length) {E V A : ℝ}
    (hA : AnscombeGlynn xs.length E V A) (hD : 1 + (kurtosis xs - E) / √V * √(2 / (A - 4)) ≠ 0) :
    NormStat.kurtosis.checked lib xs = NormStat.kurtosis.value lib xs ∧
      NormStat.dap.checked lib xs = NormStat.dap.value lib xs := by
  have h5' : (5 : ℝ) ≤ xs.length := by exact_mod_cast h5
  have e : kurtosisTestC xs = kurtosisTest xs := by
    rw [kurtosisTestC_eq h h5, (kurtosisZC_ok h5' hA).1 hD, kurtosisTest_eq h5]
  simp only [NormStat.checked, NormStat.value, dapC, Normal.dap]
  rw [e, skewTestC_ok h]
  exact ⟨rfl, rfl⟩

theorem anscombeGlynn_hundred {E V A : ℝ} (h : AnscombeGlynn 100 E V A) :
    1 + (1 - E) / √V * √(2 / (A - 4)) < 0 ∧
      ∀ k, 3 < k → 0 < 1 + (k - E) / √V * √(2 / (A - 4)) := by
  obtain ⟨-, hA, hV⟩ := kurtosis_param (by norm_num) h rfl
  have hV' : 0 < √V := Real.sqrt_pos.2 hV
  have hr : 0 < √(2 / (A - 4)) := Real.sqrt_pos.2 (div_pos two_pos (by linarith))
  have hEv : E = 297 / 101 := by rw [h.mean]; norm_num
  refine ⟨?_, fun k hk => ?_⟩
  swap
  · have : 0 ≤ (k - E) / √V * √(2 / (A - 4)) := mul_nonneg (div_nonneg (by rw [hEv]; linarith) hV'.le) hr.le
    linarith
  have hA' : A < 28 := by
    obtain ⟨s, hs, h2, hA⟩ := h.param
    set u := 1 / s with hu
    have hu0 : 0 < u := by positivity
    have hu2 : u ^ 2 < 614 / 1000 := by
      rw [hu, div_pow, one_pow, one_div, inv_lt_comm₀ (by positivity) (by norm_num), h2]
      norm_num
    have e1 : 8 / s = 8 * u := by rw [hu]; ring
    have e2 : 2 / s = 2 * u := by rw [hu]; ring
    have e3 : 4 / s ^ 2 = 4 * u ^ 2 := by rw [hu]; field_simp
    have hu1 : u < 784 / 1000 := by nlinarith
    have hr : √(1 + 4 * u ^ 2) < 186 / 100 := by
      refine (Real.sqrt_lt' (by norm_num)).2 ?_
      linarith
    rw [hA, e1, e2, e3]
    have h0 := Real.sqrt_nonneg (1 + 4 * u ^ 2)
    have : u * √(1 + 4 * u ^ 2) ≤ 784 / 1000 * (186 / 100) :=
      mul_le_mul hu1.le hr.le h0 (by norm_num)
    nlinarith
  have h1 : √V * √((A - 4) / 2) < E - 1 := by
    rw [← Real.sqrt_mul hV.le]
    refine (Real.sqrt_lt' (by rw [hEv]; norm_num)).2 ?_
    have : V * ((A - 4) / 2) < V * 12 := mul_lt_mul_of_pos_left (by linarith) hV
    refine this.trans ?_
    rw [h.var, hEv]
    norm_num
  have h2 : √(2 / (A - 4)) = 1 / √((A - 4) / 2) := by
    rw [← Real.sqrt_one, ← Real.sqrt_div zero_le_one, one_div_div]
  have h3 : 0 < √((A - 4) / 2) := Real.sqrt_pos.2 (by linarith)
  rw [h2, mul_one_div, div_div]
  have : 1 < (E - 1) / (√V * √((A - 4) / 2)) := (one_lt_div (by positivity)).2 h1
  have e : (1 - E) / (√V * √((A - 4) / 2)) = -((E - 1) / (√V * √((A - 4) / 2))) := by
    rw [← neg_div]; ring
  rw [e]
  linarith

/-- Fifty observations at zero, forty-nine at `1 - t` and one at one. -/
def pole (t : ℝ) : List ℝ := List.replicate 50 0 ++ (List.replicate 49 (1 - t) ++ [1])

theorem pole_varies (t : ℝ) : Varies (pole t) := ⟨0, by simp [pole], 1, by simp [pole], by norm_num⟩

theorem pole_meanOf (t : ℝ) (f : ℝ → ℝ) : meanOf f (pole t) = (50 * f 0 + (49 * f (1 - t) + f 1)) / 100 := by
  have e : pole t = List.replicate 50 0 ++ (List.replicate 49 (1 - t) ++ [1]) := rfl
  rw [meanOf, e, List.map_append, List.map_append, List.map_replicate, List.map_replicate, List.sum_append, List.sum_append,
    List.sum_replicate, List.sum_replicate, List.length_append, List.length_append, List.length_replicate,
    List.length_replicate]
  norm_num

theorem pole_kurtosis (t : ℝ) : kurtosis (pole t) = Spec.centralMoment 4 (pole t) / Spec.centralMoment 2 (pole t) ^ 2 := by
  rw [kurtosis, show stdDev (pole t) ^ 4 = (stdDev (pole t) ^ 2) ^ 2 by ring, stdDev_sq]

theorem pole_continuous : Continuous fun t => kurtosis (pole t) := by
  simp only [pole_kurtosis]
  have hc : ∀ k, Continuous fun t => Spec.centralMoment k (pole t) := fun k => by
    simp only [Spec.centralMoment, pole_meanOf, id]
    fun_prop
  refine (hc 4).div ((hc 2).pow 2) fun t => pow_ne_zero 2 ?_
  have hp := sumsq_pos (pole_varies t) (meanOf id (pole t))
  rw [Spec.centralMoment, meanOf]
  have : (0 : ℝ) < (pole t).length := by simp [pole]
  exact (div_pos hp this).ne'

/-- **C110 (refuted)**: the kurtosis criterion and the D'Agostino-Pearson statistic divide by zero on some
sample of a hundred observations, with three different values. -/
theorem C110_refuted_kurtosis (lib : NormLib) : ∃ xs : List ℝ, xs.length = 100 ∧ Varies xs ∧
    NormStat.kurtosis.checked lib xs = .error .zeroDivisionError ∧
    NormStat.dap.checked lib xs = .error .zeroDivisionError := by
  obtain ⟨E, V, A, h⟩ := exists_anscombeGlynn (n := 100) (by norm_num)
  obtain ⟨h1, h2⟩ := anscombeGlynn_hundred h
  have k0 : kurtosis (pole 0) = 1 := by
    simp only [pole_kurtosis, Spec.centralMoment, pole_meanOf, id]
    norm_num
  have k1 : 3 < kurtosis (pole 1) := by
    simp only [pole_kurtosis, Spec.centralMoment, pole_meanOf, id]
    norm_num
  have hc : Continuous fun t => 1 + (kurtosis (pole t) - E) / √V * √(2 / (A - 4)) :=
    continuous_const.add (((pole_continuous.sub continuous_const).div_const _).mul continuous_const)
  obtain ⟨t, -, ht⟩ := intermediate_value_Icc zero_le_one hc.continuousOn
    (show (0 : ℝ) ∈ _ from ⟨by rw [k0]; exact h1.le, (h2 _ k1).le⟩)
  have hl : (pole t).length = 100 := by simp [pole]
  have hl' : ((pole t).length : ℝ) = 100 := by rw [hl]; norm_num
  have e : kurtosisTestC (pole t) = .error .zeroDivisionError := by
    rw [kurtosisTestC_eq (pole_varies t) (by omega), hl', (kurtosisZC_ok (by norm_num) h).2 ht]
  refine ⟨pole t, hl, pole_varies t, ?_, ?_⟩ <;> simp only [NormStat.checked, dapC]
  · rw [e]; rfl
  · rw [skewTestC_ok (pole_varies t), skewTest, if_neg (by omega), ok_bind, e]; rfl

/-! ### The property -/

/-- **C110 (partial).** For a sample of four or more observations that are not all equal, no statistic
divides by zero or leaves the domain of a root, a logarithm or a quantile function, except those with
trimmed L-moments, Desgagné-Lafaye, Martinez-Iglewicz, the kurtosis criterion, D'Agostino-Pearson, and
Doornik-Hansen below eight observations.  Missing: these, for which it is false, see below. -/
theorem C110_defined_partial {xs : List ℝ} (h : Varies xs) (h4 : 4 ≤ xs.length)
    (s : NormStat) (hs : s ≠ .hosking2 ∧ s ≠ .hosking3 ∧ s ≠ .hosking4 ∧ s ≠ .desgagneLafaye ∧
      s ≠ .martinezIglewicz ∧ s ≠ .kurtosis ∧ s ≠ .dap) (hd : s = .doornikHansen → 8 ≤ xs.length) :
    s.checked scipyNorm xs = s.value scipyNorm xs := by
  obtain ⟨a1, a2, a3, a4, a5, a6, a7⟩ := hs
  have h2 : 2 ≤ xs.length := by omega
  cases s <;> first | rfl | contradiction | skip
  all_goals simp only [NormStat.checked, NormStat.value]
  · rw [andersonDarlingC_ok _ h h2]; rfl
  · rw [shapiroWilkC_ok h (by omega)]
  · rw [lillieforsC_ok _ h h2]
  · rw [jarqueBeraC_ok h]
  · rw [skewTestC_ok h]
  · rw [filliC_ok h h2]
  · rw [looneyGulledgeC_ok h h2]
  · rw [ryanJoinerC_ok h]
  · rw [shapiroFranciaC_ok h h2]; rfl
  · rw [eppsPulleyC_ok h]; rfl
  · rw [hosking1C_ok h (by omega)]
  · rw [zhangWuCC_ok h h2]
  · rw [zhangWuAC_ok h h2]
  · rw [glenLeemisBarrC_ok h h2]
  · rw [doornikHansenC_ok h (hd rfl)]; rfl
  · rw [robustJarqueBeraC_ok h]; rfl
  · rw [bontempsMeddahi1C_ok h (by omega)]
  · rw [bontempsMeddahi2C_ok h (by omega)]
  · rw [bonettSeierC_ok h]
  · rw [cabanaCabana1C_ok _ h h2]
  · rw [cabanaCabana2C_ok _ h h2]
  · rw [chenShapiroC_ok h h2]
  · rw [zhangQC_ok h]
  · rw [coinC_ok h h4]
  · rw [dagostinoC_ok h]
  · rw [zhangQStarC_ok h]
  · rw [swrgC_ok h h2]
  · rw [gmgC_ok h]
  · rw [spiegelhalterC_ok h (by omega)]

/-- A sample to which it applies. -/
example : Varies ([3, 1, 4, 1] : List ℝ) ∧ 4 ≤ ([3, 1, 4, 1] : List ℝ).length :=
  ⟨⟨3, by simp, 1, by simp, by norm_num⟩, by simp⟩

/-- A sample to which `C110_kurtosis_partial` applies. -/
example : ∃ E V A, AnscombeGlynn (pole 1).length E V A ∧ 5 ≤ (pole 1).length ∧
    1 + (kurtosis (pole 1) - E) / √V * √(2 / (A - 4)) ≠ 0 := by
  obtain ⟨E, V, A, h⟩ := exists_anscombeGlynn (n := 100) (by norm_num)
  have k1 : 3 < kurtosis (pole 1) := by
    simp only [pole_kurtosis, Spec.centralMoment, pole_meanOf, id]
    norm_num
  refine ⟨E, V, A, ?_, by simp [pole], ((anscombeGlynn_hundred h).2 _ k1).ne'⟩
  rw [show ((pole 1).length : ℝ) = 100 by simp [pole]]
  exact h

end Pysatl.Props
