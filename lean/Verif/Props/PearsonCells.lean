import Verif.Spec.Pearson
import Verif.Props.NullMoments
import Verif.Props.Weibull
import Verif.Props.Families
import Verif.Model.Gamma
import Verif.Model.Beta

/-! # C100: Pearson's statistic compares numbers of observations with expected numbers -/

namespace Pysatl.Props

open Pysatl.Graph Pysatl.Normal Pysatl.Edf Pysatl.Uniform Pysatl.Spec Pysatl.Student

theorem count_eq {B : Set ℝ} {xs : List ℝ} {p : ℝ → Bool} (h : ∀ x, p x = true ↔ x ∈ B) :
    xs.countP p = count B xs := by
  unfold count
  refine List.countP_congr fun x _ => ?_
  rw [h x]; simp

theorem histogram_count : ∀ (edges xs : List ℝ),
    histogram edges xs = (List.range (edges.length - 1)).map fun j => count (bin edges j) xs
  | [], _ => rfl
  | [_], _ => rfl
  | e :: e' :: es, xs => by
    have ih := histogram_count (e' :: es) xs
    rw [histogram, ih]
    have hl : (e :: e' :: es).length - 1 = es.length + 1 := by simp
    rw [hl, List.range_succ_eq_map, List.map_cons, List.map_map]
    congr 1
    · refine count_eq fun x => ?_
      unfold bin
      cases es <;> simp
    · have hl' : (e' :: es).length - 1 = es.length := by simp
      rw [hl']
      refine List.map_congr_left fun j _ => ?_
      simp only [Function.comp_apply]
      congr 1
      unfold bin
      simp

theorem pearson_range (k : ℕ) (o e : ℕ → ℝ) :
    pearson ((List.range k).map o) ((List.range k).map e) = ∑ j ∈ Finset.range k, (o j - e j) ^ 2 / e j := by
  unfold pearson
  rw [← sum_list_range]
  congr 1
  exact List.ext_getElem (by simp) fun i h1 h2 => by simp

theorem equalEdges_getD {a b : ℝ} {k j : ℕ} (hj : j ≤ k) :
    (equalEdges a b k).getD j 0 = a + j * ((b - a) / k) := by
  unfold equalEdges
  rw [List.getD_eq_getElem _ _ (by simp; omega)]
  simp

theorem bin_equalEdges {a b : ℝ} {k j : ℕ} (hj : j < k) :
    bin (equalEdges a b k) j = intervalCell (fun i => a + i * ((b - a) / k)) k j := by
  ext x
  have hl : (equalEdges a b k).length = k + 1 := by simp [equalEdges]
  unfold bin intervalCell
  simp only [Set.mem_ofPred_eq, hl, equalEdges_getD hj.le, equalEdges_getD hj]
  simp

theorem histogram_equalEdges (a b : ℝ) (k : ℕ) (xs : List ℝ) :
    histogram (equalEdges a b k) xs =
      (List.range k).map fun j => count (intervalCell (fun i => a + i * ((b - a) / k)) k j) xs := by
  rw [histogram_count]
  have hl : (equalEdges a b k).length - 1 = k := by simp [equalEdges]
  rw [hl]
  refine List.map_congr_left fun j hj => ?_
  rw [bin_equalEdges (List.mem_range.1 hj)]

theorem npDiff_equalEdges (F : ℝ → ℝ) (a b : ℝ) (k : ℕ) :
    npDiff ((equalEdges a b k).map F) = (List.range k).map fun j : ℕ =>
      F (a + ((j + 1 : ℕ) : ℝ) * ((b - a) / k)) - F (a + j * ((b - a) / k)) := by
  rw [npDiff_eq_zipWith]
  refine List.ext_getElem (by simp [equalEdges]) fun i h1 h2 => ?_
  simp [equalEdges, List.getElem_tail]

theorem length_range_map (k : ℕ) (c : ℝ) : List.replicate k c = (List.range k).map fun _ => c := by
  simp

/-- **C100**, uniform: equal parts of the interval with probability `1/k` each. -/
theorem C100_uniform {a b : ℝ} {k : ℕ} (hk : 2 ≤ k) {xs : List ℝ} (hx : ∀ x ∈ xs, a ≤ x ∧ x ≤ b) :
    UniStat.value (.chi2 1 (.count k)) a b xs =
      .ok (pearsonStatistic k (intervalCell (fun i => a + i * ((b - a) / k)) k) (fun _ => 1 / k) xs) := by
  have hmax : (max (2 : ℤ) k).toNat = k := by
    rw [max_eq_right (by exact_mod_cast hk)]; simp
  simp only [UniStat.value, validateUniform_ok hx, bind, Except.bind, Uniform.chi2, numBins, hmax,
    powerDivergence, if_true, pure, Except.pure]
  rw [histogram_equalEdges, List.map_map, length_range_map, pearson_range]
  simp only [pearsonStatistic, Function.comp_apply, mul_one_div]

/-- **C100**, beta: `⌈√n⌉` equal parts of the unit interval with the probabilities of the
hypothesis. -/
theorem C100_beta (lib : Beta.BetaLib) (p : Beta.Params) {xs : List ℝ} (hne : xs ≠ [])
    (hx : ∀ x ∈ xs, 0 ≤ x ∧ x ≤ 1) :
    Beta.BetaStat.value lib p (.chi2 1) xs =
      .ok (pearsonStatistic ⌈√(xs.length : ℝ)⌉₊
        (intervalCell (fun i => (i : ℝ) / ⌈√(xs.length : ℝ)⌉₊) ⌈√(xs.length : ℝ)⌉₊)
        (fun j => lib.cdf p.alpha p.beta (((j : ℝ) + 1) / ⌈√(xs.length : ℝ)⌉₊) -
          lib.cdf p.alpha p.beta ((j : ℝ) / ⌈√(xs.length : ℝ)⌉₊)) xs) := by
  have hl : xs.length ≠ 0 := fun h => hne (List.length_eq_zero_iff.1 h)
  simp only [Beta.BetaStat.value, beta_validate_ok hx, bind, Except.bind, Beta.chi2, if_neg hl,
    powerDivergence, if_true]
  rw [histogram_equalEdges, npDiff_equalEdges, List.map_map, List.map_map, pearson_range]
  simp only [pearsonStatistic, Function.comp_apply, sub_zero, zero_add, mul_one_div]
  congr 1
  refine Finset.sum_congr rfl fun j _ => ?_
  push_cast
  rw [mul_comm (xs.length : ℝ)]

/-- The cells of a histogram with the finite edges `es`. -/
def infCell (es : List ℝ) (j : ℕ) : Set ℝ :=
  {x | (∀ i < j, es.getD i 0 ≤ x) ∧ (j < es.length → x < es.getD j 0)}

theorem histogramInf_count : ∀ (es xs : List ℝ),
    histogramInf es xs = (List.range (es.length + 1)).map fun j => count (infCell es j) xs
  | [], xs => by
    have : count (infCell [] 0) xs = xs.length := by
      rw [← count_eq (p := fun _ => true) (by intro x; simp [infCell])]
      simp
    simp [histogramInf, this]
  | e :: es, xs => by
    rw [histogramInf, histogramInf_count es, List.length_cons, List.range_succ_eq_map (n := es.length + 1),
      List.map_cons, List.map_map]
    congr 1
    · refine count_eq fun x => ?_
      simp [infCell]
    · refine List.map_congr_left fun j _ => ?_
      simp only [Function.comp_apply]
      unfold count
      rw [List.countP_filter]
      refine List.countP_congr fun x _ => ?_
      classical
      rw [Bool.and_eq_true, decide_eq_true_iff, decide_eq_true_iff, decide_eq_true_iff]
      simp only [infCell, Set.mem_ofPred_eq, List.length_cons,
        Nat.succ_eq_add_one, List.getD_cons_succ, Nat.add_lt_add_iff_right]
      constructor
      · rintro ⟨⟨h1, h2⟩, h3⟩
        refine ⟨fun i hi => ?_, h2⟩
        cases i with
        | zero => simpa using h3
        | succ i => simpa using h1 i (by omega)
      · rintro ⟨h1, h2⟩
        exact ⟨⟨fun i hi => by simpa using h1 (i + 1) (by omega), h2⟩, by simpa using h1 0 (by omega)⟩

theorem infCell_quantile {q : ℝ → ℝ} (hq : MonotoneOn q (Set.Ioo 0 1)) {k j : ℕ} (hj : j < k) :
    infCell (quantileEdges q k) j = quantileCell q k j := by
  have hk : (0 : ℝ) < k := by exact_mod_cast (by omega : 0 < k)
  have hlen : (quantileEdges q k).length = k - 1 := by simp [quantileEdges]
  have hget : ∀ i, i < k - 1 → (quantileEdges q k).getD i 0 = q (((i : ℝ) + 1) / k) := fun i hi => by
    rw [List.getD_eq_getElem _ _ (by rw [hlen]; exact hi)]
    simp [quantileEdges]
  have hmem : ∀ i : ℕ, 0 < i → i < k → ((i : ℝ) / k) ∈ Set.Ioo (0 : ℝ) 1 := fun i h0 h1 => by
    have h0' : (0 : ℝ) < i := by exact_mod_cast h0
    have h1' : (i : ℝ) < k := by exact_mod_cast h1
    exact ⟨by positivity, by rw [div_lt_one hk]; exact h1'⟩
  ext x
  simp only [infCell, quantileCell, Set.mem_ofPred_eq, hlen]
  refine and_congr ⟨fun h => ?_, fun h i hi => ?_⟩ ⟨fun h => ?_, fun h hlt => ?_⟩
  · rcases Nat.eq_zero_or_pos j with h0 | h0
    · exact Or.inl h0
    · right
      have := h (j - 1) (by omega)
      rw [hget _ (by omega)] at this
      have e : ((j - 1 : ℕ) : ℝ) + 1 = j := by
        rw [Nat.cast_sub h0]; push_cast; ring
      rwa [e] at this
  · rcases h with h | h
    · omega
    · rw [hget i (by omega)]
      refine le_trans (hq ?_ (hmem j (by omega) hj) ?_) h
      · have := hmem (i + 1) (by omega) (by omega)
        push_cast at this
        exact this
      · have : (i : ℝ) + 1 ≤ j := by exact_mod_cast hi
        gcongr
  · rcases Nat.lt_or_ge j (k - 1) with h1 | h1
    · right
      have := h h1
      rwa [hget j h1] at this
    · left; omega
  · rcases h with h | h
    · omega
    · rwa [hget j hlt]

theorem histogramInf_quantile {q : ℝ → ℝ} (hq : MonotoneOn q (Set.Ioo 0 1)) {k : ℕ} (hk : 0 < k)
    (xs : List ℝ) :
    histogramInf (quantileEdges q k) xs = (List.range k).map fun j => count (quantileCell q k j) xs := by
  rw [histogramInf_count]
  have hlen : (quantileEdges q k).length + 1 = k := by simp [quantileEdges]; omega
  rw [hlen]
  refine List.map_congr_left fun j hj => ?_
  rw [infCell_quantile hq (List.mem_range.1 hj)]

/-- **C100**, gamma: cells between quantiles, of probability `1/k` each. -/
theorem C100_gamma (lib : Gamma.GammaLib) (p : Gamma.Params)
    (hq : MonotoneOn (lib.ppf p.alpha (1 / p.beta)) (Set.Ioo 0 1)) {k : ℕ} (hk : 2 ≤ k) {xs : List ℝ}
    (hne : xs ≠ []) :
    Gamma.GammaStat.value lib p (.binned .pearson k) xs =
      .ok (pearsonStatistic k (quantileCell (lib.ppf p.alpha (1 / p.beta)) k) (fun _ => 1 / k) xs) := by
  have hl : xs.length ≠ 0 := fun h => hne (List.length_eq_zero_iff.1 h)
  simp only [Gamma.GammaStat.value, Gamma.binned, if_neg hl, Gamma.Divergence.lam, powerDivergence, if_true,
    equalExpected]
  rw [histogramInf_quantile hq (by omega), List.map_map, length_range_map, pearson_range]
  simp only [pearsonStatistic, Function.comp_apply, mul_one_div]

/-- **C100**, the other two binned gamma criteria: with the same cells, counts and expected counts, the G test is
twice the sum of `count * log (count / expected)` and Cressie-Read of power `r` the sum of
`count * ((count / expected)^r - 1)` times `2 / (r (r + 1))`. -/
theorem C100_gamma_divergence (lib : Gamma.GammaLib) (p : Gamma.Params)
    (hq : MonotoneOn (lib.ppf p.alpha (1 / p.beta)) (Set.Ioo 0 1)) {k : ℕ} (hk : 2 ≤ k) {xs : List ℝ}
    (hne : xs ≠ []) :
    Gamma.GammaStat.value lib p (.binned .gTest k) xs =
      .ok (2 * ∑ j ∈ Finset.range k, (count (quantileCell (lib.ppf p.alpha (1 / p.beta)) k j) xs : ℝ) *
        Real.log (count (quantileCell (lib.ppf p.alpha (1 / p.beta)) k j) xs / (xs.length * (1 / k)))) ∧
    ∀ r : ℝ, r ≠ 1 → r ≠ 0 → r ≠ -1 →
      Gamma.GammaStat.value lib p (.binned (.cressieRead r) k) xs =
        .ok (2 / (r * (r + 1)) * ∑ j ∈ Finset.range k,
          (count (quantileCell (lib.ppf p.alpha (1 / p.beta)) k j) xs : ℝ) *
          ((count (quantileCell (lib.ppf p.alpha (1 / p.beta)) k j) xs / (xs.length * (1 / k)) : ℝ) ^ r - 1)) := by
  have hl : xs.length ≠ 0 := fun h => hne (List.length_eq_zero_iff.1 h)
  have hz : ∀ (f : ℝ → ℝ → ℝ) (o e : ℕ → ℝ), (List.zipWith f ((List.range k).map o) ((List.range k).map e)).sum =
      ∑ j ∈ Finset.range k, f (o j) (e j) := by
    intro f o e
    rw [← sum_list_range]
    congr 1
    exact List.ext_getElem (by simp) fun i h1 h2 => by simp
  constructor
  · simp only [Gamma.GammaStat.value, Gamma.binned, if_neg hl, Gamma.Divergence.lam, powerDivergence,
      zero_ne_one, if_false, if_true, equalExpected]
    rw [histogramInf_quantile hq (by omega), List.map_map, length_range_map, hz, Finset.mul_sum]
    congr 1
    refine Finset.sum_congr rfl fun j _ => ?_
    simp only [xlogy, Function.comp_apply, mul_one_div]
    split_ifs with h
    · rw [h]; simp
    · rfl
  · intro r h1 h0 hm
    have hv : Gamma.GammaStat.value lib p (.binned (.cressieRead r) k) xs = Gamma.binned lib p k r xs := rfl
    rw [hv, Gamma.binned, if_neg hl, powerDivergence, if_neg h1, if_neg h0, if_neg hm, equalExpected,
      histogramInf_quantile hq (by omega), List.map_map, length_range_map, hz, Finset.mul_sum]
    congr 1
    refine Finset.sum_congr rfl fun j _ => ?_
    simp only [Function.comp_apply, mul_one_div]
    have hr : r + 1 ≠ 0 := fun h => hm (by linarith)
    generalize ((count (quantileCell (lib.ppf p.alpha (1 / p.beta)) k j) xs : ℝ) / _) ^ r = t
    field_simp

/-- **C100**, Student: cells between quantiles of the standardised observations, of probability `1/k`
each. -/
theorem C100_student (lib : StudentLib) (p : Student.Params)
    (hq : MonotoneOn (lib.ppf p.df) (Set.Ioo 0 1)) {k : ℕ} (hk : 1 ≤ k) (xs : List ℝ) :
    StudentStat.value lib p (.chi2 k) xs =
      .ok (pearsonStatistic k (quantileCell (lib.ppf p.df) k) (fun _ => 1 / k)
        (xs.map fun x => (x - p.loc) / p.scale)) := by
  simp only [StudentStat.value, Student.chi2, equalExpected]
  rw [histogramInf_quantile hq (by omega), List.map_map, length_range_map, pearson_range]
  simp only [pearsonStatistic, Function.comp_apply, mul_one_div, List.length_map]

/-- The sum of the probabilities of the Weibull cells. -/
theorem sum_cells (F : ℝ → ℝ) (lo w : ℝ) (k : ℕ) :
    ∑ j ∈ Finset.range k, (F (lo + ((j : ℝ) + 1) * w) - F (lo + j * w)) = F (lo + k * w) - F lo := by
  have := Finset.sum_range_sub (fun j : ℕ => F (lo + (j : ℝ) * w)) k
  push_cast at this
  rw [this]; simp

theorem weibull_cdf_lt_one {a k x : ℝ} (ha : 0 < a) : Weibull.cdf a k x < 1 := by
  unfold Weibull.cdf
  split_ifs with h
  · exact one_pos
  · have h0 : 0 < x := not_le.1 h
    have h1 : 0 < x ^ k := Real.rpow_pos_of_pos h0 k
    have h2 : Real.exp (-x ^ k) < 1 := by rw [Real.exp_lt_one_iff]; linarith
    exact Real.rpow_lt_one (by linarith) (by have := Real.exp_pos (-x ^ k); linarith) ha

theorem weibull_cdf_nonneg {a k x : ℝ} : 0 ≤ Weibull.cdf a k x := by
  unfold Weibull.cdf
  split_ifs with h
  · exact le_rfl
  · have h0 : 0 < x := not_le.1 h
    have h2 : Real.exp (-x ^ k) ≤ 1 := Real.exp_le_one_iff.2 (neg_nonpos.2 (Real.rpow_nonneg h0.le k))
    exact Real.rpow_nonneg (by linarith) a

/-- The distribution function grows on the positive axis. -/
theorem cdf_strict {a k : ℝ} (ha : 0 < a) (hk : 0 < k) {x y : ℝ} (hx : 0 < x) (hxy : x < y) :
    Weibull.cdf a k x < Weibull.cdf a k y := by
  unfold Weibull.cdf
  rw [if_neg (not_le.2 hx), if_neg (not_le.2 (hx.trans hxy))]
  have h1 : x ^ k < y ^ k := Real.rpow_lt_rpow hx.le hxy hk
  have h2 : Real.exp (-y ^ k) < Real.exp (-x ^ k) := Real.exp_lt_exp.2 (by linarith)
  have h3 : Real.exp (-x ^ k) ≤ 1 := Real.exp_le_one_iff.2 (neg_nonpos.2 (Real.rpow_nonneg hx.le k))
  exact Real.rpow_lt_rpow (by linarith) (by linarith) ha

theorem sort_headD_least {xs : List ℝ} {lo : ℝ} (h : IsLeast {x | x ∈ xs} lo) : (sort xs).headD 0 = lo := by
  have hs := sort_ne_nil (List.ne_nil_of_mem h.1)
  obtain ⟨a, l, hal⟩ := List.exists_cons_of_ne_nil hs
  have hp := sort_pairwise xs
  rw [hal] at hp ⊢
  have ha : a ∈ xs := (sort_perm xs).mem_iff.1 (by rw [hal]; simp)
  have hlo : lo ∈ a :: l := by rw [← hal]; exact (sort_perm xs).mem_iff.2 h.1
  rw [List.headD_cons]
  refine le_antisymm ?_ (h.2 ha)
  rcases List.mem_cons.1 hlo with rfl | h1
  · exact le_rfl
  · exact (List.pairwise_cons.1 hp).1 _ h1

theorem sort_getLastD_greatest {xs : List ℝ} {hi : ℝ} (h : IsGreatest {x | x ∈ xs} hi) :
    (sort xs).getLastD 0 = hi := by
  have hs := sort_ne_nil (List.ne_nil_of_mem h.1)
  have hp := sort_pairwise xs
  have e : (sort xs).getLastD 0 = (sort xs).getLast hs := by
    rw [List.getLastD_eq_getLast?, List.getLast?_eq_some_getLast hs]; rfl
  rw [e]
  refine le_antisymm (h.2 ((sort_perm xs).mem_iff.1 (List.getLast_mem hs))) ?_
  have hm : hi ∈ sort xs := (sort_perm xs).mem_iff.2 h.1
  rw [← List.dropLast_append_getLast hs] at hm hp
  rcases List.mem_append.1 hm with h1 | h1
  · exact (List.pairwise_append.1 hp).2.2 _ h1 _ (by simp)
  · rw [List.mem_singleton] at h1; exact h1.le

/-- **C100 (refuted)**, Weibull: the value is Pearson's statistic divided by the sample size, and the
probabilities of the cells add up to less than one. -/
theorem C100_refuted_weibull (min : Weibull.Minimizer) (p : Weibull.Params) (ha : 0 < p.a)
    {s : Sample ℝ} {lo hi : ℝ} (hlo : IsLeast {x | x ∈ s.values} lo)
    (hhi : IsGreatest {x | x ∈ s.values} hi) (hne : lo ≠ hi) {k : ℕ}
    (hk : k = ⌈√(s.values.length : ℝ)⌉₊) :
    Weibull.WeibullStat.value min p .chi2 s =
      .ok (pearsonStatistic k (intervalCell (fun i => lo + i * ((hi - lo) / k)) k)
        (fun j => Weibull.cdf p.a p.k (lo + ((j : ℝ) + 1) * ((hi - lo) / k)) -
          Weibull.cdf p.a p.k (lo + j * ((hi - lo) / k))) s.values / s.values.length) ∧
    ∑ j ∈ Finset.range k, (Weibull.cdf p.a p.k (lo + ((j : ℝ) + 1) * ((hi - lo) / k)) -
          Weibull.cdf p.a p.k (lo + j * ((hi - lo) / k))) < 1 := by
  generalize hxs : s.values = xs at *
  have hlen : 0 < xs.length := List.length_pos_of_mem hlo.1
  have hn : (0 : ℝ) < xs.length := by exact_mod_cast hlen
  have hk' : ⌈√(xs.length : ℝ)⌉.toNat = k := by rw [hk, Int.ceil_toNat]
  constructor
  · simp only [Weibull.WeibullStat.value, hxs, Weibull.chi2, Weibull.rangeEdges, sort_headD_least hlo,
      sort_getLastD_greatest hhi, if_neg hne, hk']
    rw [histogram_equalEdges, npDiff_equalEdges, List.map_map, pearson_range]
    simp only [pearsonStatistic, Function.comp_apply]
    congr 1
    rw [Finset.sum_div]
    refine Finset.sum_congr rfl fun j _ => ?_
    push_cast
    generalize Weibull.cdf p.a p.k _ - Weibull.cdf p.a p.k _ = q
    generalize (count _ _ : ℝ) = c
    rcases eq_or_ne q 0 with rfl | hq
    · simp
    · field_simp
  · rw [sum_cells]
    have h1 := weibull_cdf_lt_one (a := p.a) (k := p.k) (x := lo + (k : ℝ) * ((hi - lo) / k)) ha
    have h2 := weibull_cdf_nonneg (a := p.a) (k := p.k) (x := lo)
    linarith

/-- The same when all observations are equal: the cells divide the interval of length one around the value. -/
theorem C100_weibull_constant (min : Weibull.Minimizer) (p : Weibull.Params) {s : Sample ℝ} {c : ℝ}
    (hne : s.values ≠ []) (hc : ∀ x ∈ s.values, x = c) {k : ℕ} (hk : k = ⌈√(s.values.length : ℝ)⌉₊) :
    Weibull.WeibullStat.value min p .chi2 s =
      .ok (pearsonStatistic k (intervalCell (fun i => c - 1 / 2 + i * (1 / k)) k)
        (fun j => Weibull.cdf p.a p.k (c - 1 / 2 + ((j : ℝ) + 1) * (1 / k)) -
          Weibull.cdf p.a p.k (c - 1 / 2 + j * (1 / k))) s.values / s.values.length) := by
  generalize hxs : s.values = xs at *
  have hmem : c ∈ xs := by
    obtain ⟨a, l, rfl⟩ := List.exists_cons_of_ne_nil hne
    rw [← hc a (by simp)]; simp
  have hlo : IsLeast {x | x ∈ xs} c := ⟨hmem, fun x hx => (hc x hx).ge⟩
  have hhi : IsGreatest {x | x ∈ xs} c := ⟨hmem, fun x hx => (hc x hx).le⟩
  have hn : (0 : ℝ) < xs.length := by exact_mod_cast List.length_pos_of_mem hmem
  have hk' : ⌈√(xs.length : ℝ)⌉.toNat = k := by rw [hk, Int.ceil_toNat]
  simp only [Weibull.WeibullStat.value, hxs, Weibull.chi2, Weibull.rangeEdges, sort_headD_least hlo,
    sort_getLastD_greatest hhi, if_true, hk']
  rw [histogram_equalEdges, npDiff_equalEdges, List.map_map, pearson_range]
  have e : c + 1 / 2 - (c - 1 / 2) = 1 := by ring
  simp only [pearsonStatistic, Function.comp_apply, e]
  congr 1
  rw [Finset.sum_div]
  refine Finset.sum_congr rfl fun j _ => ?_
  push_cast
  generalize Weibull.cdf p.a p.k _ - Weibull.cdf p.a p.k _ = q
  generalize (count _ _ : ℝ) = c
  rcases eq_or_ne q 0 with rfl | hq
  · simp
  · field_simp

/-- The hypotheses of `C100_gamma` and `C100_student` hold for the logistic quantile function. -/
example : MonotoneOn (fun u : ℝ => Real.log (u / (1 - u))) (Set.Ioo 0 1) := by
  intro u hu v hv huv
  have h1 : 0 < 1 - u := by linarith [hu.2]
  have h2 : 0 < 1 - v := by linarith [hv.2]
  exact Real.log_le_log (div_pos hu.1 h1) (by rw [div_le_div_iff₀ h1 h2]; nlinarith)

/-- Those of `C100_uniform` and `C100_beta` hold for the sample 0.2, 0.5, 0.9, and Pearson's
statistic for two halves is 1/3. -/
example : (∀ x ∈ [(0.2 : ℝ), 0.5, 0.9], 0 ≤ x ∧ x ≤ 1) ∧
    UniStat.value (.chi2 1 (.count 2)) 0 1 [(0.2 : ℝ), 0.5, 0.9] = .ok (1 / 3) := by
  have h : ∀ x ∈ [(0.2 : ℝ), 0.5, 0.9], 0 ≤ x ∧ x ≤ 1 := by
    intro x hx
    simp at hx
    rcases hx with rfl | rfl | rfl <;> norm_num
  refine ⟨h, ?_⟩
  refine (C100_uniform (le_refl 2) h).trans ?_
  have c0 : count (intervalCell (fun i : ℕ => (0 : ℝ) + i * ((1 - 0) / (2 : ℕ))) 2 0)
      [(0.2 : ℝ), 0.5, 0.9] = 1 := by
    rw [← count_eq (p := fun z => decide (0 ≤ z) && decide (z < 2⁻¹))
      (by intro z; simp [intervalCell])]
    norm_num
  have c1 : count (intervalCell (fun i : ℕ => (0 : ℝ) + i * ((1 - 0) / (2 : ℕ))) 2 1)
      [(0.2 : ℝ), 0.5, 0.9] = 2 := by
    rw [← count_eq (p := fun z => decide (2⁻¹ ≤ z) && decide (z ≤ 1))
      (by intro z; simp [intervalCell])]
    norm_num
  unfold pearsonStatistic
  rw [Finset.sum_range_succ, Finset.sum_range_one, c0, c1]
  norm_num

theorem ceil_sqrt_two : ⌈√((2 : ℕ) : ℝ)⌉₊ = 2 := by
  rw [Nat.ceil_eq_iff (by norm_num)]
  constructor
  · rw [Real.lt_sqrt (by norm_num)]; norm_num
  · rw [Real.sqrt_le_iff]; norm_num

/-- For two different observations the value is never Pearson's statistic. -/
theorem C100_refuted_weibull_pair (min : Weibull.Minimizer) (p : Weibull.Params) (ha : 0 < p.a)
    (hk : 0 < p.k) {s : Sample ℝ} {x y : ℝ} (hx : 0 < x) (hxy : x < y) (hs : s.values = [x, y]) :
    Weibull.WeibullStat.value min p .chi2 s ≠
      .ok (pearsonStatistic 2 (intervalCell (fun i => x + i * ((y - x) / 2)) 2)
          (fun j => Weibull.cdf p.a p.k (x + ((j : ℝ) + 1) * ((y - x) / 2)) -
            Weibull.cdf p.a p.k (x + j * ((y - x) / 2))) [x, y]) := by
  have hlo : IsLeast {z | z ∈ s.values} x := by
    rw [hs]; exact ⟨by simp, by intro z hz; simp at hz; rcases hz with rfl | rfl <;> linarith⟩
  have hhi : IsGreatest {z | z ∈ s.values} y := by
    rw [hs]; exact ⟨by simp, by intro z hz; simp at hz; rcases hz with rfl | rfl <;> linarith⟩
  obtain ⟨h1, h2⟩ := C100_refuted_weibull min p ha hlo hhi hxy.ne (k := 2)
    (by rw [hs]; simp only [List.length_cons, List.length_nil]; exact ceil_sqrt_two.symm)
  rw [h1, hs]
  push_cast at h2 ⊢
  intro h
  injection h with h
  set P := pearsonStatistic 2 (intervalCell (fun i => x + i * ((y - x) / 2)) 2)
          (fun j => Weibull.cdf p.a p.k (x + ((j : ℝ) + 1) * ((y - x) / 2)) -
            Weibull.cdf p.a p.k (x + j * ((y - x) / 2))) [x, y] with hP
  have hP0 : P = 0 := by
    simp only [List.length_cons, List.length_nil] at h
    push_cast at h
    linarith
  rw [hP] at hP0
  unfold pearsonStatistic at hP0
  have c0 : count (intervalCell (fun i => x + i * ((y - x) / 2)) 2 0) [x, y] = 1 := by
    rw [← count_eq (p := fun z => decide (x ≤ z) && decide (z < x + (y - x) / 2))
      (by intro z; simp [intervalCell])]
    have : ¬ y < x + (y - x) / 2 := by linarith
    have : x < x + (y - x) / 2 := by linarith
    simp [*]
  have c1 : count (intervalCell (fun i => x + i * ((y - x) / 2)) 2 1) [x, y] = 1 := by
    rw [← count_eq (p := fun z => decide (x + (y - x) / 2 ≤ z) && decide (z ≤ x + 2 * ((y - x) / 2)))
      (by intro z; simp [intervalCell])]
    have : ¬ x + (y - x) / 2 ≤ x := by linarith
    have : x + (y - x) / 2 ≤ y := by linarith
    have : y ≤ x + 2 * ((y - x) / 2) := by linarith
    simp [*]
  rw [Finset.sum_range_succ, Finset.sum_range_one, c0, c1] at hP0
  beta_reduce at hP0
  rw [Finset.sum_range_succ, Finset.sum_range_one] at h2
  have hm : ∀ u v : ℝ, 0 < u → u < v → Weibull.cdf p.a p.k u < Weibull.cdf p.a p.k v :=
    fun _ _ h1 h2 => cdf_strict ha hk h1 h2
  have q0 : 0 < Weibull.cdf p.a p.k (x + (((0 : ℕ) : ℝ) + 1) * ((y - x) / 2)) -
      Weibull.cdf p.a p.k (x + ((0 : ℕ) : ℝ) * ((y - x) / 2)) := by
    rw [sub_pos]; apply hm <;> push_cast <;> linarith
  have q1 : 0 < Weibull.cdf p.a p.k (x + (((1 : ℕ) : ℝ) + 1) * ((y - x) / 2)) -
      Weibull.cdf p.a p.k (x + ((1 : ℕ) : ℝ) * ((y - x) / 2)) := by
    rw [sub_pos]; apply hm <;> push_cast <;> linarith
  generalize Weibull.cdf p.a p.k (x + (((0 : ℕ) : ℝ) + 1) * ((y - x) / 2)) -
      Weibull.cdf p.a p.k (x + ((0 : ℕ) : ℝ) * ((y - x) / 2)) = a0 at *
  generalize Weibull.cdf p.a p.k (x + (((1 : ℕ) : ℝ) + 1) * ((y - x) / 2)) -
      Weibull.cdf p.a p.k (x + ((1 : ℕ) : ℝ) * ((y - x) / 2)) = a1 at *
  simp only [List.length_cons, List.length_nil] at hP0
  push_cast at hP0
  have e0 : 0 ≤ (1 - 2 * a0) ^ 2 / (2 * a0) := by positivity
  have e1 : 0 ≤ (1 - 2 * a1) ^ 2 / (2 * a1) := by positivity
  have z0 : (1 - 2 * a0) ^ 2 / (2 * a0) = 0 := by linarith
  have z1 : (1 - 2 * a1) ^ 2 / (2 * a1) = 0 := by linarith
  rw [div_eq_zero_iff] at z0 z1
  have y0 : (1 - 2 * a0) ^ 2 = 0 := z0.resolve_right (by positivity)
  have y1 : (1 - 2 * a1) ^ 2 = 0 := z1.resolve_right (by positivity)
  have := pow_eq_zero_iff (two_ne_zero) |>.1 y0
  have := pow_eq_zero_iff (two_ne_zero) |>.1 y1
  linarith

end Pysatl.Props
