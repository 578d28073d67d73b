import Verif.Props.ConsistencyScores

/-! # C136 and C147: Wong and Wong, Hegazy and Green -/

namespace Pysatl.Props

open Pysatl.Decision Pysatl.Resolver Pysatl.Spec Pysatl.Edf Pysatl.Graph Pysatl.Gen Pysatl.Exponent
open MeasureTheory ProbabilityTheory Filter Topology

/-! ### Wong and Wong -/

theorem wong_value (code : String) (params : Option (List (String × ℝ))) {xs : List ℝ} (hne : xs ≠ []) :
    ∃ a b, (ExpStat.wongWong.statistic code params).execute xs = .ok (a / b) ∧
      (a ∈ xs ∧ ∀ x ∈ xs, x ≤ a) ∧ b ∈ xs ∧ ∀ x ∈ xs, b ≤ x := by
  obtain ⟨a, ha⟩ := npMax_exists hne
  obtain ⟨b, hb⟩ := pyMin_exists hne
  exact ⟨a, b, by simp only [ExpStat.statistic, ExpStat.value, wongWong, ha, hb]; rfl,
    npMax_eq_ok.1 ha, pyMin_eq_ok.1 hb⟩

theorem fracLe_pos {xs : List ℝ} {x : ℝ} (h : 0 < fracLe xs x) : ∃ y ∈ xs, y ≤ x := by
  by_contra hne
  push Not at hne
  have : xs.filter (fun y => y ≤ x) = [] := List.filter_eq_nil_iff.2 fun y hy => by simpa using hne y hy
  rw [fracLe, this] at h
  simp at h

theorem fracLe_lt {xs : List ℝ} (hxs : xs ≠ []) {x : ℝ} (h : fracLe xs x < 1) : ∃ y ∈ xs, x < y := by
  by_contra hne
  push Not at hne
  have : xs.filter (fun y => y ≤ x) = xs := List.filter_eq_self.2 fun y hy => by simpa using hne y hy
  have hl : (xs.length : ℝ) ≠ 0 := by exact_mod_cast (List.length_pos_iff.2 hxs).ne'
  rw [fracLe, this, div_self hl] at h
  exact lt_irrefl _ h

section
variable (code : String) (params : Option (List (String × ℝ)))

/-- **C136, refuted, Wong and Wong**: the criterion is judged in the right tail, and the ratio of the largest to the smallest
of exponential observations exceeds every bound in the long run.  Laws on an interval that keeps away from zero, far from
exponential, are never detected. -/
theorem C136_refuted_wongWong {r : ℝ} (hr : 0 < r) {Q : Measure ℝ} [IsProbabilityMeasure Q] {a b : ℝ} (ha : 0 < a)
    (hQ : ∀ᵐ x ∂Q, a ≤ x ∧ x ≤ b) :
    Undetected (ExpStat.wongWong.statistic code params) Q (expMeasure r) := by
  have hpr := isProbabilityMeasure_expMeasure hr
  obtain ⟨x0, hx0, hx1⟩ := hQ.exists
  have hb : 0 < b := ha.trans_le (hx0.trans hx1)
  set K := b / a + 1 with hK
  have hKpos : 0 < K := by positivity
  refine limit_undetected (exponential_meas _ code params) (t := fun _ => K) (Or.inr ⟨rfl, ?_, ?_⟩)
  · filter_upwards [seq_ae hQ] with ω h
    filter_upwards [eventually_gt_atTop 0] with n hn
    have hne : List.ofFn (firsts n ω) ≠ [] := by simpa using hn.ne'
    obtain ⟨u, v, e, ⟨hu, -⟩, hv, -⟩ := wong_value code params hne
    obtain ⟨i, rfl⟩ := List.mem_ofFn.1 hu
    obtain ⟨j, rfl⟩ := List.mem_ofFn.1 hv
    refine ⟨_, e, ?_⟩
    have h1 : ω i ≤ b := (h i).2
    have h2 : a ≤ ω j := (h j).1
    calc ω i / ω j ≤ b / a := div_le_div₀ hb.le h1 ha h2
      _ < K := by rw [hK]; linarith
  · have hF : ∀ x : ℝ, 0 < x → 0 < cdf (expMeasure r) x ∧ cdf (expMeasure r) x < 1 := fun x hx => by
      rw [cdf_expMeasure_eq hr, if_pos hx.le]
      have h1 := Real.exp_pos (-(r * x))
      have h2 : Real.exp (-(r * x)) < 1 := by
        rw [← Real.exp_zero, Real.exp_lt_exp]
        linarith [mul_pos hr hx]
      constructor <;> linarith
    have hε : 0 < 1 / (K + 1) := by positivity
    have g1 := hF _ hε
    have g2 := hF 1 one_pos
    filter_upwards [glivenko (exp_continuous hr), seq_ae (Expon.ae_pos hr)] with ω h hpos
    filter_upwards [h _ (_root_.half_pos g1.1), h _ (_root_.half_pos (sub_pos.2 g2.2)), eventually_gt_atTop 0] with n k1 k2 hn
    have hne : List.ofFn (firsts n ω) ≠ [] := by simpa using hn.ne'
    obtain ⟨u, v, e, ⟨-, hu⟩, hv', hv⟩ := wong_value code params hne
    refine ⟨_, e, ?_⟩
    obtain ⟨y, hy, hy1⟩ := fracLe_pos (xs := List.ofFn (firsts n ω)) (x := 1 / (K + 1)) (by
      have := (abs_le.1 (k1 (1 / (K + 1)))).1
      linarith)
    obtain ⟨z, hz, hz1⟩ := fracLe_lt hne (x := 1) (by
      have := (abs_le.1 (k2 1)).2
      linarith)
    have hv0 : 0 < v := by
      obtain ⟨j, rfl⟩ := List.mem_ofFn.1 hv'
      exact hpos j
    have b1 : v ≤ 1 / (K + 1) := (hv y hy).trans hy1
    have b2 : 1 < u := hz1.trans_le (hu z hz)
    rw [lt_div_iff₀ hv0]
    have b3 : K * v ≤ K * (1 / (K + 1)) := mul_le_mul_of_nonneg_left b1 hKpos.le
    have b4 : K * (1 / (K + 1)) < 1 := by rw [mul_one_div, div_lt_one (by positivity)]; linarith
    linarith

end

/-- Uniform observations between 1 and 2 are never detected. -/
example : Undetected (ExpStat.wongWong.statistic "" none) (uniformLaw 1 2) (expMeasure 2) := by
  have := (cdf_uniformLaw (one_lt_two (α := ℝ))).1
  exact C136_refuted_wongWong "" none two_pos (a := 1) (b := 2) one_pos
    ((uniform_inside one_lt_two).mono fun x hx => ⟨hx.1.le, hx.2.le⟩)

/-! ### Hegazy and Green -/

/-- The scores, counted from the largest observation. -/
theorem hgScore_reflect {n j : ℕ} (h : j < n) : hgScore n (n - 1 - j) = Real.log (n + 1) - Real.log (j + 1) := by
  have hn : (0 : ℝ) < (n : ℝ) + 1 := by positivity
  have hj : (0 : ℝ) < (j : ℝ) + 1 := by positivity
  have e : ((n - 1 - j : ℕ) : ℝ) = n - 1 - j := by
    rw [Nat.cast_sub (by omega), Nat.cast_sub (by omega), Nat.cast_one]
  rw [hgScore, e, show 1 - ((n : ℝ) - 1 - j + 1) / (n + 1) = (j + 1) / (n + 1) by field_simp; ring,
    Real.log_div hj.ne' hn.ne']
  ring

theorem log_step (n : ℕ) : 0 ≤ Real.log ((n : ℝ) + 1 + 1) - Real.log (n + 1) ∧
    (n + 1) * (Real.log ((n : ℝ) + 1 + 1) - Real.log (n + 1)) ≤ 1 := by
  have hn : (0 : ℝ) < (n : ℝ) + 1 := by positivity
  have h1 := Real.log_le_sub_one_of_pos (show (0 : ℝ) < (n + 1 + 1) / (n + 1) by positivity)
  rw [Real.log_div (by positivity) hn.ne'] at h1
  refine ⟨sub_nonneg.2 (Real.log_le_log hn (by linarith)), ?_⟩
  have h2 : ((n : ℝ) + 1 + 1) / (n + 1) - 1 = 1 / (n + 1) := by field_simp; ring
  rw [h2, le_div_iff₀ hn] at h1
  linarith

theorem scores_sum (n : ℕ) : ∑ j ∈ Finset.range n, (Real.log (n + 1) - Real.log (j + 1)) ≤ n := by
  induction n with
  | zero => simp
  | succ n ih =>
    obtain ⟨h0, h1⟩ := log_step n
    push_cast
    rw [Finset.sum_range_succ]
    have e : ∑ j ∈ Finset.range n, (Real.log ((n : ℝ) + 1 + 1) - Real.log (j + 1)) =
        ∑ j ∈ Finset.range n, (Real.log ((n : ℝ) + 1) - Real.log (j + 1)) +
          n * (Real.log ((n : ℝ) + 1 + 1) - Real.log (n + 1)) := by
      have c : (n : ℝ) * (Real.log ((n : ℝ) + 1 + 1) - Real.log (n + 1)) =
          ∑ _j ∈ Finset.range n, (Real.log ((n : ℝ) + 1 + 1) - Real.log (n + 1)) := by
        rw [Finset.sum_const, Finset.card_range, nsmul_eq_mul]
      rw [c, ← Finset.sum_add_distrib]
      exact Finset.sum_congr rfl fun j _ => by ring
    rw [e]
    linarith

theorem scores_sum_sq (n : ℕ) : ∑ j ∈ Finset.range n, (Real.log (n + 1) - Real.log (j + 1)) ^ 2 ≤ 2 * n := by
  induction n with
  | zero => simp
  | succ n ih =>
    obtain ⟨h0, h1⟩ := log_step n
    have hs := scores_sum n
    push_cast
    rw [Finset.sum_range_succ]
    set δ := Real.log ((n : ℝ) + 1 + 1) - Real.log (n + 1) with hδ
    have e : ∑ j ∈ Finset.range n, (Real.log ((n : ℝ) + 1 + 1) - Real.log (j + 1)) ^ 2 =
        ∑ j ∈ Finset.range n, (Real.log ((n : ℝ) + 1) - Real.log (j + 1)) ^ 2 +
          2 * δ * ∑ j ∈ Finset.range n, (Real.log ((n : ℝ) + 1) - Real.log (j + 1)) + n * δ ^ 2 := by
      have c : (n : ℝ) * δ ^ 2 = ∑ _j ∈ Finset.range n, δ ^ 2 := by simp
      rw [c, Finset.mul_sum, ← Finset.sum_add_distrib, ← Finset.sum_add_distrib]
      exact Finset.sum_congr rfl fun j _ => by rw [hδ]; ring
    rw [e]
    have h2 : 2 * δ * ∑ j ∈ Finset.range n, (Real.log ((n : ℝ) + 1) - Real.log (j + 1)) ≤ 2 * δ * n :=
      mul_le_mul_of_nonneg_left hs (by positivity)
    have hn : (0 : ℝ) ≤ n := Nat.cast_nonneg n
    have h3 : δ ≤ 1 := by nlinarith
    nlinarith

theorem hg_sum_sq (n : ℕ) : ∑ i ∈ Finset.range n, hgScore n i ^ 2 ≤ 2 * n := by
  rw [← Finset.sum_range_reflect]
  refine le_trans (le_of_eq ?_) (scores_sum_sq n)
  exact Finset.sum_congr rfl fun j hj => by rw [hgScore_reflect (Finset.mem_range.1 hj)]

/-- Sums over the sorted sample are sums over the sample. -/
theorem sum_sorted (xs : List ℝ) (f : ℝ → ℝ) : ∑ i : Fin (sort xs).length, f (sort xs)[i] = (xs.map f).sum := by
  rw [← ((sort_perm xs).map f).sum_eq, ← sum_mapIdx (sort xs) (fun _ x => f x)]
  congr 1
  refine List.ext_getElem (by simp) fun i _ _ => by simp

/-- A sum over the places of the sorted sample. -/
theorem sum_places (xs : List ℝ) (f : ℕ → ℝ) : ∑ i : Fin (sort xs).length, f i = ∑ i ∈ Finset.range xs.length, f i := by
  rw [Fin.sum_univ_eq_sum_range, (sort_perm xs).length_eq]

/-- The quantile function of the standard exponential law up to the level `M`. -/
noncomputable def cappedQuantile (M u : ℝ) : ℝ := -Real.log (max (1 - u) (Real.exp (-M)))

theorem cappedQuantile_continuous (M : ℝ) : Continuous (cappedQuantile M) := by
  unfold cappedQuantile
  refine (Continuous.log (by fun_prop) fun u => ?_).neg
  exact (lt_max_of_lt_right (Real.exp_pos _)).ne'

theorem cappedQuantile_score {n i : ℕ} (h : i < n) (M : ℝ) :
    cappedQuantile M (((i : ℝ) + 1) / (n + 1)) = min (hgScore n i) M := by
  have h1 : (0 : ℝ) < 1 - ((i : ℝ) + 1) / (n + 1) := by
    rw [sub_pos, div_lt_one (by positivity)]
    have : (i : ℝ) < n := by exact_mod_cast h
    linarith
  rw [cappedQuantile, hgScore]
  rcases le_total (1 - ((i : ℝ) + 1) / (n + 1)) (Real.exp (-M)) with h2 | h2
  · rw [max_eq_right h2, Real.log_exp, neg_neg, min_eq_right]
    have := Real.log_le_log h1 h2
    rw [Real.log_exp] at this
    linarith
  · rw [max_eq_left h2, min_eq_left]
    have := Real.log_le_log (Real.exp_pos _) h2
    rw [Real.log_exp] at this
    linarith

theorem cappedQuantile_exp {x M : ℝ} (hx : 0 < x) : cappedQuantile M (cdf (expMeasure 1) x) = min x M := by
  rw [cdf_expMeasure_eq one_pos, if_pos hx.le, cappedQuantile, sub_sub_cancel, one_mul]
  rcases le_total x M with h | h
  · rw [max_eq_left (Real.exp_le_exp.2 (neg_le_neg h)), Real.log_exp, min_eq_left h, neg_neg]
  · rw [max_eq_right (Real.exp_le_exp.2 (neg_le_neg h)), Real.log_exp, min_eq_right h, neg_neg]

/-- Nearly all of the second moment of the exponential law is below a high level. -/
theorem capped_moment {t : ℝ} (ht : 0 < t) : ∃ M : ℝ, 0 < M ∧ 2 - t < ∫ x, min x M ^ 2 ∂expMeasure 1 := by
  have hpr := isProbabilityMeasure_expMeasure one_pos
  have h2 : ∫ x, x ^ 2 ∂expMeasure 1 = 2 := by
    rw [exp_moment one_pos]; norm_num [Nat.factorial]
  have hl : Tendsto (fun n : ℕ => ∫ x, min x (n : ℝ) ^ 2 ∂expMeasure 1) atTop (𝓝 (∫ x, x ^ 2 ∂expMeasure 1)) := by
    refine tendsto_integral_of_dominated_convergence (fun x => x ^ 2) (fun n => by fun_prop) (exp_moment_integrable one_pos 2)
      (fun n => ?_) ?_
    · filter_upwards [Expon.ae_pos one_pos] with x hx
      rw [Real.norm_eq_abs, abs_of_nonneg (sq_nonneg _)]
      exact pow_le_pow_left₀ (le_min hx.le (Nat.cast_nonneg n)) (min_le_left _ _) 2
    · refine .of_forall fun x => tendsto_const_nhds.congr' ?_
      filter_upwards [(tendsto_natCast_atTop_atTop (R := ℝ)).eventually (eventually_ge_atTop x)] with n hn
      rw [min_eq_left hn]
  rw [h2] at hl
  obtain ⟨n, h, hn⟩ := ((hl.eventually (lt_mem_nhds (show 2 - t < 2 by linarith))).and (eventually_gt_atTop 0)).exists
  exact ⟨n, by exact_mod_cast hn, h⟩

/-- The squared distance between the order statistics of exponential observations and their scores vanishes. -/
theorem hegazy_small {t : ℝ} (ht : 0 < t) : ∀ᵐ ω ∂seqLaw (expMeasure 1), ∀ᶠ n : ℕ in atTop,
    (∑ i : Fin (sort (List.ofFn (firsts n ω))).length, ((sort (List.ofFn (firsts n ω)))[i] - hgScore n i) ^ 2) / n < t := by
  have hpr := isProbabilityMeasure_expMeasure one_pos
  obtain ⟨M, hM, hcap⟩ := capped_moment (show 0 < t / 8 by positivity)
  have hint : Integrable (fun x => min x M ^ 2) (expMeasure 1) := by
    refine (exp_moment_integrable one_pos 2).mono' (by fun_prop) ?_
    filter_upwards [Expon.ae_pos one_pos] with x hx
    rw [Real.norm_eq_abs, abs_of_nonneg (sq_nonneg _)]
    exact pow_le_pow_left₀ (le_min hx.le hM.le) (min_le_left _ _) 2
  have h2 : ∫ x, x ^ 2 ∂expMeasure 1 = 2 := by
    rw [exp_moment one_pos]; norm_num [Nat.factorial]
  filter_upwards [scores_near (exp_continuous one_pos) (cappedQuantile_continuous M), seq_ae (Expon.ae_pos one_pos),
    settles_integral (by fun_prop : Measurable fun x : ℝ => x ^ 2) (exp_moment_integrable one_pos 2),
    settles_integral (by fun_prop : Measurable fun x : ℝ => min x M ^ 2) hint] with ω h1 hpos h3 h4
  have hη : 0 < t / (8 * (M + 1)) := by positivity
  filter_upwards [h1 _ hη, h3.eventually (gt_mem_nhds (show ∫ x, x ^ 2 ∂expMeasure 1 < 2 + t / 8 by rw [h2]; linarith)),
    h4.eventually (lt_mem_nhds hcap), eventually_gt_atTop 0] with n k1 k2 k3 hn
  have hN : (0 : ℝ) < n := by exact_mod_cast hn
  rw [integral_empirical, List.length_ofFn, div_lt_iff₀ hN, ← sum_sorted] at k2
  rw [integral_empirical, List.length_ofFn, lt_div_iff₀ hN, ← sum_sorted] at k3
  have k4 := hg_sum_sq n
  have k5 := sum_places (List.ofFn (firsts n ω)) (fun i => hgScore n i ^ 2)
  rw [List.length_ofFn] at k5
  rw [← k5] at k4
  rw [div_lt_iff₀ hN]
  have hlen : ((sort (List.ofFn (firsts n ω))).length : ℝ) = n := by
    rw [(sort_perm _).length_eq, List.length_ofFn]
  have key : ∑ i : Fin (sort (List.ofFn (firsts n ω))).length, ((sort (List.ofFn (firsts n ω)))[i] - hgScore n i) ^ 2 ≤
      ∑ i : Fin (sort (List.ofFn (firsts n ω))).length, (((sort (List.ofFn (firsts n ω)))[i] ^ 2 + hgScore n i ^ 2 -
        2 * min (sort (List.ofFn (firsts n ω)))[i] M ^ 2) + 2 * (M * (t / (8 * (M + 1))))) := by
    refine Finset.sum_le_sum fun i _ => ?_
    have hx : 0 < (sort (List.ofFn (firsts n ω)))[i] := by
      obtain ⟨j, hj⟩ := List.mem_ofFn.1 ((sort_perm _).mem_iff.1 (List.getElem_mem i.2))
      have := hpos j
      rw [Fin.getElem_fin, ← hj]
      exact this
    have hin : (i : ℕ) < n := i.2.trans_eq ((sort_perm _).length_eq.trans List.length_ofFn)
    have hk := k1 i i.2
    rw [cappedQuantile_score hin] at hk
    rw [Fin.getElem_fin] at hx ⊢
    rw [cappedQuantile_exp hx] at hk
    generalize (sort (List.ofFn (firsts n ω)))[(i : ℕ)] = x at *
    have hq : 0 ≤ hgScore n i := by
      rw [hgScore, neg_nonneg]
      refine Real.log_nonpos ?_ ?_
      · rw [sub_nonneg, div_le_one (by positivity)]
        have : ((i : ℕ) : ℝ) < n := by exact_mod_cast hin
        linarith
      · have : (0 : ℝ) ≤ (((i : ℕ) : ℝ) + 1) / (n + 1) := by positivity
        linarith
    generalize hgScore n i = q at *
    generalize t / (8 * (M + 1)) = η at *
    have a1 : 0 ≤ min x M := le_min hx.le hM.le
    have a2 : min x M ≤ x := min_le_left _ _
    have a3 : 0 ≤ min q M := le_min hq hM.le
    have a4 : min q M ≤ q := min_le_left _ _
    have a5 : min x M ≤ M := min_le_right _ _
    have a6 := (abs_le.1 hk).1
    have a7 : min x M * min q M ≤ x * q := mul_le_mul a2 a4 a3 hx.le
    have a8 : min x M * (min x M - η) ≤ min x M * min q M := mul_le_mul_of_nonneg_left (by linarith) a1
    have a9 : min x M * η ≤ M * η := mul_le_mul_of_nonneg_right a5 hη.le
    nlinarith
  refine lt_of_le_of_lt key ?_
  rw [Finset.sum_add_distrib, Finset.sum_sub_distrib, Finset.sum_add_distrib, ← Finset.mul_sum, Finset.sum_const,
    Finset.card_univ, Fintype.card_fin, nsmul_eq_mul, hlen]
  have hMη : M * (t / (8 * (M + 1))) ≤ t / 8 := by
    rw [mul_div_assoc', div_le_div_iff₀ (by positivity) (by norm_num)]
    nlinarith
  have hMη' : (n : ℝ) * (2 * (M * (t / (8 * (M + 1))))) ≤ n * (2 * (t / 8)) :=
    mul_le_mul_of_nonneg_left (by linarith) hN.le
  nlinarith

theorem exp_short {x q : ℝ} (hx : 0 ≤ x) (hq : 0 ≤ q) : |Real.exp (-x) - Real.exp (-q)| ≤ |x - q| := by
  have key : ∀ x q : ℝ, 0 ≤ x → x ≤ q → |Real.exp (-x) - Real.exp (-q)| ≤ |x - q| := fun x q hx hxq => by
    have h1 : Real.exp (-q) ≤ Real.exp (-x) := Real.exp_le_exp.2 (by linarith)
    have e : Real.exp (-q) = Real.exp (-x) * Real.exp (-(q - x)) := by rw [← Real.exp_add]; congr 1; ring
    have h2 := Real.add_one_le_exp (-(q - x))
    have h3 : Real.exp (-x) ≤ 1 := Real.exp_le_one_iff.2 (by linarith)
    have h4 := Real.exp_pos (-x)
    rw [abs_of_nonneg (by linarith), abs_sub_comm, abs_of_nonneg (by linarith), e]
    nlinarith
  rcases le_total x q with h | h
  · exact key x q hx h
  · rw [abs_sub_comm, abs_sub_comm x]
    exact key q x hq h

theorem hgScore_exp {n i : ℕ} (h : i < n) : 0 ≤ hgScore n i ∧ Real.exp (-hgScore n i) = 1 - ((i : ℝ) + 1) / (n + 1) := by
  have h1 : (0 : ℝ) < 1 - ((i : ℝ) + 1) / (n + 1) := by
    rw [sub_pos, div_lt_one (by positivity)]
    have : (i : ℝ) < n := by exact_mod_cast h
    linarith
  rw [hgScore, neg_neg, Real.exp_log h1, neg_nonneg]
  refine ⟨Real.log_nonpos h1.le ?_, rfl⟩
  have : (0 : ℝ) ≤ ((i : ℝ) + 1) / (n + 1) := by positivity
  linarith

/-- The distance between the law and the exponential law of rate one, averaged over the observations. -/
noncomputable def unitGap (Q : Measure ℝ) (x : ℝ) : ℝ := |1 - Real.exp (-x) - cdf Q x|

section
variable {Q : Measure ℝ} [IsProbabilityMeasure Q] (hc : Continuous (cdf Q)) (hpos : ∀ᵐ x ∂Q, 0 < x)

include hc hpos in
theorem unitGap_integrable : Integrable (unitGap Q) Q := by
  refine Integrable.of_bound (C := 2) ?_ ?_
  · unfold unitGap
    exact (by fun_prop : Continuous fun x => |1 - Real.exp (-x) - cdf Q x|).aestronglyMeasurable
  · filter_upwards [hpos] with x hx
    rw [unitGap, Real.norm_eq_abs, abs_abs, abs_le]
    have h1 := Real.exp_pos (-x)
    have h2 : Real.exp (-x) ≤ 1 := Real.exp_le_one_iff.2 (by linarith)
    have h3 := cdf_nonneg Q x
    have h4 := cdf_le_one Q x
    constructor <;> linarith

include hc hpos in
theorem unitGap_pos (h : Q ≠ expMeasure 1) : 0 < ∫ x, unitGap Q x ∂Q := by
  have h0 : 0 ≤ ∫ x, unitGap Q x ∂Q := integral_nonneg fun x => abs_nonneg _
  refine lt_of_le_of_ne h0 fun e => h ?_
  have := exponential_of_cdf hc hpos one_pos ?_
  · rwa [one_div_one] at this
  · have := (integral_eq_zero_iff_of_nonneg (fun x => abs_nonneg _) (unitGap_integrable hc hpos)).1 e.symm
    filter_upwards [this] with x hx
    have := abs_eq_zero.1 hx
    rw [div_one]
    linarith

include hc hpos in
/-- The order statistics of a law other than the exponential one of rate one stay away from the scores. -/
theorem hegazy_large {c : ℝ} (h : c < ∫ x, unitGap Q x ∂Q) : ∀ᵐ ω ∂seqLaw Q, ∀ᶠ n : ℕ in atTop,
    c < (∑ i : Fin (sort (List.ofFn (firsts n ω))).length, |(sort (List.ofFn (firsts n ω)))[i] - hgScore n i|) / n := by
  have hm : Continuous (unitGap Q) := by unfold unitGap; fun_prop
  obtain ⟨d, h1, h2⟩ := exists_between h
  filter_upwards [ranks_near hc, seq_ae hpos, settles_integral hm.measurable (unitGap_integrable hc hpos)] with ω g1 g2 g3
  filter_upwards [g1 (d - c) (by linarith), g3.eventually (lt_mem_nhds h2), eventually_gt_atTop 0] with n k1 k2 hn
  have hN : (0 : ℝ) < n := by exact_mod_cast hn
  rw [integral_empirical, List.length_ofFn, lt_div_iff₀ hN, ← sum_sorted] at k2
  have hlen : ((sort (List.ofFn (firsts n ω))).length : ℝ) = n := by
    rw [(sort_perm _).length_eq, List.length_ofFn]
  have key : ∑ i : Fin (sort (List.ofFn (firsts n ω))).length, (unitGap Q (sort (List.ofFn (firsts n ω)))[i] - (d - c)) ≤
      ∑ i : Fin (sort (List.ofFn (firsts n ω))).length, |(sort (List.ofFn (firsts n ω)))[i] - hgScore n i| := by
    refine Finset.sum_le_sum fun i _ => ?_
    have hx : 0 < (sort (List.ofFn (firsts n ω)))[i] := by
      obtain ⟨j, hj⟩ := List.mem_ofFn.1 ((sort_perm _).mem_iff.1 (List.getElem_mem i.2))
      have := g2 j
      rw [Fin.getElem_fin, ← hj]
      exact this
    have hin : (i : ℕ) < n := i.2.trans_eq ((sort_perm _).length_eq.trans List.length_ofFn)
    obtain ⟨q1, q2⟩ := hgScore_exp hin
    have hk := k1 i i.2
    rw [Fin.getElem_fin] at hx ⊢
    generalize (sort (List.ofFn (firsts n ω)))[(i : ℕ)] = x at *
    have hs := exp_short hx.le q1
    rw [q2] at hs
    refine le_trans ?_ hs
    have e : |1 - Real.exp (-x) - cdf Q x| ≤ |Real.exp (-x) - (1 - (((i : ℕ) : ℝ) + 1) / (n + 1))| +
        |(((i : ℕ) : ℝ) + 1) / (n + 1) - cdf Q x| := by
      rw [abs_sub_comm (Real.exp (-x))]
      refine le_trans (le_of_eq ?_) (abs_add_le _ _)
      congr 1
      ring
    rw [unitGap]
    linarith
  rw [Finset.sum_sub_distrib, Finset.sum_const, Finset.card_univ, Fintype.card_fin, nsmul_eq_mul, hlen] at key
  rw [lt_div_iff₀ hN]
  nlinarith

end

theorem hegazy_values (code : String) (params : Option (List (String × ℝ))) {n : ℕ} (hn : 0 < n) (ω : ℕ → ℝ) :
    (ExpStat.hegazyGreen1.statistic code params).execute (List.ofFn (firsts n ω)) =
      .ok ((∑ i : Fin (sort (List.ofFn (firsts n ω))).length, |(sort (List.ofFn (firsts n ω)))[i] - hgScore n i|) / n) ∧
    (ExpStat.hegazyGreen2.statistic code params).execute (List.ofFn (firsts n ω)) =
      .ok ((∑ i : Fin (sort (List.ofFn (firsts n ω))).length, ((sort (List.ofFn (firsts n ω)))[i] - hgScore n i) ^ 2) / n) := by
  simp only [ExpStat.statistic, ExpStat.value, hegazyGreen1, hegazyGreen2, List.length_ofFn, if_neg hn.ne', sum_mapIdx]
  rw [inv_mul_eq_div, inv_mul_eq_div]
  exact ⟨rfl, rfl⟩

/-- The mean distance is at most the root of the mean squared distance. -/
theorem mean_le_sq {m : ℕ} (f : Fin m → ℝ) {n : ℝ} (hn : n = m) (h0 : 0 < n) :
    ((∑ i, |f i|) / n) ^ 2 ≤ (∑ i, f i ^ 2) / n := by
  have h := sq_sum_le_card_mul_sum_sq (s := (Finset.univ : Finset (Fin m))) (f := fun i => |f i|)
  simp only [Finset.card_univ, Fintype.card_fin, sq_abs] at h
  rw [div_pow, div_le_div_iff₀ (by positivity) h0, ← hn] at *
  nlinarith

section
variable (code : String) (params : Option (List (String × ℝ))) (classes : List GeneratorClass)
  (hp : classes.Perm generatorClasses)

include hp in
/-- **C147 is false of Hegazy and Green**: both classes are judged in the left tail, so that every continuous law of positive
observations other than the law with which they compare is accepted in the long run. -/
theorem C147_refuted_hegazyGreen : ∃ G, (Gen.Family.exponential 1).simulator classes = .ok G ∧
    (∀ n, G.generate n = .ok (iid n (expMeasure 1))) ∧
    ∀ Q : Measure ℝ, IsProbabilityMeasure Q → Continuous (cdf Q) → (∀ᵐ x ∂Q, 0 < x) → Q ≠ expMeasure 1 →
      Undetected (ExpStat.hegazyGreen1.statistic code params) Q (expMeasure 1) ∧
      Undetected (ExpStat.hegazyGreen2.statistic code params) Q (expMeasure 1) := by
  have hpr := isProbabilityMeasure_expMeasure one_pos
  obtain ⟨G, hG, hgen⟩ := simulates_all (f := .exponential 1) fun n => C111_exponential classes hp 1 one_pos n
  refine ⟨G, hG, hgen, fun Q _ hc hpos hne => ?_⟩
  obtain ⟨c, h1, h2⟩ := exists_between (unitGap_pos hc hpos hne)
  have hlen : ∀ (n : ℕ) (ω : ℕ → ℝ), (n : ℝ) = (sort (List.ofFn (firsts n ω))).length := fun n ω => by
    rw [(sort_perm _).length_eq, List.length_ofFn]
  constructor
  · refine limit_undetected (exponential_meas _ code params) (t := fun _ => c) (Or.inl ⟨rfl, ?_, ?_⟩)
    · filter_upwards [hegazy_large hc hpos h2] with ω h
      filter_upwards [h, eventually_gt_atTop 0] with n k hn
      exact ⟨_, (hegazy_values code params hn ω).1, k⟩
    · filter_upwards [hegazy_small (pow_pos h1 2)] with ω h
      filter_upwards [h, eventually_gt_atTop 0] with n k hn
      refine ⟨_, (hegazy_values code params hn ω).1, ?_⟩
      have := mean_le_sq (fun i => (sort (List.ofFn (firsts n ω)))[i] - hgScore n i) (hlen n ω) (by exact_mod_cast hn)
      exact lt_of_pow_lt_pow_left₀ 2 h1.le (this.trans_lt k)
  · refine limit_undetected (exponential_meas _ code params) (t := fun _ => c ^ 2) (Or.inl ⟨rfl, ?_, ?_⟩)
    · filter_upwards [hegazy_large hc hpos h2] with ω h
      filter_upwards [h, eventually_gt_atTop 0] with n k hn
      refine ⟨_, (hegazy_values code params hn ω).2, ?_⟩
      have := mean_le_sq (fun i => (sort (List.ofFn (firsts n ω)))[i] - hgScore n i) (hlen n ω) (by exact_mod_cast hn)
      exact (pow_lt_pow_left₀ k h1.le two_ne_zero).trans_le this
    · filter_upwards [hegazy_small (pow_pos h1 2)] with ω h
      filter_upwards [h, eventually_gt_atTop 0] with n k hn
      exact ⟨_, (hegazy_values code params hn ω).2, k⟩

end

/-- Exponential observations of another rate, and lifetimes after a guarantee, are accepted. -/
example : Undetected (ExpStat.hegazyGreen1.statistic "" none) (expMeasure 2) (expMeasure 1) ∧
    Undetected (ExpStat.hegazyGreen2.statistic "" none) shiftedExp (expMeasure 1) := by
  obtain ⟨_, _, _, h⟩ := C147_refuted_hegazyGreen "" none _ (List.Perm.refl _)
  obtain ⟨h1, h2, h3, h4, h5⟩ := shiftedExp_facts
  refine ⟨(h _ (isProbabilityMeasure_expMeasure two_pos) (exp_continuous two_pos) (Expon.ae_pos two_pos) fun e => ?_).1,
    (h _ h1 h4 (h2.mono fun x hx => one_pos.trans hx) fun e => ?_).2⟩
  · have := lawMean_exp two_pos
    rw [e, lawMean_exp one_pos] at this
    norm_num at this
  · rw [e, kocharIndex_exp one_pos] at h5
    exact lt_irrefl _ h5

end Pysatl.Props
