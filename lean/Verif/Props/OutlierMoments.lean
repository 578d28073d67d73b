import Verif.Props.Outlier
import Verif.Props.ConsistencyNormal
import Verif.Props.SensitiveNormal

/-! # C134 for the other criteria of normality that use moments -/

namespace Pysatl.Props

open Pysatl.Decision Pysatl.Graph Pysatl.Edf Pysatl.Exponent Pysatl.Normal Pysatl.Spec Filter Topology

/-! ### Robust Jarque-Bera and Bontemps-Meddahi -/

theorem gmg_outlier {xs : List ℝ} (h : 2 ≤ xs.length) {n : ℝ} (hN : n = xs.length + 1) :
    Tendsto (fun y : ℝ => Normal.gmg (y :: xs)) atTop (𝓝 (√(n - 1) / √(Real.pi / 2))) := by
  have h2' : (2 : ℝ) ≤ xs.length := by exact_mod_cast h
  have hn' : 0 < n := by linarith
  have hp : 0 < √(Real.pi / 2) := Real.sqrt_pos.2 (by positivity)
  have h1 := (((sum_abs_outlier (medianAway xs) xs).const_mul √(Real.pi / 2)).div_const n)
  have h2 := (stdDev_outlier xs hN).div h1 (by positivity)
  rw [mul_one, div_div_div_cancel_right₀ (by positivity)] at h2
  refine Tendsto.congr' ?_ h2
  filter_upwards [eventually_gt_atTop 0, eventually_above xs] with y hy ha
  simp only [Pi.div_apply]
  rw [gmg_eq, median_outlier (by omega) ha, List.length_cons, Nat.cast_add, Nat.cast_one, ← hN]
  generalize (List.map (fun x => |x - medianAway xs|) (y :: xs)).sum = A
  rw [← mul_div_assoc, div_right_comm _ y n, div_div_div_cancel_right₀ hy.ne']

/-- Where the observations vary, the robust Jarque-Bera statistic is made of the skewness, the kurtosis and
the ratio of the two measures of dispersion. -/
theorem robustJarqueBera_eq (lib : NormLib) {xs : List ℝ} (hv : Varies xs) :
    NormStat.value lib .robustJarqueBera xs = .ok (some (xs.length *
      ((skewness xs * Normal.gmg xs ^ 3) ^ 2 / 6 + (kurtosis xs * Normal.gmg xs ^ 4 - 3) ^ 2 / 64))) := by
  have hs := stdDev_pos hv
  simp only [NormStat.value, Normal.robustJarqueBera, moment_perm (sort_perm xs), moment_spec]
  rw [gmg_eq, skewness, kurtosis]
  have e : √(Real.pi / 2) / xs.length * (xs.map fun x => |x - median (sort xs)|).sum =
      √(Real.pi / 2) * (xs.map fun x => |x - median (sort xs)|).sum / xs.length := by ring
  simp only [e]
  generalize √(Real.pi / 2) * (xs.map fun x => |x - median (sort xs)|).sum / xs.length = J
  have e3 : Spec.centralMoment 3 xs / stdDev xs ^ 3 * (stdDev xs / J) ^ 3 = Spec.centralMoment 3 xs / J ^ 3 := by
    rw [div_pow]
    field_simp
  have e4 : Spec.centralMoment 4 xs / stdDev xs ^ 4 * (stdDev xs / J) ^ 4 = Spec.centralMoment 4 xs / J ^ 4 := by
    rw [div_pow]
    field_simp
  rw [e3, e4]
  congr 2
  ring

theorem varies_outlier {xs : List ℝ} (h : xs ≠ []) : ∀ᶠ y : ℝ in atTop, Varies (y :: xs) := by
  obtain ⟨x, hx⟩ := List.exists_mem_of_ne_nil xs h
  filter_upwards [eventually_gt_atTop x] with y hy
  exact ⟨y, List.mem_cons_self, x, List.mem_cons_of_mem _ hx, hy.ne'⟩

theorem gmg_nonneg (xs : List ℝ) : 0 ≤ Normal.gmg xs := by
  rw [gmg_eq]
  refine div_nonneg (Real.sqrt_nonneg _) (div_nonneg (mul_nonneg (Real.sqrt_nonneg _) ?_) (Nat.cast_nonneg _))
  exact List.sum_nonneg fun a ha => by
    obtain ⟨b, -, rfl⟩ := List.mem_map.1 ha
    exact abs_nonneg _

/-- **C134**: when one observation is moved away, the robust Jarque-Bera statistic tends to the largest
value it can take at this sample size. -/
theorem C134_robustJarqueBera (lib : NormLib) {n : ℕ} (hn : 9 ≤ n) :
    StrongestAtInfinity (NormStat.value lib .robustJarqueBera) n := by
  intro xs hx
  have hn' : (9 : ℝ) ≤ n := by exact_mod_cast hn
  have hN : (n : ℝ) = xs.length + 1 := by exact_mod_cast hx.symm
  have h1 := skewness_outlier xs hN (by linarith)
  have h2 := kurtosis_outlier xs hN (by linarith)
  have h3 := gmg_outlier (by omega) hN
  refine ⟨fun y => n * ((skewness (y :: xs) * Normal.gmg (y :: xs) ^ 3) ^ 2 / 6 +
      (kurtosis (y :: xs) * Normal.gmg (y :: xs) ^ 4 - 3) ^ 2 / 64), _, ?_,
    (continuous_coe_real_ereal.tendsto _).comp (((((h1.mul (h3.pow 3)).pow 2).div_const 6).add
      ((((h2.mul (h3.pow 4)).sub_const 3).pow 2).div_const 64)).const_mul (n : ℝ)), ?_⟩
  · filter_upwards [varies_outlier (xs := xs) (List.ne_nil_of_length_pos (by omega))] with y hy
    rw [robustJarqueBera_eq lib hy, List.length_cons, hx]
  · intro zs v hz hv hval
    rw [EReal.coe_le_coe_iff]
    rw [robustJarqueBera_eq lib hv, hz] at hval
    simp only [Except.ok.injEq, Option.some.injEq] at hval
    have hs := skewness_abs_le (zs := zs) hv (by omega)
    have hk := kurtosis_bounds (zs := zs) hv (by omega)
    have hg := gmg_le (zs := zs) hv (by omega)
    have hg0 := gmg_nonneg zs
    rw [hz] at hs hk hg
    rw [← hval]
    have hp : 0 < √(Real.pi / 2) := Real.sqrt_pos.2 (by positivity)
    have hp2 : √(Real.pi / 2) ^ 2 = Real.pi / 2 := Real.sq_sqrt (by positivity)
    have hr2 : √((n : ℝ) - 1) ^ 2 = n - 1 := Real.sq_sqrt (by linarith)
    have hG4 : 16 ≤ (√((n : ℝ) - 1) / √(Real.pi / 2)) ^ 4 := by
      have : 4 ≤ (√((n : ℝ) - 1) / √(Real.pi / 2)) ^ 2 := by
        rw [div_pow, hp2, hr2, le_div_iff₀ (by positivity)]
        linarith [Real.pi_lt_four]
      nlinarith
    generalize √((n : ℝ) - 1) / √(Real.pi / 2) = G at *
    have a1 : (skewness zs * Normal.gmg zs ^ 3) ^ 2 ≤ (((n : ℝ) - 2) / √((n : ℝ) - 1) * G ^ 3) ^ 2 := by
      rw [← sq_abs, abs_mul, abs_of_nonneg (pow_nonneg hg0 3)]
      refine pow_le_pow_left₀ (by positivity) ?_ 2
      exact mul_le_mul hs (pow_le_pow_left₀ hg0 hg 3) (by positivity) ((abs_nonneg _).trans hs)
    have a2 : (kurtosis zs * Normal.gmg zs ^ 4 - 3) ^ 2 ≤
        (((n : ℝ) ^ 2 - 3 * n + 3) / ((n : ℝ) - 1) * G ^ 4 - 3) ^ 2 := by
      have h5 : 5 ≤ ((n : ℝ) ^ 2 - 3 * n + 3) / ((n : ℝ) - 1) := by
        rw [le_div_iff₀ (by linarith)]
        nlinarith
      have b1 : kurtosis zs * Normal.gmg zs ^ 4 ≤ ((n : ℝ) ^ 2 - 3 * n + 3) / ((n : ℝ) - 1) * G ^ 4 :=
        mul_le_mul hk.2 (pow_le_pow_left₀ hg0 hg 4) (by positivity) (by linarith)
      have b2 : 0 ≤ kurtosis zs * Normal.gmg zs ^ 4 := mul_nonneg (by linarith [hk.1]) (by positivity)
      have b3 : 80 ≤ ((n : ℝ) ^ 2 - 3 * n + 3) / ((n : ℝ) - 1) * G ^ 4 := by
        generalize ((n : ℝ) ^ 2 - 3 * n + 3) / ((n : ℝ) - 1) = B at *
        nlinarith
      exact sq_le_sq' (by linarith) (by linarith)
    exact mul_le_mul_of_nonneg_left (by linarith) (by linarith)

/-- **C134**: when one observation is moved away, the first Bontemps-Meddahi statistic tends to the largest
value it can take at this sample size. -/
theorem C134_bontempsMeddahi1 (lib : NormLib) {n : ℕ} (hn : 9 ≤ n) :
    StrongestAtInfinity (NormStat.value lib .bontempsMeddahi1) n := by
  intro xs hx
  have hn' : (9 : ℝ) ≤ n := by exact_mod_cast hn
  have hN : (n : ℝ) = xs.length + 1 := by exact_mod_cast hx.symm
  have h1 := skewness_outlier xs hN (by linarith)
  have h2 := kurtosis_outlier xs hN (by linarith)
  have val : ∀ zs : List ℝ, zs.length = n → Varies zs → NormStat.value lib .bontempsMeddahi1 zs =
      .ok (some (n * ((skewness zs * √(((n : ℝ) - 1) / n) ^ 3) ^ 2 / 6 +
      (kurtosis zs * (((n : ℝ) - 1) / n) ^ 2 - 6 * (((n : ℝ) - 1) / n) + 3) ^ 2 / 24))) := by
    intro zs hz hv
    rw [← bontemps_value (by omega) hz (stdDev_pos hv)]
    simp only [NormStat.value, guarded, hz, if_pos (show 3 < n by omega), Except.map]
  refine ⟨fun y => n * ((skewness (y :: xs) * √(((n : ℝ) - 1) / n) ^ 3) ^ 2 / 6 +
      (kurtosis (y :: xs) * (((n : ℝ) - 1) / n) ^ 2 - 6 * (((n : ℝ) - 1) / n) + 3) ^ 2 / 24), _, ?_,
    (continuous_coe_real_ereal.tendsto _).comp (((((h1.mul_const _).pow 2).div_const 6).add
      (((((h2.mul_const _).sub_const _).add_const 3).pow 2).div_const 24)).const_mul (n : ℝ)), ?_⟩
  · filter_upwards [varies_outlier (xs := xs) (List.ne_nil_of_length_pos (by omega))] with y hy
    rw [val (y :: xs) hx hy]
  · intro zs v hz hv hval
    rw [EReal.coe_le_coe_iff]
    rw [val zs hz hv] at hval
    simp only [Except.ok.injEq, Option.some.injEq] at hval
    have hs := skewness_abs_le (zs := zs) hv (by omega)
    have hk := kurtosis_bounds (zs := zs) hv (by omega)
    rw [hz] at hs hk
    rw [← hval]
    have hc : 8 / 9 ≤ ((n : ℝ) - 1) / n := by
      rw [le_div_iff₀ (by linarith)]
      linarith
    have hc1 : ((n : ℝ) - 1) / n ≤ 1 := by
      rw [div_le_one (by linarith)]
      linarith
    generalize ((n : ℝ) - 1) / n = c at *
    have a1 : (skewness zs * √c ^ 3) ^ 2 ≤ (((n : ℝ) - 2) / √((n : ℝ) - 1) * √c ^ 3) ^ 2 := by
      rw [← sq_abs, abs_mul, abs_of_nonneg (pow_nonneg (Real.sqrt_nonneg c) 3)]
      refine pow_le_pow_left₀ (by positivity) ?_ 2
      exact mul_le_mul_of_nonneg_right hs (by positivity)
    have h7 : 7 ≤ ((n : ℝ) ^ 2 - 3 * n + 3) / ((n : ℝ) - 1) := by
      rw [le_div_iff₀ (by linarith)]
      nlinarith
    generalize ((n : ℝ) ^ 2 - 3 * n + 3) / ((n : ℝ) - 1) = B at *
    have a2 : (kurtosis zs * c ^ 2 - 6 * c + 3) ^ 2 ≤ (B * c ^ 2 - 6 * c + 3) ^ 2 := by
      have hc2 : 64 / 81 ≤ c ^ 2 := by nlinarith
      have b1 := mul_le_mul_of_nonneg_right hk.2 (sq_nonneg c)
      have b2 := mul_le_mul_of_nonneg_right hk.1 (sq_nonneg c)
      have b3 := mul_le_mul_of_nonneg_right h7 (sq_nonneg c)
      exact sq_le_sq' (by nlinarith) (by linarith)
    exact mul_le_mul_of_nonneg_left (by linarith) (by linarith)

/-! ### Kurtosis -/

theorem anscombe_shape {n E V A : ℝ} (h : AnscombeGlynn n E V A) : ∃ q, 0 < q ∧
    q * ((6 * (n ^ 2 - 5 * n + 2) / ((n + 7) * (n + 9))) ^ 2 *
      (6 * (n + 3) * (n + 5) / (n * (n - 2) * (n - 3)))) = 1 ∧ A = 6 + 16 * q + 8 * √(q + 4 * q ^ 2) := by
  obtain ⟨s, hs, h2, hA⟩ := h.param
  refine ⟨1 / s ^ 2, by positivity, by rw [← h2]; field_simp, ?_⟩
  have e : 1 / s ^ 2 + 4 * (1 / s ^ 2) ^ 2 = (1 / s) ^ 2 * (1 + 4 / s ^ 2) := by
    field_simp
  rw [hA, e, Real.sqrt_mul (by positivity), Real.sqrt_sq (by positivity)]
  generalize √(1 + 4 / s ^ 2) = r
  field_simp
  ring

/-- Where the transform of the kurtosis has its pole. -/
theorem kurtosis_pole {E V A b : ℝ} (hV : 0 < V) (hA : 4 < A) (hb : b < E) :
    (0 < 1 + (b - E) / √V * √(2 / (A - 4)) ↔ (E - b) ^ 2 < V * ((A - 4) / 2)) ∧
    (1 + (b - E) / √V * √(2 / (A - 4)) < 0 ↔ V * ((A - 4) / 2) < (E - b) ^ 2) := by
  have hp : 0 < V * ((A - 4) / 2) := mul_pos hV (by linarith)
  have h0 : 0 < √(V * ((A - 4) / 2)) := Real.sqrt_pos.2 hp
  have e : (b - E) / √V * √(2 / (A - 4)) = -((E - b) / √(V * ((A - 4) / 2))) := by
    have h2 : √(2 / (A - 4)) = 1 / √((A - 4) / 2) := by
      rw [← Real.sqrt_one, ← Real.sqrt_div zero_le_one, one_div_div]
    rw [h2, mul_one_div, div_div, ← Real.sqrt_mul hV.le, ← neg_div]
    ring
  rw [e]
  constructor
  · rw [← sub_eq_add_neg, sub_pos, div_lt_one h0, Real.lt_sqrt (by linarith)]
  · rw [← sub_eq_add_neg, sub_neg, one_lt_div h0, Real.sqrt_lt' (by linarith)]

theorem kurtosis_pole_low {n : ℕ} (h5 : 5 ≤ n) (h34 : n ≤ 34) {E V A : ℝ} (h : AnscombeGlynn n E V A) :
    (E - 1) ^ 2 < V * ((A - 4) / 2) := by
  obtain ⟨q, hq, e, hA⟩ := anscombe_shape h
  have key : 1 / 5 ≤ q → 38 / 5 + 32 * q ≤ A := fun h5 => by
    have : 2 * q + 1 / 5 ≤ √(q + 4 * q ^ 2) := Real.le_sqrt_of_sq_le (by nlinarith)
    linarith
  have hE := h.mean
  have hV := h.var
  clear h hA
  interval_cases n <;> (norm_num at e hE hV; rw [hE, hV]; have := key (by linarith); nlinarith)

theorem kurtosis_pole_high {n : ℕ} (h35 : 35 ≤ n) {E V A : ℝ} (h : AnscombeGlynn n E V A) :
    V * ((A - 4) / 2) < (2 * n * (n - 3) / ((n + 1) * (n - 1))) ^ 2 := by
  obtain ⟨q, hq, e, hA⟩ := anscombe_shape h
  have hV := h.var
  by_cases h37 : 37 ≤ n
  · have hn : (37 : ℝ) ≤ n := by exact_mod_cast h37
    have hs : √(q + 4 * q ^ 2) ≤ 2 * q + 1 / 4 := Real.sqrt_le_iff.2 ⟨by positivity, by nlinarith⟩
    generalize (n : ℝ) = x at *
    obtain ⟨m, hm, rfl⟩ : ∃ m, 0 ≤ m ∧ x = m + 37 := ⟨x - 37, by linarith, by ring⟩
    have hc : 0 < (m + 37) ^ 2 - 5 * (m + 37) + 2 := by nlinarith
    have p3 : 0 < m + 37 - 3 := by linarith
    have p2 : 0 < m + 37 - 2 := by linarith
    have p1 : 0 < m + 37 - 1 := by linarith
    have hV0 : 0 < V := by rw [hV]; positivity
    have hq' : q = (m + 37) * (m + 37 - 2) * (m + 37 - 3) * ((m + 37 + 7) * (m + 37 + 9)) ^ 2 /
        (216 * (m + 37 + 3) * (m + 37 + 5) * ((m + 37) ^ 2 - 5 * (m + 37) + 2) ^ 2) := by
      rw [eq_div_iff (by positivity)]
      generalize (m + 37) ^ 2 - 5 * (m + 37) + 2 = c at *
      generalize m + 37 = x at *
      field_simp at e
      linarith
    have h1 : V * ((A - 4) / 2) ≤ V * (2 + 16 * q) := mul_le_mul_of_nonneg_left (by linarith) hV0.le
    refine h1.trans_lt (sub_pos.1 ?_)
    have d : (2 * (m + 37) * (m + 37 - 3) / ((m + 37 + 1) * (m + 37 - 1))) ^ 2 - V * (2 + 16 * q) =
        (m + 37) * (m + 37 - 3) * (36 * ((m + 37) * (m + 37 - 3) * (m + 37 + 3) ^ 2 * (m + 37 + 5) ^ 2 *
          ((m + 37) ^ 2 - 5 * (m + 37) + 2) ^ 2) -
          (432 * ((m + 37 - 2) * (m + 37 + 3) * (m + 37 + 5) * ((m + 37) ^ 2 - 5 * (m + 37) + 2) ^ 2 *
            (m + 37 - 1) ^ 2) + 16 * ((m + 37) * (m + 37 - 2) ^ 2 * (m + 37 - 3) * (m + 37 + 7) ^ 2 *
            (m + 37 + 9) ^ 2 * (m + 37 - 1) ^ 2))) /
        (9 * (m + 37 + 1) ^ 2 * (m + 37 + 3) ^ 2 * (m + 37 + 5) ^ 2 * (m + 37 - 1) ^ 2 *
          ((m + 37) ^ 2 - 5 * (m + 37) + 2) ^ 2) := by
      rw [hV, hq']
      generalize (m + 37) ^ 2 - 5 * (m + 37) + 2 = c at *
      generalize m + 37 = x at *
      field_simp
      ring
    rw [d]
    refine div_pos (mul_pos (by positivity) ?_) (by positivity)
    have t : 36 * ((m + 37) * (m + 37 - 3) * (m + 37 + 3) ^ 2 * (m + 37 + 5) ^ 2 *
          ((m + 37) ^ 2 - 5 * (m + 37) + 2) ^ 2) -
          (432 * ((m + 37 - 2) * (m + 37 + 3) * (m + 37 + 5) * ((m + 37) ^ 2 - 5 * (m + 37) + 2) ^ 2 *
            (m + 37 - 1) ^ 2) + 16 * ((m + 37) * (m + 37 - 2) ^ 2 * (m + 37 - 3) * (m + 37 + 7) ^ 2 *
            (m + 37 + 9) ^ 2 * (m + 37 - 1) ^ 2)) =
        2579533699276800 + 3291675738624000 * m + 715072659036800 * m ^ 2 + 74135471189568 * m ^ 3 +
          4570034351680 * m ^ 4 + 182504730240 * m ^ 5 + 4877143608 * m ^ 6 + 87064236 * m ^ 7 +
          1000276 * m ^ 8 + 6708 * m ^ 9 + 20 * m ^ 10 := by ring
    rw [t]
    positivity
  · have key : q ≤ 19 / 50 → √(q + 4 * q ^ 2) ≤ 2 * q + 219 / 1000 := fun h4 =>
      Real.sqrt_le_iff.2 ⟨by nlinarith, by nlinarith⟩
    have : n = 35 ∨ n = 36 := by omega
    rcases this with rfl | rfl <;> (norm_num at e hV ⊢; rw [hV, hA]; have := key (by linarith); nlinarith)

theorem kurtosis_half {n : ℕ} (hn : 4 ≤ n) :
    kurtosis (two n (n / 2)) ≤ 1 + 4 / ((n : ℝ) ^ 2 - 1) := by
  rw [kurtosis_two (by omega) (by omega), inv2]
  have hn' : (4 : ℝ) ≤ n := by exact_mod_cast hn
  have p : 0 < (n : ℝ) ^ 2 - 1 := by nlinarith
  rcases Nat.even_or_odd' n with ⟨k, rfl | rfl⟩
  · rw [Nat.mul_div_cancel_left _ two_pos]
    have hk : (0 : ℝ) < k := by exact_mod_cast (by omega : 0 < k)
    have : ((2 * k : ℕ) : ℝ) ^ 2 / (k * (((2 * k : ℕ) : ℝ) - k)) = 4 := by
      push_cast
      rw [div_eq_iff (by nlinarith)]
      ring
    rw [this]
    linarith [div_pos four_pos p]
  · rw [show (2 * k + 1) / 2 = k by omega]
    have hk : (0 : ℝ) < k := by exact_mod_cast (by omega : 0 < k)
    push_cast at p ⊢
    have : 0 < (k : ℝ) * (2 * k + 1 - k) := by nlinarith
    rw [← sub_nonneg]
    have e : 1 + 4 / ((2 * (k : ℝ) + 1) ^ 2 - 1) - ((2 * k + 1) ^ 2 / (k * (2 * k + 1 - k)) - 3) = 0 := by
      have h1 : (2 * (k : ℝ) + 1) ^ 2 - 1 = 4 * (k * (k + 1)) := by ring
      have h2 : (k : ℝ) * (2 * k + 1 - k) = k * (k + 1) := by ring
      rw [h1, h2]
      field_simp
      ring
    rw [e]

/-- Beyond its pole the transform is increasing and continuous. -/
theorem kurtosisZ_of_pos {n E V A b : ℝ} (hn : 5 ≤ n) (h : AnscombeGlynn n E V A)
    (hD : 0 < 1 + (b - E) / √V * √(2 / (A - 4))) :
    kurtosisZ n b = (1 - 2 / (9 * A) - ((1 - 2 / A) / (1 + (b - E) / √V * √(2 / (A - 4)))) ^ (1 / 3 : ℝ)) /
      √(2 / (9 * A)) := by
  rw [kurtosisZ_spec hn h rfl, Real.sign_of_pos hD, abs_of_pos hD, one_mul]

theorem kurtosisZ_mono {n E V A b c : ℝ} (hn : 5 ≤ n) (h : AnscombeGlynn n E V A)
    (hD : 0 < 1 + (b - E) / √V * √(2 / (A - 4))) (hbc : b ≤ c) : kurtosisZ n b ≤ kurtosisZ n c := by
  obtain ⟨-, hA, hV⟩ := kurtosis_param hn h rfl
  have h1 : 1 + (b - E) / √V * √(2 / (A - 4)) ≤ 1 + (c - E) / √V * √(2 / (A - 4)) := by
    have : (b - E) / √V ≤ (c - E) / √V := div_le_div_of_nonneg_right (by linarith) (Real.sqrt_nonneg _)
    have := mul_le_mul_of_nonneg_right this (Real.sqrt_nonneg (2 / (A - 4)))
    linarith
  rw [kurtosisZ_of_pos hn h hD, kurtosisZ_of_pos hn h (hD.trans_le h1)]
  refine div_le_div_of_nonneg_right ?_ (Real.sqrt_nonneg _)
  have ha : 0 < 1 - 2 / A := sub_pos.2 ((div_lt_one (by linarith)).2 (by linarith))
  have := Real.rpow_le_rpow (z := 1 / 3) (div_pos ha (hD.trans_le h1)).le
    (div_le_div_of_nonneg_left ha.le hD h1) (by norm_num)
  linarith

theorem kurtosisZ_tendsto {n E V A b : ℝ} (hn : 5 ≤ n) (h : AnscombeGlynn n E V A)
    (hD : 0 < 1 + (b - E) / √V * √(2 / (A - 4))) {g : ℝ → ℝ} (hg : Tendsto g atTop (𝓝 b)) :
    Tendsto (fun y => kurtosisZ n (g y)) atTop (𝓝 (kurtosisZ n b)) := by
  have h1 : Tendsto (fun y => 1 + (g y - E) / √V * √(2 / (A - 4))) atTop
      (𝓝 (1 + (b - E) / √V * √(2 / (A - 4)))) :=
    (((hg.sub_const E).div_const _).mul_const _).const_add 1
  have h2 := (((tendsto_const_nhds (x := 1 - 2 / A) (f := (atTop : Filter ℝ))).div h1 hD.ne').rpow_const
    (p := (1 / 3 : ℝ)) (Or.inr (by norm_num))).const_sub (1 - 2 / (9 * A)) |>.div_const √(2 / (9 * A))
  rw [kurtosisZ_of_pos hn h hD]
  refine Tendsto.congr' ?_ h2
  filter_upwards [h1.eventually (eventually_gt_nhds hD)] with y hy
  rw [kurtosisZ_of_pos hn h hy]
  rfl

/-- The kurtosis of a sample with one observation far away is beyond the pole. -/
theorem kurtosis_far {n E V A : ℝ} (hn : 9 ≤ n) (h : AnscombeGlynn n E V A) :
    0 < 1 + ((n ^ 2 - 3 * n + 3) / (n - 1) - E) / √V * √(2 / (A - 4)) := by
  have : E ≤ (n ^ 2 - 3 * n + 3) / (n - 1) := by
    have : E ≤ 3 := by
      rw [h.mean, div_le_iff₀ (by linarith)]
      linarith
    refine this.trans ?_
    rw [le_div_iff₀ (by linarith)]
    nlinarith
  have := mul_nonneg (div_nonneg (sub_nonneg.2 this) (Real.sqrt_nonneg V)) (Real.sqrt_nonneg (2 / (A - 4)))
  linarith

theorem kurtosisZ_outlier {n : ℕ} (hn : 9 ≤ n) {xs : List ℝ} (hx : xs.length + 1 = n) :
    Tendsto (fun y => kurtosisZ n (kurtosis (y :: xs))) atTop
      (𝓝 (kurtosisZ n (((n : ℝ) ^ 2 - 3 * n + 3) / (n - 1)))) := by
  have hn' : (9 : ℝ) ≤ n := by exact_mod_cast hn
  have hN : (n : ℝ) = xs.length + 1 := by exact_mod_cast hx.symm
  obtain ⟨E, V, A, h⟩ := exists_anscombeGlynn (n := n) (by linarith)
  exact kurtosisZ_tendsto (by linarith) h (kurtosis_far hn' h) (kurtosis_outlier xs hN (by linarith))

/-- **C134**: when one observation is moved away, the kurtosis criterion tends to the largest value it can
take at this sample size, for sample sizes from nine to thirty-four. -/
theorem C134_kurtosis (lib : NormLib) {n : ℕ} (hn : 9 ≤ n) (h34 : n ≤ 34) :
    StrongestAtInfinity (NormStat.value lib .kurtosis) n := by
  intro xs hx
  have hn' : (9 : ℝ) ≤ n := by exact_mod_cast hn
  obtain ⟨E, V, A, h⟩ := exists_anscombeGlynn (n := n) (by linarith)
  obtain ⟨-, hA, hV⟩ := kurtosis_param (by linarith) h rfl
  refine ⟨fun y => kurtosisZ n (kurtosis (y :: xs)), _, ?_,
    (continuous_coe_real_ereal.tendsto _).comp (kurtosisZ_outlier hn hx), ?_⟩
  · refine Eventually.of_forall fun y => ?_
    rw [kurtosis_value lib (by simp; omega), List.length_cons, hx]
  · intro zs v hz hv hval
    rw [EReal.coe_le_coe_iff]
    rw [kurtosis_value lib (by omega), hz] at hval
    simp only [Except.ok.injEq, Option.some.injEq] at hval
    have hk := kurtosis_bounds (zs := zs) hv (by omega)
    rw [hz] at hk
    rw [← hval]
    refine kurtosisZ_mono (by linarith) h ?_ hk.2
    have hE : 1 < E := by
      rw [h.mean, lt_div_iff₀ (by linarith)]
      linarith
    have h1 := (kurtosis_pole hV (by linarith) hE).1.2 (kurtosis_pole_low (by omega) h34 h)
    refine h1.trans_le ?_
    have : (1 - E) / √V ≤ (kurtosis zs - E) / √V :=
      div_le_div_of_nonneg_right (by linarith [hk.1]) (Real.sqrt_nonneg _)
    have := mul_le_mul_of_nonneg_right this (Real.sqrt_nonneg (2 / (A - 4)))
    linarith

/-- Half of the observations are zero and half are one, except that one of the zeros is replaced. -/
noncomputable def halves (n : ℕ) (y : ℝ) : List ℝ :=
  y :: (List.replicate (n - n / 2 - 1) 0 ++ List.replicate (n / 2) 1)

theorem halves_length {n : ℕ} (hn : 4 ≤ n) (y : ℝ) : (halves n y).length = n := by
  simp [halves]
  omega

theorem halves_varies {n : ℕ} (hn : 4 ≤ n) (y : ℝ) : Varies (halves n y) :=
  ⟨0, List.mem_cons_of_mem _ (List.mem_append_left _ (List.mem_replicate.2 ⟨by omega, rfl⟩)), 1,
    List.mem_cons_of_mem _ (List.mem_append_right _ (List.mem_replicate.2 ⟨by omega, rfl⟩)), zero_ne_one⟩

theorem halves_zero {n : ℕ} (hn : 4 ≤ n) : halves n 0 = two n (n / 2) := by
  rw [halves, two, ← List.cons_append, ← List.replicate_succ]
  congr 2
  omega

theorem halves_meanOf {n : ℕ} (hn : 4 ≤ n) (f : ℝ → ℝ) (y : ℝ) : meanOf f (halves n y) =
    (f y + (((n - n / 2 - 1 : ℕ) : ℝ) * f 0 + ((n / 2 : ℕ) : ℝ) * f 1)) / n := by
  rw [meanOf, halves_length hn, halves]
  simp

theorem halves_continuous {n : ℕ} (hn : 4 ≤ n) : Continuous fun y => kurtosis (halves n y) := by
  have e : ∀ y, kurtosis (halves n y) =
      Spec.centralMoment 4 (halves n y) / Spec.centralMoment 2 (halves n y) ^ 2 := fun y => by
    rw [kurtosis, show stdDev (halves n y) ^ 4 = (stdDev (halves n y) ^ 2) ^ 2 by ring, stdDev_sq]
  simp only [e]
  have hc : ∀ k, Continuous fun y => Spec.centralMoment k (halves n y) := fun k => by
    simp only [Spec.centralMoment, halves_meanOf hn, id]
    fun_prop
  refine (hc 4).div ((hc 2).pow 2) fun y => pow_ne_zero 2 ?_
  rw [← stdDev_sq]
  exact pow_ne_zero 2 (stdDev_pos (halves_varies hn y)).ne'

/-- From thirty-five observations on, the kurtosis reaches the pole of the transform, and comes as close to it
as one likes from below. -/
theorem kurtosis_near_pole {n : ℕ} (hn : 35 ≤ n) {E V A : ℝ} (h : AnscombeGlynn n E V A) :
    ∃ d₀ < 0, ∀ d, d₀ < d → d ≤ 0 → ∃ zs : List ℝ, zs.length = n ∧ Varies zs ∧
      1 + (kurtosis zs - E) / √V * √(2 / (A - 4)) = d := by
  have hn' : (35 : ℝ) ≤ n := by exact_mod_cast hn
  obtain ⟨-, hA, hV⟩ := kurtosis_param (by linarith) h rfl
  have hE : E - (1 + 4 / ((n : ℝ) ^ 2 - 1)) = 2 * n * (n - 3) / ((n + 1) * (n - 1)) := by
    have h1 : (n : ℝ) - 1 ≠ 0 := by linarith
    have h2 : (n : ℝ) + 1 ≠ 0 := by linarith
    rw [h.mean, show (n : ℝ) ^ 2 - 1 = (n + 1) * (n - 1) by ring]
    field_simp
    ring
  have hpos : 0 < 2 * (n : ℝ) * (n - 3) / ((n + 1) * (n - 1)) :=
    div_pos (mul_pos (by linarith) (by linarith)) (mul_pos (by linarith) (by linarith))
  have hk := kurtosis_half (n := n) (by omega)
  have h0 : 1 + (kurtosis (two n (n / 2)) - E) / √V * √(2 / (A - 4)) < 0 := by
    refine (kurtosis_pole hV (by linarith) (by linarith)).2.2 ((kurtosis_pole_high hn h).trans_le ?_)
    exact pow_le_pow_left₀ hpos.le (by linarith) 2
  have hl := (((kurtosis_outlier (List.replicate (n - n / 2 - 1) 0 ++ List.replicate (n / 2) 1) (n := n)
    (by simp; rw [← Nat.cast_add, ← Nat.cast_add_one]; congr 1; omega) (by linarith)).sub_const E).div_const √V).mul_const
      √(2 / (A - 4)) |>.const_add 1
  obtain ⟨Y, hY, hY0⟩ := ((hl.eventually (eventually_gt_nhds (kurtosis_far (by linarith) h))).and
    (eventually_ge_atTop 0)).exists
  refine ⟨_, h0, fun d h1 h2 => ?_⟩
  have hc : Continuous fun y => 1 + (kurtosis (halves n y) - E) / √V * √(2 / (A - 4)) :=
    continuous_const.add ((((halves_continuous (by omega)).sub continuous_const).div_const _).mul continuous_const)
  obtain ⟨y, -, hy⟩ := intermediate_value_Icc hY0 hc.continuousOn
    (show d ∈ _ from ⟨by rw [halves_zero (by omega)]; exact h1.le, h2.trans hY.le⟩)
  exact ⟨halves n y, halves_length (by omega) y, halves_varies (by omega) y, hy⟩

/-- From thirty-five observations on, the values of the kurtosis criterion have no bound. -/
theorem kurtosis_unbounded (lib : NormLib) {n : ℕ} (hn : 35 ≤ n) (M : ℝ) : ∃ (zs : List ℝ) (v : ℝ),
    zs.length = n ∧ Varies zs ∧ NormStat.value lib .kurtosis zs = .ok (some v) ∧ M < v := by
  have hn' : (35 : ℝ) ≤ n := by exact_mod_cast hn
  obtain ⟨E, V, A, h⟩ := exists_anscombeGlynn (n := n) (by linarith)
  obtain ⟨-, hA, hV⟩ := kurtosis_param (by linarith) h rfl
  obtain ⟨d₀, hd, hz⟩ := kurtosis_near_pole hn h
  have ha : 0 < 1 - 2 / A := sub_pos.2 ((div_lt_one (by linarith)).2 (by linarith))
  have hb : 0 < 1 - 2 / (9 * A) := sub_pos.2 ((div_lt_one (by linarith)).2 (by linarith))
  have hr : 0 < √(2 / (9 * A)) := Real.sqrt_pos.2 (by positivity)
  set T := |M| * √(2 / (9 * A)) + 1 with hT
  have hT0 : 0 < T := by positivity
  obtain ⟨zs, hl, hv, e⟩ := hz (max (d₀ / 2) (-((1 - 2 / A) / T ^ 3)))
    (lt_max_of_lt_left (by linarith)) (max_lt (by linarith) (neg_lt_zero.2 (by positivity))).le
  refine ⟨zs, _, hl, hv, kurtosis_value lib (by omega), ?_⟩
  have hneg : max (d₀ / 2) (-((1 - 2 / A) / T ^ 3)) < 0 :=
    max_lt (by linarith) (neg_lt_zero.2 (by positivity))
  rw [hl, kurtosisZ_spec (by linarith) h rfl, e, Real.sign_of_neg hneg, lt_div_iff₀ hr, abs_of_neg hneg]
  have hp : 0 < -max (d₀ / 2) (-((1 - 2 / A) / T ^ 3)) := by linarith
  have hle : -max (d₀ / 2) (-((1 - 2 / A) / T ^ 3)) ≤ (1 - 2 / A) / T ^ 3 := by
    linarith [le_max_right (d₀ / 2) (-((1 - 2 / A) / T ^ 3))]
  generalize -max (d₀ / 2) (-((1 - 2 / A) / T ^ 3)) = w at *
  have h3 : T ^ 3 ≤ (1 - 2 / A) / w := by
    rw [le_div_iff₀ hp]
    rw [le_div_iff₀ (by positivity)] at hle
    linarith
  have h4 := Real.rpow_le_rpow (z := 1 / 3) (by positivity) h3 (by norm_num)
  rw [← Real.rpow_natCast T 3, ← Real.rpow_mul hT0.le, show ((3 : ℕ) : ℝ) * (1 / 3) = 1 by norm_num,
    Real.rpow_one] at h4
  have := mul_le_mul_of_nonneg_right (le_abs_self M) hr.le
  linarith

theorem not_strongest {E : Type} {stat : List ℝ → Except E (Option ℝ)} {n : ℕ} (hn : 1 ≤ n)
    (hlim : ∀ xs : List ℝ, xs.length + 1 = n → ∃ (g : ℝ → ℝ) (l : ℝ),
      (∀ᶠ y in atTop, stat (y :: xs) = .ok (some (g y))) ∧ Tendsto g atTop (𝓝 l))
    (hu : ∀ M : ℝ, ∃ (zs : List ℝ) (v : ℝ), zs.length = n ∧ Varies zs ∧ stat zs = .ok (some v) ∧ M < v) :
    ¬StrongestAtInfinity stat n := by
  intro hs
  have hx : (List.replicate (n - 1) (0 : ℝ)).length + 1 = n := by simp; omega
  obtain ⟨f, L, hf, hL, hmax⟩ := hs _ hx
  obtain ⟨g, l, hg, hl⟩ := hlim _ hx
  have e : L = (l : EReal) := by
    refine tendsto_nhds_unique hL (Tendsto.congr' ?_ ((continuous_coe_real_ereal.tendsto _).comp hl))
    filter_upwards [hf, hg] with y h1 h2
    rw [h1] at h2
    simp only [Except.ok.injEq, Option.some.injEq] at h2
    rw [h2]
    rfl
  obtain ⟨zs, v, hz, hv, hval, hlt⟩ := hu l
  have := hmax zs v hz hv hval
  rw [e, EReal.coe_le_coe_iff] at this
  linarith

/-- **C134 (refuted)** of the kurtosis criterion from thirty-five observations on: a sample with one
observation far away does not get the largest value. There is no largest value: the transform has a pole
at a kurtosis below that of normal samples. -/
theorem C134_refuted_kurtosis (lib : NormLib) {n : ℕ} (hn : 35 ≤ n) :
    ¬StrongestAtInfinity (NormStat.value lib .kurtosis) n ∧
    ∀ M : ℝ, ∃ (zs : List ℝ) (v : ℝ), zs.length = n ∧ (∃ a ∈ zs, ∃ b ∈ zs, a ≠ b) ∧
      NormStat.value lib .kurtosis zs = .ok (some v) ∧ M < v := by
  refine ⟨not_strongest (by omega) (fun xs hx => ⟨_, _, ?_, kurtosisZ_outlier (by omega) hx⟩)
    (kurtosis_unbounded lib hn), kurtosis_unbounded lib hn⟩
  refine Eventually.of_forall fun y => ?_
  rw [kurtosis_value lib (by simp; omega), List.length_cons, hx]

/-- **C134 (refuted)** of the D'Agostino-Pearson statistic from thirty-five observations on, for the same
reason. -/
theorem C134_refuted_dap (lib : NormLib) {n : ℕ} (hn : 35 ≤ n) :
    ¬StrongestAtInfinity (NormStat.value lib .dap) n ∧
    ∀ M : ℝ, ∃ (zs : List ℝ) (v : ℝ), zs.length = n ∧ (∃ a ∈ zs, ∃ b ∈ zs, a ≠ b) ∧
      NormStat.value lib .dap zs = .ok (some v) ∧ M < v := by
  have hn' : (35 : ℝ) ≤ n := by exact_mod_cast hn
  have hu : ∀ M : ℝ, ∃ (zs : List ℝ) (v : ℝ), zs.length = n ∧ Varies zs ∧
      NormStat.value lib .dap zs = .ok (some v) ∧ M < v := fun M => by
    obtain ⟨zs, v, hz, hv, hval, hlt⟩ := kurtosis_unbounded lib hn (max M 1)
    obtain ⟨s, w, -, hw, hd⟩ := C118_dap lib (xs := zs) (by omega)
    rw [hval] at hw
    simp only [Except.ok.injEq, Option.some.injEq] at hw
    refine ⟨zs, _, hz, hv, hd, ?_⟩
    rw [← hw]
    have h1 := (le_max_left M 1).trans_lt hlt
    have h2 := (le_max_right M 1).trans_lt hlt
    nlinarith [sq_nonneg s]
  refine ⟨not_strongest (by omega) (fun xs hx => ?_) hu, hu⟩
  have hN : (n : ℝ) = xs.length + 1 := by exact_mod_cast hx.symm
  have hsk := skewness_outlier xs hN (by linarith)
  have hpos : 0 < ((n : ℝ) - 2) / √((n : ℝ) - 1) :=
    div_pos (by linarith) (Real.sqrt_pos.2 (by linarith))
  refine ⟨fun y => dagostinoSkew n (skewness (y :: xs)) ^ 2 + kurtosisZ n (kurtosis (y :: xs)) ^ 2, _, ?_,
    ((((dagostinoSkew_continuous n).tendsto _).comp hsk).pow 2).add ((kurtosisZ_outlier (by omega) hx).pow 2)⟩
  filter_upwards [hsk.eventually (eventually_gt_nhds hpos)] with y hy
  obtain ⟨s, w, h1, h2, hd⟩ := C118_dap lib (xs := y :: xs) (by simp; omega)
  rw [C118_skew lib (by simp; omega) hy.ne', List.length_cons, hx] at h1
  rw [kurtosis_value lib (by simp; omega), List.length_cons, hx] at h2
  simp only [Except.ok.injEq, Option.some.injEq] at h1 h2
  rw [hd, ← h1, ← h2]

/-! ### The hypotheses hold of concrete sample sizes -/

example (lib : NormLib) : StrongestAtInfinity (NormStat.value lib .robustJarqueBera) 20 ∧
    StrongestAtInfinity (NormStat.value lib .bontempsMeddahi1) 20 ∧
    StrongestAtInfinity (NormStat.value lib .kurtosis) 20 ∧
    ¬StrongestAtInfinity (NormStat.value lib .kurtosis) 50 ∧ ¬StrongestAtInfinity (NormStat.value lib .dap) 50 :=
  ⟨C134_robustJarqueBera lib (by norm_num), C134_bontempsMeddahi1 lib (by norm_num),
    C134_kurtosis lib (by norm_num) (by norm_num), (C134_refuted_kurtosis lib (by norm_num)).1,
    (C134_refuted_dap lib (by norm_num)).1⟩

end Pysatl.Props
