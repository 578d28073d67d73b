import Verif.Props.SensitiveNormal
import Verif.Lemmas.AnalyticNull
import Verif.Lemmas.CoinScores
import Verif.Props.CalibrationFamilies
import Verif.Props.CalibrationCvFamilies

/-! # Criteria of normality whose values have no atoms -/

namespace Pysatl.Props

open Pysatl.Decision Pysatl.Graph Pysatl.Edf Pysatl.Exponent Pysatl.Spec Pysatl.Normal
open Pysatl.Gen Pysatl.LogNormal Pysatl.Resolver
open MeasureTheory ProbabilityTheory

variable {code : String} {params : Option (List (String × ℝ))}

/-- A statistic whose values at the order statistics are the roots of analytic functions. -/
theorem free_analytic {f : List ℝ → Except PyErr ℝ} {n : ℕ} (hok : ∀ xs, xs.length = n → xs.Nodup → ∃ v, f xs = .ok v)
    {G : ℝ → (Fin n → ℝ) → ℝ} (hG : ∀ c, AnalyticOnNhd ℝ (G c) Set.univ) (hne : ∀ c, ∃ x, G c x ≠ 0)
    (h : ∀ c (x : Fin n → ℝ), (List.ofFn x).Nodup → f (List.ofFn x) = .ok c → ∃ σ : Equiv.Perm (Fin n), G c (x ∘ σ) = 0) :
    Free f n :=
  ⟨hok, fun c => measure_mono_null (fun x hx => h c x hx.1 hx.2) (analytic_sort_null (hG c) (hne c))⟩

/-- A criterion that tells samples apart and whose values are the roots of analytic functions. -/
theorem free_of_tells {f : List ℝ → Except PyErr ℝ} {n : ℕ} (hn : 2 ≤ n) (ht : TellsApart Varies f n)
    {G : ℝ → (Fin n → ℝ) → ℝ} (hG : ∀ c, AnalyticOnNhd ℝ (G c) Set.univ)
    (h : ∀ x : Fin n → ℝ, Varies (List.ofFn x) → ∃ v, f (List.ofFn x) = .ok v ∧ ∀ c, G c x = 0 ↔ v = c) : Free f n := by
  have hx : ∀ xs : List ℝ, xs.length = n → ∃ x : Fin n → ℝ, xs = List.ofFn x := fun xs hl => by
    subst hl; exact ⟨xs.get, (List.ofFn_get xs).symm⟩
  refine free_analytic (G := G) (fun xs hl hd => ?_) hG (fun c => ?_) fun c x hd hc => ⟨1, ?_⟩
  · obtain ⟨x, rfl⟩ := hx xs hl
    obtain ⟨v, hv, -⟩ := h x (varies_of_nodup hd (by omega))
    exact ⟨v, hv⟩
  · obtain ⟨xs, ys, v, w, ⟨lx, vx⟩, ⟨ly, vy⟩, ex, ey, hvw⟩ := ht
    obtain ⟨x, rfl⟩ := hx xs lx
    obtain ⟨y, rfl⟩ := hx ys ly
    obtain ⟨v', ev, hv⟩ := h x vx
    obtain ⟨w', ew, hw⟩ := h y vy
    rw [ex] at ev; rw [ey] at ew
    cases ev; cases ew
    by_cases hc : v = c
    · exact ⟨y, fun h0 => hvw (hc.trans ((hw c).1 h0).symm)⟩
    · exact ⟨x, fun h0 => hc ((hv c).1 h0)⟩
  · obtain ⟨v, hv, h0⟩ := h x (varies_of_nodup hd (by simpa using hn))
    rw [hc] at hv
    cases hv
    exact (h0 c).2 rfl

/-! ### Moments -/

theorem analytic_coord {n : ℕ} (i : Fin n) (x : Fin n → ℝ) : AnalyticAt ℝ (fun x : Fin n → ℝ => x i) x :=
  (ContinuousLinearMap.proj (R := ℝ) (φ := fun _ : Fin n => ℝ) i).analyticAt x

theorem analytic_moment (n k : ℕ) :
    AnalyticOnNhd ℝ (fun x : Fin n → ℝ => Spec.centralMoment k (List.ofFn x)) Set.univ := by
  intro x _
  simp only [Spec.centralMoment, meanOf, List.map_ofFn, List.sum_ofFn, Function.comp_def, id, List.length_ofFn]
  have hs : AnalyticAt ℝ (fun x : Fin n → ℝ => ∑ i, x i) x :=
    Finset.analyticAt_fun_sum _ fun i _ => analytic_coord i x
  exact (Finset.analyticAt_fun_sum _ fun i _ => (((analytic_coord i x).sub (hs.div_const)).pow k)).div_const

theorem moment2_pos {xs : List ℝ} (h : Varies xs) : 0 < Spec.centralMoment 2 xs := by
  have := pow_pos (stdDev_pos h) 2
  rwa [stdDev_sq] at this

theorem skewness_sq {xs : List ℝ} : skewness xs ^ 2 = Spec.centralMoment 3 xs ^ 2 / Spec.centralMoment 2 xs ^ 3 := by
  rw [skewness, div_pow, show (stdDev xs ^ 3) ^ 2 = (stdDev xs ^ 2) ^ 3 by ring, stdDev_sq]

theorem kurtosis_eq {xs : List ℝ} : kurtosis xs = Spec.centralMoment 4 xs / Spec.centralMoment 2 xs ^ 2 := by
  rw [kurtosis, show stdDev xs ^ 4 = (stdDev xs ^ 2) ^ 2 by ring, stdDev_sq]

theorem free_jarqueBera {n : ℕ} (hn : 4 ≤ n) : Free (NormStat.jarqueBera.statistic scipyNorm code params).execute n := by
  refine free_of_tells (by omega) (tells_jarqueBera _ hn) (G := fun c x => n * (4 * Spec.centralMoment 3 (List.ofFn x) ^ 2 *
    Spec.centralMoment 2 (List.ofFn x) + (Spec.centralMoment 4 (List.ofFn x) - 3 * Spec.centralMoment 2 (List.ofFn x) ^ 2) ^ 2) -
      24 * c * Spec.centralMoment 2 (List.ofFn x) ^ 4) (fun c x _ => ?_) fun x hv => ⟨_, run_some (C117_jarqueBera _ hv.ne_nil), fun c => ?_⟩
  · have h2 := analytic_moment n 2 x trivial
    have h3 := analytic_moment n 3 x trivial
    have h4 := analytic_moment n 4 x trivial
    fun_prop
  · have h2 := moment2_pos hv
    rw [skewness_sq, kurtosis_eq, List.length_ofFn]
    generalize Spec.centralMoment 2 (List.ofFn x) = M at *
    generalize Spec.centralMoment 3 (List.ofFn x) = T at *
    generalize Spec.centralMoment 4 (List.ofFn x) = F at *
    rw [show (n : ℝ) * (T ^ 2 / M ^ 3 / 6 + (F / M ^ 2 - 3) ^ 2 / 24) =
      n * (4 * T ^ 2 * M + (F - 3 * M ^ 2) ^ 2) / (24 * M ^ 4) by field_simp; ring, div_eq_iff (by positivity)]
    constructor <;> intro h <;> linarith

/-- The set where a moment ratio takes a value is null. -/
theorem moment_ratio_null {n : ℕ} (hn : 4 ≤ n) (b : ℝ) :
    iid n (gaussianReal 0 1) {x | (List.ofFn x).Nodup ∧ skewness (List.ofFn x) ^ 2 = b} = 0 ∧
    iid n (gaussianReal 0 1) {x | (List.ofFn x).Nodup ∧ kurtosis (List.ofFn x) = b} = 0 := by
  have hx : ∀ k, k < n → ∃ x : Fin n → ℝ, two n k = List.ofFn x := fun k hk =>
    ⟨fun i => (two n k)[i]'(by rw [length_two hk.le]; exact i.2), List.ext_getElem (by simp [length_two hk.le]) (by simp)⟩
  obtain ⟨x, hx1⟩ := hx 1 (by omega)
  obtain ⟨y, hy2⟩ := hx 2 (by omega)
  have hlt := inv2_lt hn
  have vx := moment2_pos (hx1 ▸ varies_two (by omega) one_pos : Varies (List.ofFn x))
  have vy := moment2_pos (hy2 ▸ varies_two (by omega) two_pos : Varies (List.ofFn y))
  constructor
  · refine measure_mono_null (t := {x | Spec.centralMoment 3 (List.ofFn x) ^ 2 - b * Spec.centralMoment 2 (List.ofFn x) ^ 3 = 0})
      (fun z hz => ?_) (analytic_null (fun z _ => ?_) ?_)
    · have h2 := moment2_pos (varies_of_nodup hz.1 (by simp; omega))
      have := hz.2
      rw [skewness_sq, div_eq_iff (by positivity)] at this
      exact sub_eq_zero.2 this
    · have h2 := analytic_moment n 2 z trivial
      have h3 := analytic_moment n 3 z trivial
      fun_prop
    · by_contra hcon
      push Not at hcon
      have e1 := skewness_two_sq (n := n) (k := 1) (by omega) one_pos
      have e2 := skewness_two_sq (n := n) (k := 2) (by omega) two_pos
      rw [hx1, skewness_sq, sub_eq_zero.1 (hcon x), mul_div_cancel_right₀ _ (by positivity)] at e1
      rw [hy2, skewness_sq, sub_eq_zero.1 (hcon y), mul_div_cancel_right₀ _ (by positivity)] at e2
      linarith
  · refine measure_mono_null (t := {x | Spec.centralMoment 4 (List.ofFn x) - b * Spec.centralMoment 2 (List.ofFn x) ^ 2 = 0})
      (fun z hz => ?_) (analytic_null (fun z _ => ?_) ?_)
    · have h2 := moment2_pos (varies_of_nodup hz.1 (by simp; omega))
      have := hz.2
      rw [kurtosis_eq, div_eq_iff (by positivity)] at this
      exact sub_eq_zero.2 this
    · have h2 := analytic_moment n 2 z trivial
      have h3 := analytic_moment n 4 z trivial
      fun_prop
    · by_contra hcon
      push Not at hcon
      have e1 := kurtosis_two (n := n) (k := 1) (by omega) one_pos
      have e2 := kurtosis_two (n := n) (k := 2) (by omega) two_pos
      rw [hx1, kurtosis_eq, sub_eq_zero.1 (hcon x), mul_div_cancel_right₀ _ (by positivity)] at e1
      rw [hy2, kurtosis_eq, sub_eq_zero.1 (hcon y), mul_div_cancel_right₀ _ (by positivity)] at e2
      linarith

theorem free_skew {n : ℕ} (hn : 8 ≤ n) : Free (NormStat.skew.statistic scipyNorm code params).execute n := by
  have hval : ∀ xs : List ℝ, xs.length = n → NormStat.skew.value scipyNorm xs = .ok (some (skewZ n (skewness xs))) := fun xs hl => by
    simp only [NormStat.value, skewTest, if_neg (show ¬xs.length < 8 by omega), Except.map, skew_perm (sort_perm xs), skew_spec]
    rw [hl]
  refine ⟨fun xs hl _ => ⟨_, run_some (hval xs hl)⟩, fun c => ?_⟩
  have hz := (moment_ratio_null (n := n) (by omega) 0).1
  by_cases hex : ∃ b, b ≠ 0 ∧ skewZ n b = c
  · obtain ⟨b, hb, hc⟩ := hex
    refine measure_mono_null (fun x hx => ?_) (measure_union_null hz (moment_ratio_null (n := n) (by omega) (b ^ 2)).1)
    have h1 := hx.2
    rw [run_some (hval _ List.length_ofFn)] at h1
    have h1 := Except.ok.inj h1
    by_cases h0 : skewness (List.ofFn x) = 0
    · exact .inl ⟨hx.1, by rw [h0]; norm_num⟩
    · refine .inr ⟨hx.1, ?_⟩
      have h8 : (8 : ℝ) ≤ n := by exact_mod_cast hn
      rw [← hc, skewZ_spec h8 h0, skewZ_spec h8 hb] at h1
      rw [(dagostinoSkew_strictMono h8).injective h1]
  · refine measure_mono_null ?_ hz
    intro x hx
    refine ⟨hx.1, ?_⟩
    have h1 := hx.2
    rw [run_some (hval _ List.length_ofFn)] at h1
    by_contra h0
    exact hex ⟨_, fun h => h0 (by rw [h]; norm_num), Except.ok.inj h1⟩

theorem kurtosisZ_injective {n E V A : ℝ} (hn : 5 ≤ n) (h : AnscombeGlynn n E V A) : Function.Injective (kurtosisZ n) := by
  intro a b hab
  obtain ⟨-, hA, hV⟩ := kurtosis_param hn h rfl
  rw [kurtosisZ_spec hn h rfl, kurtosisZ_spec hn h rfl, div_left_inj' (Real.sqrt_pos.2 (by positivity)).ne', sub_right_inj] at hab
  have hp : 0 < 1 - 2 / A := sub_pos.2 ((div_lt_one (by linarith)).2 (by linarith))
  have hVs : √V ≠ 0 := (Real.sqrt_pos.2 hV).ne'
  have hr : √(2 / (A - 4)) ≠ 0 := (Real.sqrt_pos.2 (div_pos two_pos (by linarith))).ne'
  have hD : 1 + (a - E) / √V * √(2 / (A - 4)) = 1 + (b - E) / √V * √(2 / (A - 4)) := by
    generalize 1 + (a - E) / √V * √(2 / (A - 4)) = D at *
    generalize 1 + (b - E) / √V * √(2 / (A - 4)) = D' at *
    have hz : ∀ D : ℝ, Real.sign D * ((1 - 2 / A) / |D|) ^ (1 / 3 : ℝ) = 0 → D = 0 := fun D h => by
      by_contra h0
      rcases mul_eq_zero.1 h with h | h
      · exact h0 (Real.sign_eq_zero_iff.1 h)
      · exact (Real.rpow_pos_of_pos (div_pos hp (abs_pos.2 h0)) _).ne' h
    by_cases h0 : D = 0
    · rw [h0, Real.sign_zero, zero_mul] at hab
      rw [h0, hz D' hab.symm]
    · have h0' : D' ≠ 0 := fun h => h0 (hz D (by rw [hab, h, Real.sign_zero, zero_mul]))
      have := congrArg (· ^ 3) hab
      simp only [signed_root h0 hp.le, signed_root h0' hp.le] at this
      rw [div_eq_div_iff h0 h0'] at this
      exact (mul_left_cancel₀ hp.ne' this).symm
  have := mul_right_cancel₀ hr (add_left_cancel hD)
  rw [div_left_inj' hVs] at this
  linarith

theorem free_kurtosis {n : ℕ} (hn : 5 ≤ n) : Free (NormStat.kurtosis.statistic scipyNorm code params).execute n := by
  have hval : ∀ xs : List ℝ, xs.length = n → NormStat.kurtosis.value scipyNorm xs = .ok (some (kurtosisZ n (Spec.kurtosis xs))) :=
    fun xs hl => by rw [kurtosis_value _ (by omega), hl]
  have h5 : (5 : ℝ) ≤ n := by exact_mod_cast hn
  obtain ⟨E, V, A, hE⟩ := exists_anscombeGlynn (n := n) h5
  refine ⟨fun xs hl _ => ⟨_, run_some (hval xs hl)⟩, fun c => ?_⟩
  by_cases hex : ∃ b, kurtosisZ n b = c
  · obtain ⟨b, hc⟩ := hex
    refine measure_mono_null ?_ (moment_ratio_null (n := n) (by omega) b).2
    intro x hx
    refine ⟨hx.1, ?_⟩
    have h1 := hx.2
    rw [run_some (hval _ List.length_ofFn), ← hc] at h1
    exact kurtosisZ_injective h5 hE (Except.ok.inj h1)
  · refine measure_mono_null (t := ∅) (fun x hx => ?_) measure_empty
    have h1 := hx.2
    rw [run_some (hval _ List.length_ofFn)] at h1
    exact absurd ⟨_, Except.ok.inj h1⟩ hex

/-! ### Bontemps-Meddahi -/

theorem meanOf_pow (xs : List ℝ) (s : ℝ) (j : ℕ) :
    (xs.map fun x => ((x - meanOf id xs) / s) ^ j).sum / xs.length = Spec.centralMoment j xs / s ^ j := by
  have : (xs.map fun x => ((x - meanOf id xs) / s) ^ j) = xs.map fun x => (x - meanOf id xs) ^ j / s ^ j :=
    List.map_congr_left fun x _ => div_pow _ _ _
  rw [this, sum_map_quot, div_right_comm]
  rfl

theorem moment1 {xs : List ℝ} (h : xs ≠ []) : Spec.centralMoment 1 xs = 0 := by
  have hl : (xs.length : ℝ) ≠ 0 := by simpa using h
  have key : ∀ (l : List ℝ) (m : ℝ), (l.map fun x => (x - m) ^ 1).sum = l.sum - l.length * m := by
    intro l m
    induction l with
    | nil => simp
    | cons a l ih =>
      simp only [List.map_cons, List.sum_cons, List.length_cons, ih]
      push_cast
      ring
  rw [Spec.centralMoment, meanOf, key, meanOf, List.map_id, mul_div_cancel₀ _ hl, sub_self, zero_div]

theorem hermiteMean_eq {xs : List ℝ} (h : Varies xs) {s : ℝ} (hs : s = stdDev1 xs) :
    hermiteMean 3 xs = Spec.centralMoment 3 xs / s ^ 3 ∧
    hermiteMean 4 xs = Spec.centralMoment 4 xs / s ^ 4 - 6 * (Spec.centralMoment 2 xs / s ^ 2) + 3 ∧
    hermiteMean 5 xs = Spec.centralMoment 5 xs / s ^ 5 - 10 * (Spec.centralMoment 3 xs / s ^ 3) ∧
    hermiteMean 6 xs = Spec.centralMoment 6 xs / s ^ 6 - 15 * (Spec.centralMoment 4 xs / s ^ 4) +
      45 * (Spec.centralMoment 2 xs / s ^ 2) - 15 := by
  have hl : (xs.length : ℝ) ≠ 0 := by simpa using h.ne_nil
  have p1 := meanOf_pow xs s 1
  rw [moment1 h.ne_nil, zero_div] at p1
  have p2 := meanOf_pow xs s 2
  have p3 := meanOf_pow xs s 3
  have p4 := meanOf_pow xs s 4
  have p5 := meanOf_pow xs s 5
  have p6 := meanOf_pow xs s 6
  set g : ℝ → ℝ := fun x => (x - meanOf id xs) / s with hg
  have e3 : ∀ l : List ℝ, (l.map fun x => he3 (g x)).sum = (l.map fun x => g x ^ 3).sum - 3 * (l.map fun x => g x ^ 1).sum := by
    intro l; induction l with
    | nil => simp
    | cons a l ih => simp only [List.map_cons, List.sum_cons]; rw [ih]; simp only [he3]; ring
  have e4 : ∀ l : List ℝ, (l.map fun x => he4 (g x)).sum = (l.map fun x => g x ^ 4).sum - 6 * (l.map fun x => g x ^ 2).sum +
      3 * l.length := by
    intro l; induction l with
    | nil => simp
    | cons a l ih => simp only [List.map_cons, List.sum_cons, List.length_cons]; rw [ih]; simp only [he4]; push_cast; ring
  have e5 : ∀ l : List ℝ, (l.map fun x => he5 (g x)).sum = (l.map fun x => g x ^ 5).sum - 10 * (l.map fun x => g x ^ 3).sum +
      15 * (l.map fun x => g x ^ 1).sum := by
    intro l; induction l with
    | nil => simp
    | cons a l ih => simp only [List.map_cons, List.sum_cons]; rw [ih]; simp only [he5]; ring
  have e6 : ∀ l : List ℝ, (l.map fun x => he6 (g x)).sum = (l.map fun x => g x ^ 6).sum - 15 * (l.map fun x => g x ^ 4).sum +
      45 * (l.map fun x => g x ^ 2).sum - 15 * l.length := by
    intro l; induction l with
    | nil => simp
    | cons a l ih => simp only [List.map_cons, List.sum_cons, List.length_cons]; rw [ih]; simp only [he6]; push_cast; ring
  obtain ⟨f3, f4, f5, f6⟩ : hermiteMean 3 xs = (xs.map fun x => he3 (g x)).sum / xs.length ∧
      hermiteMean 4 xs = (xs.map fun x => he4 (g x)).sum / xs.length ∧
      hermiteMean 5 xs = (xs.map fun x => he5 (g x)).sum / xs.length ∧
      hermiteMean 6 xs = (xs.map fun x => he6 (g x)).sum / xs.length := by
    simp only [hermiteMean, meanOf, fun x => (hermite_values x).1, fun x => (hermite_values x).2.1,
      fun x => (hermite_values x).2.2.1, fun x => (hermite_values x).2.2.2.1, hg, hs, and_self]
  rw [f3, f4, f5, f6, e3, e4, e5, e6, ← p2, ← p3, ← p4, ← p5, ← p6]
  simp only [hg] at *
  rw [div_eq_zero_iff, or_iff_left hl] at p1
  rw [p1]
  refine ⟨?_, ?_, ?_, ?_⟩ <;> field_simp <;> ring

theorem stdDev1_sq {xs : List ℝ} (hn : 2 ≤ xs.length) :
    stdDev1 xs ^ 2 = xs.length / (xs.length - 1) * Spec.centralMoment 2 xs := by
  have h2 : (2 : ℝ) ≤ xs.length := by exact_mod_cast hn
  have h0 : 0 ≤ (xs.map fun x => (x - meanOf id xs) ^ 2).sum := List.sum_nonneg (by
    intro a ha; obtain ⟨b, -, rfl⟩ := List.mem_map.1 ha; positivity)
  rw [stdDev1, Real.sq_sqrt (div_nonneg h0 (by linarith))]
  change _ = _ * ((xs.map fun x => (x - meanOf id xs) ^ 2).sum / (xs.length : ℝ))
  generalize (xs.map fun x => (x - meanOf id xs) ^ 2).sum = S
  have : (xs.length : ℝ) - 1 ≠ 0 := by linarith
  field_simp

theorem free_meddahi1 {n : ℕ} (hn : 4 ≤ n) : Free (NormStat.bontempsMeddahi1.statistic scipyNorm code params).execute n := by
  have h1 : (1 : ℝ) < n := by exact_mod_cast (by omega : 1 < n)
  set k : ℝ := n / (n - 1) with hk
  have hk0 : 0 < k := div_pos (by linarith) (by linarith)
  let q : (Fin n → ℝ) → ℝ := fun x => k * Spec.centralMoment 2 (List.ofFn x)
  refine free_of_tells (by omega) (tells_meddahi _ hn) (G := fun c x => n * (Spec.centralMoment 3 (List.ofFn x) ^ 2 * q x / 6 +
    (Spec.centralMoment 4 (List.ofFn x) - 6 * Spec.centralMoment 2 (List.ofFn x) * q x + 3 * q x ^ 2) ^ 2 / 24) - c * q x ^ 4)
    (fun c x _ => ?_) fun x hv => ⟨_, run_some (C117_bontempsMeddahi _ (by simp; omega)).1, fun c => ?_⟩
  · have h2 := analytic_moment n 2 x trivial
    have h3 := analytic_moment n 3 x trivial
    have h4 := analytic_moment n 4 x trivial
    simp only [q]
    fun_prop
  · have h2 := moment2_pos hv
    have hs := stdDev1_sq (xs := List.ofFn x) (by simp; omega)
    rw [List.length_ofFn, ← hk] at hs
    obtain ⟨e3, e4, -, -⟩ := hermiteMean_eq hv rfl
    have hs0 : stdDev1 (List.ofFn x) ≠ 0 := fun h => by
      rw [h] at hs
      have := mul_pos hk0 h2
      rw [← hs] at this
      simp at this
    rw [show Finset.Icc 3 4 = {3, 4} from rfl, Finset.sum_pair (by norm_num), e3, e4, List.length_ofFn]
    simp only [q, ← hs]
    norm_num [Nat.factorial]
    generalize stdDev1 (List.ofFn x) = s at *
    generalize Spec.centralMoment 2 (List.ofFn x) = M at *
    generalize Spec.centralMoment 3 (List.ofFn x) = T at *
    generalize Spec.centralMoment 4 (List.ofFn x) = F at *
    rw [show (n : ℝ) * ((T / s ^ 3) ^ 2 / 6 + (F / s ^ 4 - 6 * (M / s ^ 2) + 3) ^ 2 / 24) =
      n * (T ^ 2 * s ^ 2 / 6 + (F - 6 * M * s ^ 2 + 3 * (s ^ 2) ^ 2) ^ 2 / 24) / (s ^ 2) ^ 4 by field_simp,
      div_eq_iff (by positivity)]
    constructor <;> intro h <;> linarith

theorem free_meddahi2 {n : ℕ} (hn : 10 ≤ n) : Free (NormStat.bontempsMeddahi2.statistic scipyNorm code params).execute n := by
  have h1 : (1 : ℝ) < n := by exact_mod_cast (by omega : 1 < n)
  set k : ℝ := n / (n - 1) with hk
  have hk0 : 0 < k := div_pos (by linarith) (by linarith)
  let q : (Fin n → ℝ) → ℝ := fun x => k * Spec.centralMoment 2 (List.ofFn x)
  refine free_of_tells (by omega) (tells_meddahi2 _ hn) (G := fun c x => n * (Spec.centralMoment 3 (List.ofFn x) ^ 2 * q x ^ 3 / 6 +
    (Spec.centralMoment 4 (List.ofFn x) - 6 * Spec.centralMoment 2 (List.ofFn x) * q x + 3 * q x ^ 2) ^ 2 * q x ^ 2 / 24 +
    (Spec.centralMoment 5 (List.ofFn x) - 10 * Spec.centralMoment 3 (List.ofFn x) * q x) ^ 2 * q x / 120 +
    (Spec.centralMoment 6 (List.ofFn x) - 15 * Spec.centralMoment 4 (List.ofFn x) * q x +
      45 * Spec.centralMoment 2 (List.ofFn x) * q x ^ 2 - 15 * q x ^ 3) ^ 2 / 720) - c * q x ^ 6)
    (fun c x _ => ?_) fun x hv => ⟨_, run_some (C117_bontempsMeddahi _ (by simp; omega)).2, fun c => ?_⟩
  · have h2 := analytic_moment n 2 x trivial
    have h3 := analytic_moment n 3 x trivial
    have h4 := analytic_moment n 4 x trivial
    have h5 := analytic_moment n 5 x trivial
    have h6 := analytic_moment n 6 x trivial
    simp only [q]
    fun_prop
  · have h2 := moment2_pos hv
    have hs := stdDev1_sq (xs := List.ofFn x) (by simp; omega)
    rw [List.length_ofFn, ← hk] at hs
    obtain ⟨e3, e4, e5, e6⟩ := hermiteMean_eq hv rfl
    have hs0 : stdDev1 (List.ofFn x) ≠ 0 := fun h => by
      rw [h] at hs
      have := mul_pos hk0 h2
      rw [← hs] at this
      simp at this
    rw [show Finset.Icc 3 6 = {3, 4, 5, 6} from rfl, Finset.sum_insert (by decide),
      Finset.sum_insert (by decide), Finset.sum_pair (by norm_num), e3, e4, e5, e6, List.length_ofFn]
    simp only [q, ← hs]
    norm_num [Nat.factorial]
    generalize stdDev1 (List.ofFn x) = s at *
    generalize Spec.centralMoment 2 (List.ofFn x) = M at *
    generalize Spec.centralMoment 3 (List.ofFn x) = T at *
    generalize Spec.centralMoment 4 (List.ofFn x) = F at *
    generalize Spec.centralMoment 5 (List.ofFn x) = H at *
    generalize Spec.centralMoment 6 (List.ofFn x) = K at *
    rw [show (n : ℝ) * ((T / s ^ 3) ^ 2 / 6 + ((F / s ^ 4 - 6 * (M / s ^ 2) + 3) ^ 2 / 24 +
        ((H / s ^ 5 - 10 * (T / s ^ 3)) ^ 2 / 120 +
          (K / s ^ 6 - 15 * (F / s ^ 4) + 45 * (M / s ^ 2) - 15) ^ 2 / 720))) =
      n * (T ^ 2 * (s ^ 2) ^ 3 / 6 + (F - 6 * M * s ^ 2 + 3 * (s ^ 2) ^ 2) ^ 2 * (s ^ 2) ^ 2 / 24 +
        (H - 10 * T * s ^ 2) ^ 2 * s ^ 2 / 120 +
        (K - 15 * F * s ^ 2 + 45 * M * (s ^ 2) ^ 2 - 15 * (s ^ 2) ^ 3) ^ 2 / 720) / (s ^ 2) ^ 6 by field_simp; ring,
      div_eq_iff (by positivity)]
    constructor <;> intro h <;> linarith

/-! ### Hosking -/

/-- Two linear combinations of the order statistics, one of them not a multiple of the other, in a quadratic equation. -/
theorem free_lMoments {f : List ℝ → Except PyErr ℝ} {n : ℕ} {w₂ w₃ w₄ : ℕ → ℝ} {m a b : ℝ} (ha : 0 < a) (hb : 0 < b)
    {k : ℕ} (hk : k < n) (h2 : w₂ k ≠ 0) (h3 : ∃ x : Fin n → ℝ, ∑ i : Fin n, w₂ i * x i = 0 ∧ ∑ i : Fin n, w₃ i * x i ≠ 0)
    (hf : ∀ xs : List ℝ, xs.length = n → f xs = .ok ((dot w₃ (sort xs) / dot w₂ (sort xs)) ^ 2 / a +
      (dot w₄ (sort xs) / dot w₂ (sort xs) - m) ^ 2 / b)) : Free f n := by
  refine ⟨fun xs hl _ => ⟨_, hf xs hl⟩, fun c => ?_⟩
  have hlin : ∀ (w : ℕ → ℝ) (x : Fin n → ℝ), AnalyticAt ℝ (fun x : Fin n → ℝ => ∑ i : Fin n, w i * x i) x := fun w x =>
    Finset.analyticAt_fun_sum _ fun i _ => analyticAt_const.mul (analytic_coord i x)
  have hnull := analytic_sort_null (μ := gaussianReal 0 1) (N := n) (G := fun x => b * (∑ i : Fin n, w₃ i * x i) ^ 2 +
    a * (∑ i : Fin n, w₄ i * x i - m * ∑ i : Fin n, w₂ i * x i) ^ 2 - c * a * b * (∑ i : Fin n, w₂ i * x i) ^ 2) (fun x _ => by
      have e2 := hlin w₂ x
      have e3 := hlin w₃ x
      have e4 := hlin w₄ x
      fun_prop) (by
      obtain ⟨x, hx2, hx3⟩ := h3
      refine ⟨x, ?_⟩
      simp only [hx2, mul_zero, sub_zero]
      have : 0 < b * (∑ i : Fin n, w₃ i * x i) ^ 2 := by positivity
      have : 0 ≤ a * (∑ i : Fin n, w₄ i * x i) ^ 2 := by positivity
      norm_num
      linarith)
  refine measure_mono_null (fun x hx => ?_) (measure_union_null (dot_null (μ := gaussianReal 0 1) hk h2 0) hnull)
  have hc := hx.2
  rw [hf _ List.length_ofFn] at hc
  have hc := Except.ok.inj hc
  by_cases h0 : dot w₂ (sort (List.ofFn x)) = 0
  · exact .inl h0
  · right
    obtain ⟨σ, hσ⟩ := exists_sort_perm x
    refine ⟨σ, ?_⟩
    rw [hσ, dot_ofFn] at h0
    rw [hσ, dot_ofFn, dot_ofFn, dot_ofFn] at hc
    generalize (∑ i : Fin n, w₂ i * (x ∘ σ) i) = A at *
    generalize (∑ i : Fin n, w₃ i * (x ∘ σ) i) = B at *
    generalize (∑ i : Fin n, w₄ i * (x ∘ σ) i) = C at *
    rw [← hc]
    field_simp
    ring

/-- The weight of an order statistic in an L-moment. -/
noncomputable def lWeight (t r n i : ℕ) : ℝ :=
  (∑ k ∈ Finset.range r, (-1 : ℝ) ^ k * (r - 1).choose k *
    (i.choose (r + t - 1 - k) * (n - 1 - i).choose (t + k) : ℕ)) / (r * (n.choose (r + 2 * t) : ℝ))

theorem sampleLMoment_dot (t r : ℕ) (xs : List ℝ) : sampleLMoment t r xs = dot (lWeight t r xs.length) (sort xs) := by
  rw [sampleLMoment_eq, dot_at, length_sort, Finset.sum_div]
  exact Finset.sum_congr rfl fun i _ => by rw [lWeight, mul_div_assoc]

theorem lWeight_two {t n : ℕ} (hn : 2 * t + 4 ≤ n) : lWeight t 2 n t ≠ 0 ∧ lWeight t 2 n t + lWeight t 2 n (n - 1 - t) = 0 ∧
    lWeight t 3 n t + lWeight t 3 n (n - 1 - t) ≠ 0 := by
  have c0 : (0 : ℝ) < (n - 1 - t).choose (t + 1) := by exact_mod_cast Nat.choose_pos (by omega)
  have c1 : (0 : ℝ) < (n - 1 - t).choose (t + 2) := by exact_mod_cast Nat.choose_pos (by omega)
  have d0 : (0 : ℝ) < n.choose (2 + 2 * t) := by exact_mod_cast Nat.choose_pos (by omega)
  have d1 : (0 : ℝ) < n.choose (3 + 2 * t) := by exact_mod_cast Nat.choose_pos (by omega)
  have z1 : t.choose (t + 1) = 0 := Nat.choose_eq_zero_of_lt (by omega)
  have z2 : t.choose (t + 2) = 0 := Nat.choose_eq_zero_of_lt (by omega)
  have s : n - 1 - (n - 1 - t) = t := by omega
  have e1 : 2 + t - 1 = t + 1 := by omega
  have e2 : 3 + t - 1 = t + 2 := by omega
  have e3 : 2 + t - 1 - 1 = t := by omega
  have e4 : 3 + t - 1 - 1 = t + 1 := by omega
  have e5 : 3 + t - 1 - 2 = t := by omega
  simp only [lWeight, Finset.sum_range_succ, Finset.sum_range_zero, s, Nat.sub_zero, e3, e4, e5, Nat.add_zero, zero_add]
  simp only [e1, e2, z1, z2, Nat.choose_self, Nat.choose_zero_right, zero_mul, mul_zero, Nat.cast_zero, zero_add, add_zero, one_mul,
    mul_one, Nat.choose_one_right, Nat.cast_one]
  push_cast
  have : (0 : ℝ) < (n - 1 - t).choose (t + 2) / (3 * n.choose (3 + 2 * t)) := by positivity
  have : (0 : ℝ) < (n - 1 - t).choose (t + 1) / (2 * n.choose (2 + 2 * t)) := by positivity
  refine ⟨ne_of_lt ?_, by ring, ne_of_gt ?_⟩
  · rw [pow_one, neg_one_mul, neg_div]
    linarith
  · rw [neg_one_sq, one_mul, pow_zero, one_mul]
    linarith

theorem lMomentNull_pos (t n : ℕ) : 0 < (lMomentNull t n).2.1 ∧ 0 < (lMomentNull t n).2.2 := by
  unfold lMomentNull
  split <;> split_ifs <;> norm_num

theorem free_hosking {f : List ℝ → Except PyErr ℝ} {t n : ℕ} (hn : 2 * t + 4 ≤ n)
    (hf : ∀ xs : List ℝ, xs.length = n → f xs = .ok (lMomentStatistic t xs)) : Free f n := by
  obtain ⟨h2, hs, h3⟩ := lWeight_two hn
  obtain ⟨ha, hb⟩ := lMomentNull_pos t n
  have hsum : ∀ w : ℕ → ℝ, ∑ i : Fin n, w i * (if (i : ℕ) = t ∨ (i : ℕ) = n - 1 - t then 1 else 0) = w t + w (n - 1 - t) := by
    intro w
    rw [Fin.sum_univ_eq_sum_range (fun i : ℕ => w i * (if i = t ∨ i = n - 1 - t then 1 else 0)) n]
    have : ∀ i ∈ Finset.range n, w i * (if i = t ∨ i = n - 1 - t then (1 : ℝ) else 0) =
        (if i = t then w t else 0) + if i = n - 1 - t then w (n - 1 - t) else 0 := by
      intro i _
      by_cases h1 : i = t
      · subst h1
        rw [if_pos (.inl rfl), if_pos rfl, if_neg (by omega), mul_one, add_zero]
      · by_cases h2 : i = n - 1 - t
        · rw [if_pos (.inr h2), if_neg h1, if_pos h2, mul_one, zero_add, h2]
        · rw [if_neg (by tauto), if_neg h1, if_neg h2, mul_zero, add_zero]
    rw [Finset.sum_congr rfl this, Finset.sum_add_distrib, Finset.sum_ite_eq', Finset.sum_ite_eq',
      if_pos (by simp; omega), if_pos (by simp; omega)]
  refine free_lMoments (m := (lMomentNull t n).1) (w₂ := lWeight t 2 n) (w₃ := lWeight t 3 n) (w₄ := lWeight t 4 n) ha hb (k := t) (by omega) h2
    ⟨fun i => if (i : ℕ) = t ∨ (i : ℕ) = n - 1 - t then 1 else 0, by rw [hsum, hs], by rw [hsum]; exact h3⟩ fun xs hl => ?_
  rw [hf xs hl, lMomentStatistic]
  simp only [sampleLMoment_dot, hl]

/-! ### Coin -/

theorem coinA_reflect (lib : NormLib) {n i : ℕ} (h : i < n) : coinA lib n (n - 1 - i) = -coinA lib n i := by
  unfold coinA
  rcases lt_trichotomy (2 * i + 1) n with h1 | h1 | h1
  · rw [if_neg (show ¬ n - 1 - i < n / 2 by omega), if_neg (show ¬ (n % 2 = 1 ∧ n - 1 - i = n / 2) by omega),
      if_pos (show i < n / 2 by omega), neg_neg]
    congr 1
    omega
  · rw [if_neg (show ¬ n - 1 - i < n / 2 by omega), if_pos (show n % 2 = 1 ∧ n - 1 - i = n / 2 by omega),
      if_neg (show ¬ i < n / 2 by omega), if_pos (show n % 2 = 1 ∧ i = n / 2 by omega), neg_zero]
  · rw [if_pos (show n - 1 - i < n / 2 by omega), if_neg (show ¬ i < n / 2 by omega),
      if_neg (show ¬ (n % 2 = 1 ∧ i = n / 2) by omega)]
    congr 2
    omega

theorem dot_sub_div (c : ℕ → ℝ) (m s : ℝ) (l : List ℝ) :
    dot c (l.map fun x => (x - m) / s) = (dot c l - m * ∑ i ∈ Finset.range l.length, c i) / s := by
  unfold dot
  rw [Finset.mul_sum, show (l.map fun x => (x - m) / s).mapIdx (fun i x => c i * x) = l.mapIdx fun i x => c i * ((x - m) / s) from
    List.ext_getElem (by simp) (by simp), sum_mapIdx_at, sum_mapIdx_at, ← Finset.sum_sub_distrib, Finset.sum_div]
  exact Finset.sum_congr rfl fun i _ => by ring

theorem free_coin {n : ℕ} (hn : 4 ≤ n) : Free (NormStat.coin.statistic scipyNorm code params).execute n := by
  obtain ⟨h1, h2⟩ := coinA_scores (n := n) hn
  have h4 : (4 : ℝ) ≤ n := by exact_mod_cast hn
  set a := coinA scipyNorm n with ha
  have hcs := cauchy_scores (n := n) (a := fun i => a (i - 1)) ⟨1, by simp; omega, 2, by simp; omega, by
    norm_num
    rw [abs_of_neg (h1.trans h2), abs_of_neg h2]
    exact ⟨(h1.trans h2).ne, h2.ne, fun h => by linarith⟩⟩
  have hI : ∀ k : ℕ, ∑ i ∈ Finset.Icc 1 n, a (i - 1) ^ k = ∑ i ∈ Finset.range n, a i ^ k := fun k => by
    rw [sum_range_Icc]
  simp only [hI] at hcs
  set s : ℕ → ℝ := fun k => ∑ i ∈ Finset.range n, a i ^ k with hs
  have hsd : s 4 * s 4 - s 2 * s 6 ≠ 0 := by
    simp only [hs] at hcs ⊢
    nlinarith
  have hs2 : 0 < s 2 := lt_of_lt_of_le (sq_pos_of_neg h2) (Finset.single_le_sum (f := fun i => a i ^ 2)
    (fun i _ => sq_nonneg _) (Finset.mem_range.2 (by omega)))
  have hodd : ∀ k : ℕ, Odd k → ∑ i ∈ Finset.range n, a i ^ k = 0 := fun k hk => by
    have := Finset.sum_range_reflect (fun i => a i ^ k) n
    have e : ∑ i ∈ Finset.range n, a (n - 1 - i) ^ k = -∑ i ∈ Finset.range n, a i ^ k := by
      rw [← Finset.sum_neg_distrib]
      exact Finset.sum_congr rfl fun i hi => by
        rw [ha, coinA_reflect _ (Finset.mem_range.1 hi), hk.neg_pow]
    rw [e] at this
    linarith
  refine free_quadric (by omega) (c := fun i => s 4 * a i + (-s 2) * a i ^ 3) ?_
    (g := fun v => v * (s 4 * s 4 - s 2 * s 6) ^ 2 / (n - 1)) fun xs hl hd => ?_
  · by_contra hcon
    push Not at hcon
    have e0 := hcon 0 (by omega)
    have e1 := hcon 1 (by omega)
    have n0 : a 0 ≠ 0 := (h1.trans h2).ne
    have n1 : a 1 ≠ 0 := h2.ne
    have f0 : s 4 = s 2 * a 0 ^ 2 := mul_right_cancel₀ n0 (by linarith)
    have f1 : s 4 = s 2 * a 1 ^ 2 := mul_right_cancel₀ n1 (by linarith)
    have := mul_left_cancel₀ hs2.ne' (f0.symm.trans f1)
    nlinarith
  · have hX := sumsq_pos_of_nodup hd (by omega)
    have hv : √(var1' xs) ^ 2 = (xs.map fun t => (t - mean xs) ^ 2).sum / (n - 1) := by
      rw [var1'_spec (by rintro rfl; simp at hl; omega), stdDev1, ← mean_spec, hl, Real.sq_sqrt (div_nonneg hX.le (by linarith))]
    have hq : √(var1' xs) ≠ 0 := fun h => by
      rw [h, zero_pow two_ne_zero, eq_comm, div_eq_zero_iff] at hv
      rcases hv with hv | hv
      · exact hX.ne' hv
      · linarith
    have hsort : sort (xs.map fun x => (x - mean xs) / √(var1' xs)) = (sort xs).map fun x => (x - mean xs) / √(var1' xs) :=
      sort_monotone (fun x y h => div_le_div_of_nonneg_right (by linarith) (Real.sqrt_nonneg _)) xs
    have hd1 := dot_sub_div a (mean xs) √(var1' xs) (sort xs)
    have hd3 := dot_sub_div (fun i => a i ^ 3) (mean xs) √(var1' xs) (sort xs)
    have o1 := hodd 1 odd_one
    simp only [pow_one] at o1
    rw [length_sort, hl, o1, mul_zero, sub_zero] at hd1
    rw [length_sort, hl, hodd 3 (by decide), mul_zero, sub_zero] at hd3
    refine ⟨_, run_some (v := ((s 4 * (dot a (sort xs) / √(var1' xs)) - s 2 * (dot (fun i => a i ^ 3) (sort xs) / √(var1' xs))) /
      (s 4 * s 4 - s 2 * s 6)) ^ 2) ?_, ?_⟩
    · simp only [NormStat.value, guarded, hl, if_pos (show 3 < n by omega), Except.map, Normal.coin]
      rw [hsort, ← ha, hd1, hd3]
    · rw [dot_lin (s 4) (-s 2) a (fun i => a i ^ 3)]
      have hn1 : (n : ℝ) - 1 ≠ 0 := by linarith
      rw [eq_div_iff hn1] at hv
      rw [← hv]
      generalize √(var1' xs) = q at *
      generalize dot a (sort xs) = d at *
      generalize dot (fun i => a i ^ 3) (sort xs) = e at *
      generalize s 4 * s 4 - s 2 * s 6 = D at *
      generalize s 4 = S at *
      generalize s 2 = R at *
      generalize (n : ℝ) - 1 = N at *
      field_simp
      ring

/-! ### Absolute deviations -/

/-- The sum of the distances of sorted observations from a point between two of them. -/
theorem sum_abs_sorted {l : List ℝ} {m : ℝ} {k : ℕ} (hk : k ≤ l.length) (hlo : ∀ i < k, at_ l i ≤ m)
    (hhi : ∀ i, k ≤ i → i < l.length → m ≤ at_ l i) :
    (l.map fun x => |x - m|).sum = dot (fun i => if i < k then -1 else 1) l - m * (l.length - 2 * k) := by
  have hsum : ∑ i ∈ Finset.range l.length, (if i < k then (-1 : ℝ) else 1) = l.length - 2 * k := by
    rw [Finset.sum_ite, Finset.sum_const, Finset.sum_const]
    have h1 : (Finset.range l.length).filter (· < k) = Finset.range k := by ext i; simp; omega
    have h2 : (Finset.range l.length).filter (fun i => ¬ i < k) = Finset.Ico k l.length := by ext i; simp; omega
    rw [h1, h2, Finset.card_range, Nat.card_Ico, nsmul_eq_mul, nsmul_eq_mul, Nat.cast_sub hk]
    ring
  rw [← hsum, Finset.mul_sum, dot_at, ← Finset.sum_sub_distrib, ← sum_at]
  refine Finset.sum_congr rfl fun i hi => ?_
  have := Finset.mem_range.1 hi
  split_ifs with h
  · rw [abs_of_nonpos (by linarith [hlo i h])]; ring
  · rw [abs_of_nonneg (by linarith [hhi i (by omega) this])]; ring

theorem at_mono {l : List ℝ} (h : l.Pairwise (· ≤ ·)) {i j : ℕ} (hij : i ≤ j) (hj : j < l.length) : at_ l i ≤ at_ l j := by
  rcases hij.eq_or_lt with rfl | hlt
  · exact le_rfl
  · rw [at_, at_, List.getD_eq_getElem _ _ (by omega), List.getD_eq_getElem _ _ hj]
    exact List.pairwise_iff_getElem.1 h i j (by omega) hj hlt

theorem exists_split {l : List ℝ} (h : l.Pairwise (· ≤ ·)) (m : ℝ) : ∃ k ≤ l.length, (∀ i < k, at_ l i ≤ m) ∧
    ∀ i, k ≤ i → i < l.length → m ≤ at_ l i := by
  by_cases hex : ∃ i, i < l.length ∧ m < at_ l i
  · classical
    obtain ⟨h1, h2⟩ := Nat.find_spec hex
    refine ⟨Nat.find hex, h1.le, fun i hi => ?_, fun i hi hl => h2.le.trans (at_mono h hi hl)⟩
    have := Nat.find_min hex hi
    push Not at this
    exact this (by omega)
  · push Not at hex
    exact ⟨l.length, le_rfl, hex, fun i h1 h2 => by omega⟩

/-- The weights of the order statistics in the sum of the distances from the median. -/
noncomputable def medWeight (n i : ℕ) : ℝ := (if i < n / 2 then -1 else 1) - if n % 2 = 1 ∧ i = n / 2 then 1 else 0

theorem sum_abs_median {l : List ℝ} (h : l.Pairwise (· ≤ ·)) (hl : l ≠ []) :
    (l.map fun x => |x - median l|).sum = dot (medWeight l.length) l := by
  have h0 : 0 < l.length := List.length_pos_iff.2 hl
  have e := sum_abs_sorted (l := l) (m := median l) (k := l.length / 2) (by omega) (fun i hi => ?_) fun i h1 h2 => ?_
  · rw [e, dot_at, dot_at]
    have em : ∀ i, at_ l i * medWeight l.length i = at_ l i * (if i < l.length / 2 then -1 else 1) -
        at_ l i * (if l.length % 2 = 1 ∧ i = l.length / 2 then 1 else 0) := fun i => by rw [medWeight, mul_sub]
    simp only [em, Finset.sum_sub_distrib]
    congr 1
    rcases Nat.mod_two_eq_zero_or_one l.length with hp | hp
    · have : ((l.length : ℝ)) = 2 * (l.length / 2 : ℕ) := by
        exact_mod_cast (by omega : l.length = 2 * (l.length / 2))
      rw [show (l.length : ℝ) - 2 * (l.length / 2 : ℕ) = 0 by linarith, mul_zero]
      simp [hp]
    · have : ((l.length : ℝ)) = 2 * (l.length / 2 : ℕ) + 1 := by
        exact_mod_cast (by omega : l.length = 2 * (l.length / 2) + 1)
      rw [show (l.length : ℝ) - 2 * (l.length / 2 : ℕ) = 1 by linarith, mul_one, median, if_neg (by omega)]
      simp only [hp, true_and, mul_ite, mul_one, mul_zero]
      rw [Finset.sum_ite_eq', if_pos (by simp; omega)]
  · rw [median]
    split_ifs
    · have a1 := at_mono h (i := i) (j := l.length / 2) (by omega) (by omega)
      have a2 := at_mono h (i := i) (j := l.length / 2 - 1) (by omega) (by omega)
      linarith
    · exact at_mono h (by omega) (by omega)
  · rw [median]
    split_ifs
    · have a1 := at_mono h (i := l.length / 2) (j := i) (by omega) (by omega)
      have a2 := at_mono h (i := l.length / 2 - 1) (j := i) (by omega) (by omega)
      linarith
    · exact at_mono h (by omega) (by omega)

theorem sum_abs_sort_median {xs : List ℝ} (h : xs ≠ []) :
    (xs.map fun x => |x - median (sort xs)|).sum = dot (medWeight xs.length) (sort xs) := by
  have := sum_abs_median (sort_pairwise xs) (by
    intro e; exact h (List.length_eq_zero_iff.1 (by rw [← length_sort, e, List.length_nil]))) 
  rw [((sort_perm xs).map _).sum_eq, length_sort] at this
  exact this

theorem free_gmg {n : ℕ} (hn : 4 ≤ n) : Free (NormStat.gmg.statistic scipyNorm code params).execute n := by
  have h4 : (4 : ℝ) ≤ n := by exact_mod_cast hn
  have hp : 0 < Real.pi / 2 := by positivity
  refine free_quadric (by omega) (c := medWeight n) ⟨0, by omega, ?_⟩ (g := fun v => n / (Real.pi / 2 * v ^ 2)) fun xs hl hd => ?_
  · rw [medWeight, if_pos (by omega), if_neg (by omega)]
    norm_num
  · have hX := sumsq_pos_of_nodup hd (by omega)
    have hne : xs ≠ [] := by rintro rfl; simp at hl; omega
    have hD := sum_abs_pos (varies_of_nodup hd (by omega)) (median (sort xs))
    rw [sum_abs_sort_median hne, hl] at hD
    refine ⟨_, run_some (v := √((xs.map fun x => (x - mean xs) ^ 2).sum / n) /
      (√(Real.pi / 2) * dot (medWeight n) (sort xs) / n)) ?_, ?_⟩
    · simp only [NormStat.value, guarded, hl, if_pos (show 3 < n by omega), Except.map, Normal.gmg, sum_abs_sort_median hne]
    · generalize dot (medWeight n) (sort xs) = d at *
      generalize (xs.map fun t => (t - mean xs) ^ 2).sum = S at *
      rw [div_pow, Real.sq_sqrt (by positivity), div_pow, mul_pow, Real.sq_sqrt hp.le]
      field_simp

theorem free_bonettSeier {n : ℕ} (hn : 4 ≤ n) : Free (NormStat.bonettSeier.statistic scipyNorm code params).execute n := by
  have h4 : (4 : ℝ) ≤ n := by exact_mod_cast hn
  have hval : ∀ xs : List ℝ, xs.length = n → xs.Nodup → NormStat.bonettSeier.value scipyNorm xs = _ := fun xs hl hd =>
    (C117_bonettSeier scipyNorm (varies_of_nodup hd (by omega)) (by omega) rfl).1
  refine ⟨fun xs hl hd => ⟨_, run_some (hval xs hl hd)⟩, fun c => ?_⟩
  set e : ℝ := Real.exp ((c * 3.54 / √(n + 2) + 3) / 13.29) with he
  refine measure_mono_null (t := ⋃ k ∈ Set.Ioo 0 n, {x | dot (fun i => (if i < k then -1 else 1) - ((n : ℝ) - 2 * k) / n)
    (sort (List.ofFn x)) ^ 2 = n / e ^ 2 * ((List.ofFn x).map fun t => (t - mean (List.ofFn x)) ^ 2).sum}) (fun x hx => ?_)
    ((measure_biUnion_null_iff (Set.to_countable _)).2 fun k hk => dot_quadric_null (μ := gaussianReal 0 1) (by omega) (.inl ⟨0, by omega, ?_⟩))
  · obtain ⟨hd, hc⟩ := hx
    have hl : (List.ofFn x).length = n := List.length_ofFn
    have hv := varies_of_nodup hd (by omega)
    rw [run_some (hval _ hl hd)] at hc
    have hc := Except.ok.inj hc
    suffices hsuf : ∃ k ∈ Set.Ioo 0 n, dot (fun i => (if i < k then -1 else 1) - ((n : ℝ) - 2 * k) / n)
        (sort (List.ofFn x)) ^ 2 = n / e ^ 2 * ((List.ofFn x).map fun t => (t - mean (List.ofFn x)) ^ 2).sum by
      obtain ⟨k, hk, h⟩ := hsuf
      exact Set.mem_biUnion hk h
    generalize List.ofFn x = xs at *
    have hms : mean (sort xs) = mean xs := by rw [mean, mean, (sort_perm xs).sum_eq, (sort_perm xs).length_eq]
    obtain ⟨k, hk, hlo, hhi⟩ := exists_split (sort_pairwise xs) (mean xs)
    have hsum := sum_abs_sorted hk hlo hhi
    rw [((sort_perm xs).map _).sum_eq, length_sort, hl] at hsum
    have hdot : dot (fun i => (if i < k then (-1 : ℝ) else 1) - ((n : ℝ) - 2 * k) / n) (sort xs) =
        (xs.map fun x => |x - mean xs|).sum := by
      have := dot_lin 1 (-(((n : ℝ) - 2 * k) / n)) (fun i => if i < k then (-1 : ℝ) else 1) (fun _ => 1) (sort xs)
      rw [dot_one, (sort_perm xs).sum_eq] at this
      rw [hsum, mean, hl]
      refine Eq.trans ?_ (this.trans ?_)
      · congr 1
        funext i
        ring
      · ring
    have hpos := sum_abs_pos hv (mean xs)
    have hk0 : k ∈ Set.Ioo 0 n := by
      rw [length_sort, hl] at hk
      have hz : ∀ w : ℝ, (∀ i < n, (if i < k then (-1 : ℝ) else 1) - ((n : ℝ) - 2 * k) / n = 0) → False := fun _ hw => by
        rw [← hdot, dot_at, length_sort, hl, Finset.sum_eq_zero (fun i hi => by
          rw [hw i (Finset.mem_range.1 hi), mul_zero])] at hpos
        exact lt_irrefl _ hpos
      refine ⟨Nat.pos_of_ne_zero fun h => hz 0 fun i _ => ?_, lt_of_le_of_ne hk fun h => hz 0 fun i hi => ?_⟩
      · rw [h, if_neg (by omega)]
        push_cast
        field_simp
        ring
      · rw [h, if_pos hi]
        field_simp
        ring
    refine ⟨k, hk0, ?_⟩
    rw [hdot]
    have hs := stdDev_pos hv
    have ha := absDeviation_pos hv (meanOf id xs)
    have hq : 0 < √((n : ℝ) + 2) := Real.sqrt_pos.2 (by linarith)
    have hlog : Real.log (stdDev xs / absDeviation (meanOf id xs) xs) = (c * 3.54 / √(n + 2) + 3) / 13.29 := by
      rw [hl] at hc
      rw [← hc]
      field_simp
      ring
    have hexp : stdDev xs / absDeviation (meanOf id xs) xs = e := by
      rw [he, ← hlog, Real.exp_log (div_pos hs ha)]
    rw [div_eq_iff ha.ne'] at hexp
    have h2 := congrArg (· ^ 2) hexp
    simp only [stdDev_sq, mul_pow] at h2
    have e1 : Spec.centralMoment 2 xs = (xs.map fun t => (t - mean xs) ^ 2).sum / n := by
      rw [← hl, mean_spec]; rfl
    have e2 : absDeviation (meanOf id xs) xs = (xs.map fun x => |x - mean xs|).sum / n := by
      rw [← hl, mean_spec]; rfl
    rw [e1, e2] at h2
    have he0 : e ≠ 0 := (Real.exp_pos _).ne'
    generalize (xs.map fun x => |x - mean xs|).sum = D at *
    generalize (xs.map fun t => (t - mean xs) ^ 2).sum = S at *
    field_simp at h2 ⊢
    linarith
  · have : (k : ℝ) < n := by exact_mod_cast hk.2
    rw [if_pos hk.1]
    have : -1 - ((n : ℝ) - 2 * k) / n = (2 * k - 2 * n) / n := by field_simp; ring
    rw [this]
    exact div_ne_zero (by linarith) (by linarith)

theorem free_robust {n : ℕ} (hn : 8 ≤ n) : Free (NormStat.robustJarqueBera.statistic scipyNorm code params).execute n := by
  have h8 : (8 : ℝ) ≤ n := by exact_mod_cast hn
  have hp : 0 < √(Real.pi / 2) := Real.sqrt_pos.2 (by positivity)
  let J : (Fin n → ℝ) → ℝ := fun y => √(Real.pi / 2) / n * ∑ i : Fin n, medWeight n i * y i
  let G : ℝ → (Fin n → ℝ) → ℝ := fun c y => n / 6 * Spec.centralMoment 3 (List.ofFn y) ^ 2 * J y ^ 2 +
    n / 64 * (Spec.centralMoment 4 (List.ofFn y) - 3 * J y ^ 4) ^ 2 - c * J y ^ 8
  have key : ∀ (x : Fin n → ℝ) (σ : Equiv.Perm (Fin n)), Varies (List.ofFn x) → sort (List.ofFn x) = List.ofFn (x ∘ σ) →
      ∃ v, NormStat.robustJarqueBera.value scipyNorm (List.ofFn x) = .ok (some v) ∧ ∀ c, G c (x ∘ σ) = 0 ↔ v = c := by
    intro x σ hv hσ
    have hD := sum_abs_pos hv (median (sort (List.ofFn x)))
    have hJ : √(Real.pi / 2) / n * ((List.ofFn x).map fun t => |t - median (sort (List.ofFn x))|).sum = J (x ∘ σ) := by
      rw [sum_abs_sort_median hv.ne_nil, List.length_ofFn, hσ, dot_ofFn]
    have hJ0 : 0 < J (x ∘ σ) := hJ ▸ mul_pos (div_pos hp (by linarith)) hD
    refine ⟨n / 6 * (Spec.centralMoment 3 (List.ofFn (x ∘ σ)) / J (x ∘ σ) ^ 3) ^ 2 +
      n / 64 * (Spec.centralMoment 4 (List.ofFn (x ∘ σ)) / J (x ∘ σ) ^ 4 - 3) ^ 2, ?_, fun c => ?_⟩
    · simp only [NormStat.value, Normal.robustJarqueBera, List.length_ofFn]
      rw [hJ, hσ, moment_spec, moment_spec]
    · simp only [G]
      generalize J (x ∘ σ) = j at *
      generalize Spec.centralMoment 3 (List.ofFn (x ∘ σ)) = T at *
      generalize Spec.centralMoment 4 (List.ofFn (x ∘ σ)) = F at *
      rw [show (n : ℝ) / 6 * (T / j ^ 3) ^ 2 + n / 64 * (F / j ^ 4 - 3) ^ 2 =
        (n / 6 * T ^ 2 * j ^ 2 + n / 64 * (F - 3 * j ^ 4) ^ 2) / j ^ 8 by field_simp, div_eq_iff (by positivity), sub_eq_zero]
  refine free_analytic (G := G) (fun xs hl hd => ?_) (fun c y _ => ?_) (fun c => ?_) fun c x hd hc => ?_
  · subst hl
    obtain ⟨σ, hσ⟩ := exists_sort_perm xs.get
    rw [List.ofFn_get] at hσ
    obtain ⟨v, hv, -⟩ := key xs.get σ (by rw [List.ofFn_get]; exact varies_of_nodup hd (by omega)) (by rw [List.ofFn_get, hσ])
    rw [List.ofFn_get] at hv
    exact ⟨v, run_some hv⟩
  · have h3 := analytic_moment n 3 y trivial
    have h4 := analytic_moment n 4 y trivial
    have hj : AnalyticAt ℝ J y := analyticAt_const.mul (Finset.analyticAt_fun_sum _ fun i _ =>
      analyticAt_const.mul (analytic_coord i y))
    simp only [G]
    fun_prop
  · obtain ⟨xs, ys, v, w, ⟨lx, vx⟩, ⟨ly, vy⟩, ex, ey, hvw⟩ := tells_robust (code := code) (params := params) scipyNorm hn
    obtain ⟨x, rfl⟩ : ∃ x : Fin n → ℝ, xs = List.ofFn x := by subst lx; exact ⟨xs.get, (List.ofFn_get xs).symm⟩
    obtain ⟨y, rfl⟩ : ∃ x : Fin n → ℝ, ys = List.ofFn x := by subst ly; exact ⟨ys.get, (List.ofFn_get ys).symm⟩
    obtain ⟨σ, hσ⟩ := exists_sort_perm x
    obtain ⟨τ, hτ⟩ := exists_sort_perm y
    obtain ⟨v', hv, hv'⟩ := key x σ vx hσ
    obtain ⟨w', hw, hw'⟩ := key y τ vy hτ
    rw [run_some hv] at ex
    rw [run_some hw] at ey
    cases ex; cases ey
    by_cases h : v = c
    · exact ⟨y ∘ τ, fun h0 => hvw (h.trans ((hw' c).1 h0).symm)⟩
    · exact ⟨x ∘ σ, fun h0 => h ((hv' c).1 h0)⟩
  · obtain ⟨σ, hσ⟩ := exists_sort_perm x
    obtain ⟨v, hv, hv'⟩ := key x σ (varies_of_nodup hd (by simp; omega)) hσ
    rw [run_some hv] at hc
    exact ⟨σ, (hv' c).2 (Except.ok.inj hc)⟩

/-! ### The family -/

/-- The least size from which the values of a criterion of normality are shown to have no atoms on normal samples. -/
def leastFree : NormStat → Option ℕ
  | .filli | .looneyGulledge | .ryanJoiner _ _ | .shapiroFrancia | .shapiroWilk => some 3
  | .jarqueBera | .bonettSeier | .gmg | .bontempsMeddahi1 | .swrg | .dagostino | .chenShapiro | .coin | .hosking1 => some 4
  | .kurtosis => some 5
  | .hosking2 => some 6
  | .skew | .robustJarqueBera | .zhangQ | .zhangQStar | .hosking3 => some 8
  | .bontempsMeddahi2 | .hosking4 => some 10
  | _ => none

theorem free_normal {s : NormStat} {m n : ℕ} (hs : leastFree s = some m) (hn : m ≤ n) :
    Free (s.statistic scipyNorm code params).execute n := by
  cases s <;> simp only [leastFree, Option.some.injEq, reduceCtorEq] at hs <;> subst hs
  case filli => exact free_filli hn
  case looneyGulledge => exact free_looneyGulledge hn
  case ryanJoiner w α => exact free_ryanJoiner hn w α
  case shapiroFrancia => exact free_shapiroFrancia hn
  case shapiroWilk => exact free_shapiroWilk hn
  case jarqueBera => exact free_jarqueBera hn
  case bonettSeier => exact free_bonettSeier hn
  case gmg => exact free_gmg hn
  case bontempsMeddahi1 => exact free_meddahi1 hn
  case swrg => exact free_swrg hn
  case dagostino => exact free_dagostino hn
  case chenShapiro => exact free_chenShapiro hn
  case coin => exact free_coin hn
  case hosking1 => exact free_hosking (t := 0) (by omega) fun xs hl => run_some (C109_hosking1 _ (by omega))
  case kurtosis => exact free_kurtosis hn
  case hosking2 => exact free_hosking (t := 1) (by omega) fun xs hl => run_some (C109_trimmed _ (by omega)).1
  case skew => exact free_skew hn
  case robustJarqueBera => exact free_robust hn
  case zhangQ => exact free_zhangQ hn
  case zhangQStar => exact free_zhangQStar hn
  case hosking3 => exact free_hosking (t := 2) (by omega) fun xs hl => run_some (C109_trimmed _ (by omega)).2.1
  case bontempsMeddahi2 => exact free_meddahi2 hn
  case hosking4 => exact free_hosking (t := 3) (by omega) fun xs hl => run_some (C109_trimmed _ (by omega)).2.2

/-- The least size from which each criterion is shown to tell samples apart. -/
def leastSize : NormStat → Option ℕ
  | .spiegelhalter => some 6
  | .dap | .doornikHansen => some 8
  | s => leastFree s

/-- **C96, criteria of normality, in part**: of each size from `leastSize` on, two samples with different observations
have different values.  Kolmogorov-Smirnov and Cramér-von Mises are in `C96_normal_edf`.  Missing: Lilliefors,
Anderson-Darling, Epps-Pulley, Zhang-Wu, Glen-Leemis-Barr, Martinez-Iglewicz, Cabaña-Cabaña and Desgagné-Lafaye. -/
theorem C96_normal_partial {s : NormStat} {m n : ℕ} (hs : leastSize s = some m) (hn : m ≤ n) :
    TellsApart Varies (s.statistic scipyNorm code params).execute n := by
  by_cases h : leastFree s = some m
  · refine (free_normal h hn).tells ?_
    revert h
    cases s <;> simp only [leastFree, Option.some.injEq, reduceCtorEq, false_imp_iff] <;> omega
  · cases s <;> simp only [leastSize, leastFree, Option.some.injEq, reduceCtorEq] at hs h <;> subst hs
    case spiegelhalter => exact tells_spiegelhalter _ hn
    case dap => exact tells_dap _ hn
    case doornikHansen => exact tells_doornikHansen _ hn
    all_goals exact absurd rfl h

/-- **C96, Kolmogorov-Smirnov and Cramér-von Mises for the standard normal distribution.** -/
theorem C96_normal_edf {n : ℕ} (hn : 2 ≤ n) (t : AlternativeType) :
    TellsApart (fun _ => True) ((NormStat.ks t).statistic scipyNorm code params).execute n ∧
    TellsApart (fun _ => True) (NormStat.cvm.statistic scipyNorm code params).execute n := by
  have h : ∀ s : EdfStat, TellsApart (fun _ => True) (fun xs => s.value (cdf (gaussianReal 0 1)) xs) n := fun s =>
    (C96_edf s (onto_cdf (gaussianReal 0 1)) hn).congr (fun _ _ _ => trivial) fun _ _ _ => rfl
  exact ⟨(h (.ks t)).congr (fun _ _ _ => trivial) fun xs _ _ => execute_map rfl,
    (h .cvm).congr (fun _ _ _ => trivial) fun xs _ _ => execute_map rfl⟩

example : TellsApart Varies (NormStat.shapiroWilk.statistic scipyNorm "SW_NORMALITY_GOODNESS_OF_FIT" none).execute 20 :=
  C96_normal_partial rfl (by norm_num)

/-! ### Levels without a condition on ties -/

/-- **C123, values have no atoms**: on normal samples no value of these criteria has positive probability. -/
theorem C123_no_atoms {s : NormStat} {k n : ℕ} (hs : leastFree s = some k) (hn : k ≤ n) (m : ℝ) {v : ℝ} (hv : 0 < v) (c : ℝ) :
    iid n (gaussianReal m v.toNNReal) {x | s.value scipyNorm (List.ofFn x) = .ok (some c)} = 0 := by
  have hl : LocationScaleFree s := by cases s <;> first | trivial | simp [leastFree] at hs
  have h := C123_normal scipyNorm_symmetric hl m 0 hv one_pos n {.ok (some c)}
  simp only [Set.mem_singleton_iff, Real.toNNReal_one] at h
  rw [h]
  have hd : iid n (gaussianReal 0 1) {x | ¬ (List.ofFn x).Nodup} = 0 := ae_iff.1 (ae_nodup n)
  refine measure_mono_null ?_ (measure_union_null ((free_normal (code := "") (params := none) hs hn).null c) hd)
  intro x hx
  by_cases hx' : (List.ofFn x).Nodup
  · exact .inl ⟨hx', run_some hx⟩
  · exact .inr hx'

/-- **C123, level of the test, normal family, without a condition on ties**: for these criteria, samples of at least the given
size, all means and variances of the data and of the reference samples, and all levels. -/
theorem C123_level_free {s : NormStat} {k n B : ℕ} (hs : leastFree s = some k) (hn : k ≤ n) (hB : 0 < B) (code : String)
    (params : Option (List (String × ℝ))) (classes : List GeneratorClass) (hp : classes.Perm generatorClasses)
    (m m₀ : ℝ) {v v₀ : ℝ} (hv : 0 < v) (hv₀ : 0 < v₀) (α : ℝ) :
    ∃ G M, getAvailableGenerator classes .normal (some [("mean", m₀), ("var", v₀)]) = .ok G ∧ G.generate n = .ok M ∧
      ((iid n (gaussianReal m v.toNNReal)).prod (Measure.pi fun _ : Fin B => M))
        {ω | TestRejects (s.statistic scipyNorm code params) α ω.1 ω.2} ≤
        (rankBound s.alternative α B : ENNReal) / (B + 1 : ℕ) :=
  C123_level_normal scipyNorm_symmetric scipyNorm_measurable (by cases s <;> first | trivial | simp [leastFree] at hs)
    code params classes hp m m₀ hv hv₀
    (by cases s <;> simp only [leastFree, Option.some.injEq, reduceCtorEq] at hs <;> omega) hB
    (fun _ => C123_no_atoms hs hn m₀ hv₀) α

/-- **C126, level of the comparison with the critical value, normal family, without a condition on ties.** -/
theorem C126_free {s : NormStat} {k n B : ℕ} (hs : leastFree s = some k) (hn : k ≤ n) (hB : 0 < B) (code : String)
    (params : Option (List (String × ℝ))) (classes : List GeneratorClass) (hp : classes.Perm generatorClasses)
    (m m₀ : ℝ) {v v₀ : ℝ} (hv : 0 < v) (hv₀ : 0 < v₀) {α : ℝ} (h0 : 0 ≤ α) (h1 : α ≤ 1) :
    ∃ G M, getAvailableGenerator classes .normal (some [("mean", m₀), ("var", v₀)]) = .ok G ∧ G.generate n = .ok M ∧
      ((iid n (gaussianReal m v.toNNReal)).prod (Measure.pi fun _ : Fin B => M))
        {ω | CvRejects (s.statistic scipyNorm code params) α ω.1 ω.2} ≤
        (criticalBound s.alternative α B : ENNReal) / (B + 1 : ℕ) :=
  C126_normal scipyNorm_symmetric scipyNorm_measurable (by cases s <;> first | trivial | simp [leastFree] at hs)
    code params classes hp m m₀ hv hv₀
    (by cases s <;> simp only [leastFree, Option.some.injEq, reduceCtorEq] at hs <;> omega) hB
    (C123_no_atoms hs hn m₀ hv₀) h0 h1

example : ∃ G M, getAvailableGenerator generatorClasses .normal (some [("mean", 0), ("var", 1)]) = .ok G ∧ G.generate 30 = .ok M ∧
    ((iid 30 (gaussianReal 100 (Real.toNNReal 15))).prod (Measure.pi fun _ : Fin 999 => M))
      {ω | TestRejects (NormStat.jarqueBera.statistic scipyNorm "JB_NORMALITY_GOODNESS_OF_FIT" none) (1 / 20) ω.1 ω.2} ≤
      (rankBound NormStat.jarqueBera.alternative (1 / 20) 999 : ENNReal) / (999 + 1 : ℕ) :=
  C123_level_free (k := 4) rfl (by norm_num) (by norm_num) _ _ _ (List.Perm.refl _) _ _ (by norm_num) one_pos _

/-- **C123, values have no atoms, log-normal family.** -/
theorem C123_no_atoms_lognormal {cls : NormStat} (hc : Wrapped cls) {k n : ℕ} (hs : leastFree cls = some k) (hn : k ≤ n)
    (mu : ℝ) {sigma : ℝ} (hσ : 0 < sigma) {s scale : ℝ} (h0 : 0 < s) (c : ℝ) :
    iid n (logNormalLaw mu sigma) {x | wrapped scipyNorm cls s scale (List.ofFn x) = .ok (some c)} = 0 := by
  rw [logNormalLaw, ← iid_map _ Real.measurable_exp, (measurableEmbedding_exp n).map_apply]
  refine measure_mono_null ?_ (C123_no_atoms hs hn mu (pow_pos hσ 2) c)
  intro x hx
  have h := wrapped_exp scipyNorm_symmetric hc (scale := scale) h0 (List.ofFn x)
  rw [List.map_ofFn] at h
  have hx' : embed (cls.value scipyNorm (List.ofFn x)) = .ok (some c) := h.symm.trans hx
  show cls.value scipyNorm (List.ofFn x) = .ok (some c)
  rcases hv : cls.value scipyNorm (List.ofFn x) with e | o
  · rw [hv] at hx'; cases hx'
  · rw [hv] at hx'
    rcases o with _ | w
    · cases hx'
    · simp only [embed, Except.map, Option.map, Except.ok.injEq, Option.some.injEq, WithTop.coe_eq_coe] at hx'
      rw [hx']

/-- **C123, level of the test, log-normal family, without a condition on ties.** -/
theorem C123_level_free_lognormal {cls : NormStat} (hc : Wrapped cls) {k n B : ℕ} (hs : leastFree cls = some k) (hn : k ≤ n)
    (hB : 0 < B) {s scale : ℝ} (h0 : 0 < s) (code : String) (params : Option (List (String × ℝ)))
    (classes : List GeneratorClass) (hp : classes.Perm generatorClasses) (mu mu₀ : ℝ) {sigma sigma₀ : ℝ} (hσ : 0 < sigma)
    (hσ₀ : 0 < sigma₀) (α : ℝ) :
    ∃ G M, getAvailableGenerator classes .logNormal (some [("s", sigma₀), ("mu", mu₀)]) = .ok G ∧ G.generate n = .ok M ∧
      ((iid n (logNormalLaw mu sigma)).prod (Measure.pi fun _ : Fin B => M))
        {ω | TestRejects (wrappedStatistic scipyNorm cls s scale code params) α ω.1 ω.2} ≤
        (rankBound (wrappedAlternative cls) α B : ENNReal) / (B + 1 : ℕ) :=
  C123_level_lognormal scipyNorm_symmetric scipyNorm_measurable hc h0 code params classes hp mu mu₀ hσ hσ₀
    (by cases cls <;> simp only [leastFree, Option.some.injEq, reduceCtorEq] at hs <;> omega) hB
    (fun _ => C123_no_atoms_lognormal hc hs hn mu₀ hσ₀ h0) α

/-- **C126, level of the comparison with the critical value, log-normal family, without a condition on ties.** -/
theorem C126_free_lognormal {cls : NormStat} (hc : Wrapped cls) {k n B : ℕ} (hs : leastFree cls = some k) (hn : k ≤ n)
    (hB : 0 < B) {s scale : ℝ} (h0 : 0 < s) (code : String) (params : Option (List (String × ℝ)))
    (classes : List GeneratorClass) (hp : classes.Perm generatorClasses) (mu mu₀ : ℝ) {sigma sigma₀ : ℝ} (hσ : 0 < sigma)
    (hσ₀ : 0 < sigma₀) {α : ℝ} (ha : 0 ≤ α) (ha1 : α ≤ 1) :
    ∃ G M, getAvailableGenerator classes .logNormal (some [("s", sigma₀), ("mu", mu₀)]) = .ok G ∧ G.generate n = .ok M ∧
      ((iid n (logNormalLaw mu sigma)).prod (Measure.pi fun _ : Fin B => M))
        {ω | CvRejects (wrappedStatistic scipyNorm cls s scale code params) α ω.1 ω.2} ≤
        (criticalBound (wrappedAlternative cls) α B : ENNReal) / (B + 1 : ℕ) :=
  C126_lognormal scipyNorm_symmetric scipyNorm_measurable hc h0 code params classes hp mu mu₀ hσ hσ₀
    (by cases cls <;> simp only [leastFree, Option.some.injEq, reduceCtorEq] at hs <;> omega) hB
    (C123_no_atoms_lognormal hc hs hn mu₀ hσ₀ h0) ha ha1

example : Wrapped .hosking2 ∧ leastFree .hosking2 = some 6 := ⟨trivial, rfl⟩

end Pysatl.Props
