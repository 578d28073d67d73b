import Verif.Lemmas.Likelihood

/-! # C71, C78, C79: maximum likelihood -/

namespace Pysatl.Props

open Pysatl Pysatl.Graph Pysatl.Spec Pysatl.Likelihood

/-! ### C78: the functions return the largest likelihood of their family -/

/-- A sample is not constant. -/
def Varies {α : Type} (d : List α) : Prop := ∃ x ∈ d, ∃ y ∈ d, x ≠ y

theorem Varies.ne_nil {α : Type} {d : List α} (h : Varies d) : d ≠ [] := by
  obtain ⟨x, hx, _⟩ := h
  exact List.ne_nil_of_mem hx

theorem sum_const {α : Type} (d : List α) (c : ℝ) : (d.map fun _ => c).sum = d.length * c := by
  simp

/-- **C78**, uniform. -/
theorem C78_uniform {d : List ℝ} (hd : Varies d) :
    ∃ r : ℝ, uniformContinuous d = .ok (r : Num) ∧
      IsGreatest (likelihoods (fun θ : ℝ × ℝ => θ.1 < θ.2) uniformPdf d) r := by
  have hne := hd.ne_nil
  obtain ⟨a, ha, ham, hal⟩ := min?_spec hne
  obtain ⟨b, hb, hbm, hbl⟩ := max?_spec hne
  have hab : a < b := by
    obtain ⟨x, hx, y, hy, hxy⟩ := hd
    rcases lt_or_gt_of_ne hxy with h | h
    · exact (hal x hx).trans_lt (h.trans_le (hbl y hy))
    · exact (hal y hy).trans_lt (h.trans_le (hbl x hx))
  have hpos : ∀ θ : ℝ × ℝ, θ.1 < θ.2 → (∀ x ∈ d, θ.1 ≤ x ∧ x ≤ θ.2) → ∀ x ∈ d, 0 < uniformPdf θ x := by
    intro θ h1 h2 x hx
    unfold uniformPdf
    rw [if_pos (h2 x hx)]
    have : 0 < θ.2 - θ.1 := sub_pos.2 h1
    positivity
  have hsum : ∀ θ : ℝ × ℝ, (∀ x ∈ d, θ.1 ≤ x ∧ x ≤ θ.2) →
      (d.map fun x => Real.log (uniformPdf θ x)).sum = -(d.length : ℝ) * Real.log (θ.2 - θ.1) := by
    intro θ h2
    rw [List.map_congr_left (g := fun _ => -Real.log (θ.2 - θ.1)), sum_const]
    · ring
    · intro x hx
      unfold uniformPdf
      rw [if_pos (h2 x hx), one_div, Real.log_inv]
  have hin : ∀ x ∈ d, ((a, b) : ℝ × ℝ).1 ≤ x ∧ x ≤ ((a, b) : ℝ × ℝ).2 := fun x hx => ⟨hal x hx, hbl x hx⟩
  refine ⟨likelihood (uniformPdf (a, b)) d, ?_, ⟨(a, b), hab, rfl⟩, ?_⟩
  · unfold uniformContinuous
    simp only [npMin, ha, npMax, hb]
    simp only [bind, Except.bind, hab.ne, if_false, mathLog_pos (sub_pos.2 hab)]
    rw [← exp_sum_log (hpos _ hab hin), hsum _ hin]
    rfl
  · rintro L ⟨θ, hθ, rfl⟩
    by_cases h : ∀ x ∈ d, θ.1 ≤ x ∧ x ≤ θ.2
    · apply likelihood_le (hpos θ hθ h) (hpos _ hab hin)
      rw [hsum θ h, hsum _ hin]
      have h1 := (h a ham).1
      have h2 := (h b hbm).2
      have := Real.log_le_log (sub_pos.2 hab) (by linarith : b - a ≤ θ.2 - θ.1)
      have hn : (0 : ℝ) ≤ d.length := by positivity
      simp only
      nlinarith
    · push Not at h
      obtain ⟨x, hx, hn⟩ := h
      rw [likelihood_zero hx]
      · exact (likelihood_pos (hpos _ hab hin)).le
      · unfold uniformPdf
        rw [if_neg]
        rintro ⟨h1, h2⟩
        exact absurd (hn h1) (not_lt.2 h2)

example : Varies [(1 : ℝ), 3, 2] := ⟨1, by simp, 3, by simp, by norm_num⟩

/-- The variance of a sample that varies is positive. -/
theorem variance_pos {d : List ℝ} (hd : Varies d) (m : ℝ) :
    (0 : ℝ) < (d.map fun x => (x - m) ^ 2).sum / (d.length : ℝ) := by
  have hn : (0 : ℝ) < d.length := by exact_mod_cast List.length_pos_iff.2 hd.ne_nil
  apply div_pos _ hn
  apply lt_of_le_of_ne (sum_sq_nonneg d m)
  intro h
  have h0 : ∀ x ∈ d, (x - m) ^ 2 = 0 := by
    intro x hx
    have hle := List.single_le_sum (l := d.map fun x => (x - m) ^ 2)
      (by simp only [List.mem_map]; rintro _ ⟨x, _, rfl⟩; positivity) _ (List.mem_map.2 ⟨x, hx, rfl⟩)
    rw [← h] at hle
    exact le_antisymm hle (by positivity)
  obtain ⟨x, hx, y, hy, hxy⟩ := hd
  have h1 := pow_eq_zero_iff (two_ne_zero) |>.1 (h0 x hx)
  have h2 := pow_eq_zero_iff (two_ne_zero) |>.1 (h0 y hy)
  exact hxy (by linarith)

theorem normalPdf_pos {θ : ℝ × ℝ} (h : 0 < θ.2) (x : ℝ) : 0 < normalPdf θ x := by
  unfold normalPdf
  have : 0 < √(2 * Real.pi * θ.2) := Real.sqrt_pos.2 (by positivity)
  positivity

theorem log_normalPdf {θ : ℝ × ℝ} (h : 0 < θ.2) (x : ℝ) :
    Real.log (normalPdf θ x) =
      -(1 / 2 * Real.log (2 * Real.pi)) - 1 / 2 * Real.log θ.2 - (x - θ.1) ^ 2 / (2 * θ.2) := by
  unfold normalPdf
  have h1 : 0 < √(2 * Real.pi * θ.2) := Real.sqrt_pos.2 (by positivity)
  rw [Real.log_mul (by positivity) (Real.exp_pos _).ne', Real.log_exp, one_div, Real.log_inv,
    Real.log_sqrt (by positivity), Real.log_mul (by positivity) h.ne']
  ring

theorem sum_log_normalPdf {θ : ℝ × ℝ} (h : 0 < θ.2) (d : List ℝ) :
    (d.map fun x => Real.log (normalPdf θ x)).sum =
      -(d.length * (1 / 2 * Real.log (2 * Real.pi))) +
        (-(d.length / 2 * Real.log θ.2) - (d.map fun x => (x - θ.1) ^ 2).sum / (2 * θ.2)) := by
  rw [sum_eq_lin (fun x => (x - θ.1) ^ 2) (fun _ => 0) (-(1 / (2 * θ.2))) 0
    (-(1 / 2 * Real.log (2 * Real.pi)) - 1 / 2 * Real.log θ.2)]
  · ring
  · intro x _
    rw [log_normalPdf h]
    ring

/-- **C78**, normal. -/
theorem C78_normal {d : List ℝ} (hd : Varies d) :
    ∃ r : ℝ, normal d = .ok (r : Num) ∧
      IsGreatest (likelihoods (fun θ : ℝ × ℝ => 0 < θ.2) normalPdf d) r := by
  have hne := hd.ne_nil
  have hn : (0 : ℝ) < d.length := by exact_mod_cast List.length_pos_iff.2 hne
  have hv := variance_pos hd (d.sum / d.length)
  refine ⟨likelihood (normalPdf (d.sum / d.length,
    (d.map fun x => (x - d.sum / d.length) ^ 2).sum / d.length)) d, ?_, ⟨_, hv, rfl⟩, ?_⟩
  · have hs := sumLogs_ok (d := d) (pdf := normalPdf (d.sum / d.length,
      (d.map fun x => (x - d.sum / d.length) ^ 2).sum / d.length)) (fun x _ => normalPdf_pos hv x)
    unfold normalPdf at hs
    simp only at hs
    unfold normal
    simp only [hn.ne', hv.ne', if_false, bind, Except.bind, pure, Except.pure]
    rw [hs]
    simp only
    rw [← exp_sum_log (fun x _ => normalPdf_pos hv x)]
    rfl
  · rintro L ⟨θ, hθ, rfl⟩
    apply likelihood_le (fun x _ => normalPdf_pos hθ x) (fun x _ => normalPdf_pos hv x)
    rw [sum_log_normalPdf hθ, sum_log_normalPdf hv]
    exact add_le_add_right (gauss_bound hne rfl hv θ.1 θ.2 hθ) _

theorem lognormalPdf_eq {θ : ℝ × ℝ} {x : ℝ} (hx : 0 < x) :
    lognormalPdf θ x = 1 / x * normalPdf θ (Real.log x) := by
  unfold lognormalPdf normalPdf
  rw [if_pos hx]
  field_simp

/-- **C78**, log-normal. -/
theorem C78_lognormal {d : List ℝ} (hpos : ∀ x ∈ d, 0 < x) (hd : Varies d) :
    ∃ r : ℝ, lognormal d = .ok (r : Num) ∧
      IsGreatest (likelihoods (fun θ : ℝ × ℝ => 0 < θ.2) lognormalPdf d) r := by
  have hne := hd.ne_nil
  have hn : (0 : ℝ) < d.length := by exact_mod_cast List.length_pos_iff.2 hne
  have hlv : Varies (d.map Real.log) := by
    obtain ⟨x, hx, y, hy, hxy⟩ := hd
    exact ⟨_, List.mem_map_of_mem hx, _, List.mem_map_of_mem hy, fun h =>
      hxy (Real.log_injOn_pos (Set.mem_Ioi.2 (hpos x hx)) (Set.mem_Ioi.2 (hpos y hy)) h)⟩
  have hlen : ((d.map Real.log).length : ℝ) = d.length := by rw [List.length_map]
  have hv := variance_pos hlv ((d.map Real.log).sum / d.length)
  rw [hlen] at hv
  have ppos : ∀ θ : ℝ × ℝ, 0 < θ.2 → ∀ x ∈ d, 0 < lognormalPdf θ x := fun θ h x hx => by
    rw [lognormalPdf_eq (hpos x hx)]
    exact mul_pos (one_div_pos.2 (hpos x hx)) (normalPdf_pos h _)
  have hsum : ∀ θ : ℝ × ℝ, 0 < θ.2 → (d.map fun x => Real.log (lognormalPdf θ x)).sum =
      -(d.map Real.log).sum + ((d.map Real.log).map fun y => Real.log (normalPdf θ y)).sum := by
    intro θ h
    rw [List.map_map, sum_eq_lin Real.log (fun x => Real.log (normalPdf θ (Real.log x))) (-1) 1 0]
    · simp [Function.comp_def]
    · intro x hx
      rw [lognormalPdf_eq (hpos x hx), Real.log_mul (one_div_pos.2 (hpos x hx)).ne'
        (normalPdf_pos h _).ne', one_div, Real.log_inv]
      ring
  refine ⟨likelihood (lognormalPdf ((d.map Real.log).sum / d.length,
    ((d.map Real.log).map fun x => (x - (d.map Real.log).sum / d.length) ^ 2).sum / d.length)) d,
    ?_, ⟨_, hv, rfl⟩, ?_⟩
  · have hs : sumLogs (fun x => 1 / (x * √(2 * Real.pi * (((d.map Real.log).map fun x =>
        (x - (d.map Real.log).sum / d.length) ^ 2).sum / d.length))) *
        Real.exp (-((Real.log x - (d.map Real.log).sum / d.length) ^ 2) / (2 * (((d.map Real.log).map fun x =>
        (x - (d.map Real.log).sum / d.length) ^ 2).sum / d.length)))) d = .ok (d.map fun x => Real.log
        (lognormalPdf ((d.map Real.log).sum / d.length,
          ((d.map Real.log).map fun x => (x - (d.map Real.log).sum / d.length) ^ 2).sum / d.length) x)).sum := by
      rw [sumLogs_ok]
      · congr 2
        apply List.map_congr_left
        intro x hx
        unfold lognormalPdf
        rw [if_pos (hpos x hx)]
      · intro x hx
        have := ppos ((d.map Real.log).sum / d.length, _) hv x hx
        unfold lognormalPdf at this
        rwa [if_pos (hpos x hx)] at this
    have hany : d.any (fun x => decide (x ≤ 0)) = false := by
      rw [List.any_eq_false]
      intro x hx
      simpa using hpos x hx
    unfold lognormal
    simp only [hany, hn.ne', hv.ne', if_false, bind, Except.bind, pure, Except.pure, Bool.false_eq_true]
    rw [hs]
    simp only
    rw [← exp_sum_log (ppos _ hv)]
  · rintro L ⟨θ, hθ, rfl⟩
    apply likelihood_le (ppos θ hθ) (ppos _ hv)
    rw [hsum θ hθ, hsum _ hv, sum_log_normalPdf hθ, sum_log_normalPdf hv]
    have := gauss_bound hlv.ne_nil rfl (by rw [hlen]; exact hv) θ.1 θ.2 hθ
    rw [hlen] at this
    rw [hlen]
    exact add_le_add_right (add_le_add_right this _) _

example : (∀ x ∈ [(1 : ℝ), 3, 2], 0 < x) ∧ Varies [(1 : ℝ), 3, 2] :=
  ⟨by simp, 1, by simp, 3, by simp, by norm_num⟩

theorem sum_pos_of {d : List ℝ} (h0 : ∀ x ∈ d, 0 ≤ x) (h1 : ∃ x ∈ d, x ≠ 0) : 0 < d.sum := by
  obtain ⟨x, hx, hx0⟩ := h1
  exact (lt_of_le_of_ne (h0 x hx) (Ne.symm hx0)).trans_le (List.single_le_sum h0 x hx)

/-- **C78**, exponential. -/
theorem C78_exponential {d : List ℝ} (h0 : ∀ x ∈ d, 0 ≤ x) (h1 : ∃ x ∈ d, x ≠ 0) :
    ∃ r : ℝ, exponential d = .ok (r : Num) ∧
      IsGreatest (likelihoods (fun lam : ℝ => 0 < lam) exponentialPdf d) r := by
  have hne : d ≠ [] := by
    obtain ⟨x, hx, _⟩ := h1
    exact List.ne_nil_of_mem hx
  have hn : (0 : ℝ) < d.length := by exact_mod_cast List.length_pos_iff.2 hne
  have hS := sum_pos_of h0 h1
  have hl : 0 < (d.length : ℝ) / d.sum := div_pos hn hS
  have ppos : ∀ lam : ℝ, 0 < lam → ∀ x ∈ d, 0 < exponentialPdf lam x := fun lam h x hx => by
    unfold exponentialPdf
    rw [if_pos (h0 x hx)]
    positivity
  have hsum : ∀ lam : ℝ, 0 < lam → (d.map fun x => Real.log (exponentialPdf lam x)).sum =
      d.length * Real.log lam - lam * d.sum := by
    intro lam h
    rw [sum_eq_lin (fun x => x) (fun _ => 0) (-lam) 0 (Real.log lam)]
    · simp only [List.map_id']
      ring
    · intro x hx
      unfold exponentialPdf
      rw [if_pos (h0 x hx), Real.log_mul h.ne' (Real.exp_pos _).ne', Real.log_exp]
      ring
  have hs : sumLogs (fun x => (d.length : ℝ) / d.sum * Real.exp (-((d.length : ℝ) / d.sum) * x)) d =
      .ok (d.map fun x => Real.log (exponentialPdf ((d.length : ℝ) / d.sum) x)).sum := by
    rw [sumLogs_ok]
    · congr 2
      apply List.map_congr_left
      intro x hx
      unfold exponentialPdf
      rw [if_pos (h0 x hx)]
    · intro x hx
      positivity
  refine ⟨likelihood (exponentialPdf ((d.length : ℝ) / d.sum)) d, ?_, ⟨_, hl, rfl⟩, ?_⟩
  · have hany : d.any (fun x => decide (x < 0)) = false := by
      rw [List.any_eq_false]
      intro x hx
      simpa using h0 x hx
    have hall : d.all (fun x => decide (x = 0)) = false := by
      obtain ⟨x, hx, hx0⟩ := h1
      rw [List.all_eq_false]
      exact ⟨x, hx, by simpa using hx0⟩
    unfold exponential
    simp only [hany, hall, if_false, bind, Except.bind, pure, Except.pure, Bool.false_eq_true]
    rw [hs]
    simp only
    rw [← exp_sum_log (ppos _ hl)]
  · rintro L ⟨lam, hlam, rfl⟩
    apply likelihood_le (ppos _ hlam) (ppos _ hl)
    rw [hsum _ hlam, hsum _ hl]
    have h2 := log_ratio hlam hl
    have h3 : (d.length : ℝ) / d.sum * d.sum = d.length := div_mul_cancel₀ _ hS.ne'
    have h4 : (d.length : ℝ) * (lam / (d.length / d.sum)) = lam * d.sum := by
      field_simp
    have := mul_le_mul_of_nonneg_left h2 hn.le
    rw [h3]
    linarith

example : (∀ x ∈ [(1 : ℝ), 0, 2], 0 ≤ x) ∧ ∃ x ∈ [(1 : ℝ), 0, 2], x ≠ 0 := ⟨by simp, 1, by simp, by norm_num⟩

/-- **C78**, Pareto. -/
theorem C78_pareto {d : List ℝ} (hpos : ∀ x ∈ d, 0 < x) (hd : Varies d) :
    ∃ r : ℝ, pareto d = .ok (r : Num) ∧
      IsGreatest (likelihoods (fun θ : ℝ × ℝ => 0 < θ.1 ∧ 0 < θ.2) paretoPdf d) r := by
  have hne := hd.ne_nil
  have hn : (0 : ℝ) < d.length := by exact_mod_cast List.length_pos_iff.2 hne
  obtain ⟨m, hm, hmm, hml⟩ := min?_spec hne
  have hm0 := hpos m hmm
  have hSeq : (d.map fun x => Real.log (x / m)).sum = (d.map Real.log).sum - d.length * Real.log m := by
    rw [sum_eq_lin Real.log (fun _ => 0) 1 0 (-Real.log m)]
    · ring
    · intro x hx
      rw [Real.log_div (hpos x hx).ne' hm0.ne']
      ring
  have hS : 0 < (d.map fun x => Real.log (x / m)).sum := by
    apply sum_pos_of
    · simp only [List.mem_map]
      rintro _ ⟨x, hx, rfl⟩
      exact Real.log_nonneg ((one_le_div hm0).2 (hml x hx))
    · obtain ⟨y, hy, hym⟩ : ∃ y ∈ d, m < y := by
        obtain ⟨x, hx, y, hy, hxy⟩ := hd
        rcases lt_or_gt_of_ne hxy with h | h
        · exact ⟨y, hy, (hml x hx).trans_lt h⟩
        · exact ⟨x, hx, (hml y hy).trans_lt h⟩
      exact ⟨_, List.mem_map.2 ⟨y, hy, rfl⟩, (Real.log_pos ((one_lt_div hm0).2 hym)).ne'⟩
  have hα : 0 < (d.length : ℝ) / (d.map fun x => Real.log (x / m)).sum := div_pos hn hS
  have ppos : ∀ θ : ℝ × ℝ, 0 < θ.1 → 0 < θ.2 → (∀ x ∈ d, θ.1 ≤ x) → ∀ x ∈ d, 0 < paretoPdf θ x := by
    intro θ h1 h2 h3 x hx
    unfold paretoPdf
    rw [if_pos (h3 x hx)]
    have := Real.rpow_pos_of_pos (hpos x hx) (θ.2 + 1)
    have := Real.rpow_pos_of_pos h1 θ.2
    positivity
  have hsum : ∀ θ : ℝ × ℝ, 0 < θ.1 → 0 < θ.2 → (∀ x ∈ d, θ.1 ≤ x) →
      (d.map fun x => Real.log (paretoPdf θ x)).sum =
        d.length * Real.log θ.2 + d.length * θ.2 * Real.log θ.1 - (θ.2 + 1) * (d.map Real.log).sum := by
    intro θ h1 h2 h3
    rw [sum_eq_lin Real.log (fun _ => 0) (-(θ.2 + 1)) 0 (Real.log θ.2 + θ.2 * Real.log θ.1)]
    · ring
    · intro x hx
      unfold paretoPdf
      have a1 := Real.rpow_pos_of_pos (hpos x hx) (θ.2 + 1)
      have a2 := Real.rpow_pos_of_pos h1 θ.2
      rw [if_pos (h3 x hx), Real.log_div (by positivity) a1.ne', Real.log_mul h2.ne' a2.ne',
        Real.log_rpow h1, Real.log_rpow (hpos x hx)]
      ring
  refine ⟨likelihood (paretoPdf (m, (d.length : ℝ) / (d.map fun x => Real.log (x / m)).sum)) d, ?_,
    ⟨_, ⟨hm0, hα⟩, rfl⟩, ?_⟩
  · have hany : d.any (fun x => decide (x ≤ 0)) = false := by
      rw [List.any_eq_false]
      intro x hx
      simpa using hpos x hx
    unfold pareto
    simp only [hany, npMin, hm, hS.ne', if_false, bind, Except.bind, pure, Except.pure, Bool.false_eq_true]
    rw [← exp_sum_log (ppos _ hm0 hα hml), hsum _ hm0 hα hml]
  · rintro L ⟨θ, ⟨h1, h2⟩, rfl⟩
    by_cases h : ∀ x ∈ d, θ.1 ≤ x
    · apply likelihood_le (ppos _ h1 h2 h) (ppos _ hm0 hα hml)
      rw [hsum _ h1 h2 h, hsum _ hm0 hα hml]
      have hlog := Real.log_le_log h1 (h m hmm)
      have h3 := mul_le_mul_of_nonneg_left (log_ratio h2 hα) hn.le
      have h4 := mul_le_mul_of_nonneg_left hlog (by positivity : 0 ≤ d.length * θ.2)
      have hT : (d.map Real.log).sum =
          (d.map fun x => Real.log (x / m)).sum + d.length * Real.log m := by linarith
      simp only
      rw [hT]
      generalize (d.map fun x => Real.log (x / m)).sum = S at *
      have h5 : (d.length : ℝ) / S * S = d.length := div_mul_cancel₀ _ hS.ne'
      have h6 : (d.length : ℝ) * (θ.2 / (d.length / S)) = θ.2 * S := by field_simp
      nlinarith
    · push Not at h
      obtain ⟨x, hx, hlt⟩ := h
      rw [likelihood_zero hx]
      · exact (likelihood_pos (ppos _ hm0 hα hml)).le
      · unfold paretoPdf
        rw [if_neg (not_le.2 hlt)]

theorem sum_abs_pos {d : List ℝ} (hd : Varies d) (m : ℝ) : 0 < (d.map fun x => |x - m|).sum := by
  apply sum_pos_of
  · simp only [List.mem_map]
    rintro _ ⟨x, _, rfl⟩
    exact abs_nonneg _
  · obtain ⟨x, hx, y, hy, hxy⟩ := hd
    by_cases h : x = m
    · refine ⟨_, List.mem_map.2 ⟨y, hy, rfl⟩, ?_⟩
      rw [Ne, abs_eq_zero, sub_eq_zero]
      exact fun e => hxy (h.trans e.symm)
    · refine ⟨_, List.mem_map.2 ⟨x, hx, rfl⟩, ?_⟩
      rw [Ne, abs_eq_zero, sub_eq_zero]
      exact h

/-- **C78**, Laplace. -/
theorem C78_laplace {d : List ℝ} (hd : Varies d) :
    ∃ r : ℝ, laplace d = .ok (r : Num) ∧
      IsGreatest (likelihoods (fun θ : ℝ × ℝ => 0 < θ.2) laplacePdf d) r := by
  have hne := hd.ne_nil
  have hn : (0 : ℝ) < d.length := by exact_mod_cast List.length_pos_iff.2 hne
  have hS := sum_abs_pos hd (median d)
  have hb : 0 < (d.map fun x => |x - median d|).sum / d.length := div_pos hS hn
  have ppos : ∀ θ : ℝ × ℝ, 0 < θ.2 → ∀ x ∈ d, 0 < laplacePdf θ x := fun θ h x _ => by
    unfold laplacePdf
    positivity
  have hsum : ∀ θ : ℝ × ℝ, 0 < θ.2 → (d.map fun x => Real.log (laplacePdf θ x)).sum =
      -(d.length : ℝ) * Real.log (2 * θ.2) - 1 / θ.2 * (d.map fun x => |x - θ.1|).sum := by
    intro θ h
    rw [sum_eq_lin (fun x => |x - θ.1|) (fun _ => 0) (-(1 / θ.2)) 0 (-Real.log (2 * θ.2))]
    · ring
    · intro x _
      unfold laplacePdf
      rw [Real.log_mul (by positivity) (Real.exp_pos _).ne', Real.log_exp, one_div, Real.log_inv]
      ring
  refine ⟨likelihood (laplacePdf (median d, (d.map fun x => |x - median d|).sum / d.length)) d, ?_,
    ⟨_, hb, rfl⟩, ?_⟩
  · unfold laplace
    simp only [hne, hb.ne', if_false, bind, Except.bind, pure, Except.pure]
    rw [← exp_sum_log (ppos _ hb), hsum _ hb]
  · rintro L ⟨θ, hθ, rfl⟩
    apply likelihood_le (ppos _ hθ) (ppos _ hb)
    rw [hsum _ hθ, hsum _ hb]
    have h1 := median_min hne θ.1
    simp only
    have h2 := log_ratio hb hθ
    rw [Real.log_mul two_ne_zero hθ.ne', Real.log_mul two_ne_zero hb.ne']
    generalize (d.map fun x => |x - median d|).sum = S at *
    generalize (d.map fun x => |x - θ.1|).sum = T at *
    have h3 := mul_le_mul_of_nonneg_left h2 hn.le
    have h4 : (d.length : ℝ) * (S / d.length / θ.2) = 1 / θ.2 * S := by field_simp
    have h5 : 1 / (S / d.length) * S = d.length := by field_simp
    have h6 : 1 / θ.2 * S ≤ 1 / θ.2 * T := mul_le_mul_of_nonneg_left h1 (by positivity)
    rw [h5]
    nlinarith

/-! Discrete families -/

/-- **C78**, discrete uniform. -/
theorem C78_discreteUniform {d : List ℤ} (hne : d ≠ []) :
    ∃ r : ℝ, discreteUniform d = .ok (r : Num) ∧
      IsGreatest (likelihoods (fun θ : ℤ × ℤ => θ.1 ≤ θ.2) discreteUniformPmf d) r := by
  obtain ⟨a, ha, ham, hal⟩ := min?_specZ hne
  obtain ⟨b, hb, hbm, hbl⟩ := max?_specZ hne
  have hab : a ≤ b := hal b hbm
  have hc : ∀ θ : ℤ × ℤ, θ.1 ≤ θ.2 → (0 : ℝ) < ((θ.2 - θ.1 + 1 : ℤ) : ℝ) := fun θ h => by
    exact_mod_cast (by omega : 0 < θ.2 - θ.1 + 1)
  have hpos : ∀ θ : ℤ × ℤ, θ.1 ≤ θ.2 → (∀ x ∈ d, θ.1 ≤ x ∧ x ≤ θ.2) →
      ∀ x ∈ d, 0 < discreteUniformPmf θ x := by
    intro θ h1 h2 x hx
    unfold discreteUniformPmf
    rw [if_pos (h2 x hx)]
    exact one_div_pos.2 (hc θ h1)
  have hsum : ∀ θ : ℤ × ℤ, (∀ x ∈ d, θ.1 ≤ x ∧ x ≤ θ.2) →
      (d.map fun x => Real.log (discreteUniformPmf θ x)).sum =
        -(d.length : ℝ) * Real.log ((θ.2 - θ.1 + 1 : ℤ) : ℝ) := by
    intro θ h2
    rw [List.map_congr_left (g := fun _ => -Real.log ((θ.2 - θ.1 + 1 : ℤ) : ℝ)), sum_const]
    · ring
    · intro x hx
      unfold discreteUniformPmf
      rw [if_pos (h2 x hx), one_div, Real.log_inv]
  have hin : ∀ x ∈ d, ((a, b) : ℤ × ℤ).1 ≤ x ∧ x ≤ ((a, b) : ℤ × ℤ).2 := fun x hx => ⟨hal x hx, hbl x hx⟩
  refine ⟨likelihood (discreteUniformPmf (a, b)) d, ?_, ⟨(a, b), hab, rfl⟩, ?_⟩
  · unfold discreteUniform
    simp only [npMin, ha, npMax, hb, bind, Except.bind]
    rw [← exp_sum_log (hpos _ hab hin), hsum _ hin]
    rfl
  · rintro L ⟨θ, hθ, rfl⟩
    by_cases h : ∀ x ∈ d, θ.1 ≤ x ∧ x ≤ θ.2
    · apply likelihood_le (hpos θ hθ h) (hpos _ hab hin)
      rw [hsum θ h, hsum _ hin]
      have h1 := (h a ham).1
      have h2 := (h b hbm).2
      have := Real.log_le_log (hc (a, b) hab)
        (by exact_mod_cast (by omega : b - a + 1 ≤ θ.2 - θ.1 + 1) :
          ((b - a + 1 : ℤ) : ℝ) ≤ ((θ.2 - θ.1 + 1 : ℤ) : ℝ))
      have hn : (0 : ℝ) ≤ d.length := by positivity
      simp only
      nlinarith
    · push Not at h
      obtain ⟨x, hx, hn⟩ := h
      rw [likelihood_zero hx]
      · exact (likelihood_pos (hpos _ hab hin)).le
      · unfold discreteUniformPmf
        rw [if_neg]
        rintro ⟨h1, h2⟩
        exact absurd (hn h1) (not_lt.2 h2)

theorem cast_sum (d : List ℤ) : (d.map fun x : ℤ => (x : ℝ)).sum = (d.sum : ℝ) := by
  induction d with
  | nil => simp
  | cons x d ih => rw [List.map_cons, List.sum_cons, ih, List.sum_cons, Int.cast_add]

theorem likelihood_le_one {α : Type} {f : α → ℝ} {d : List α} (h : ∀ x ∈ d, 0 ≤ f x ∧ f x ≤ 1) :
    likelihood f d ≤ 1 := by
  unfold likelihood
  induction d with
  | nil => simp
  | cons x d ih =>
    rw [List.map_cons, List.prod_cons]
    have h1 := h x (by simp)
    have h2 := ih (fun y hy => h y (by simp [hy]))
    exact mul_le_one₀ h1.2 (List.prod_nonneg (by
      simp only [List.mem_map]
      rintro _ ⟨y, hy, rfl⟩
      exact (h y (by simp [hy])).1)) h2

theorem likelihood_eq_one {α : Type} {f : α → ℝ} {d : List α} (h : ∀ x ∈ d, f x = 1) :
    likelihood f d = 1 := by
  unfold likelihood
  rw [List.map_congr_left h]
  simp

/-- Gibbs' inequality for two outcomes. -/
theorem gibbs {k N p : ℝ} (hk : 0 < k) (hkN : k < N) (hp : 0 < p) (hp1 : p < 1) :
    k * Real.log p + (N - k) * Real.log (1 - p) ≤
      k * Real.log (k / N) + (N - k) * Real.log (1 - k / N) := by
  have hN : 0 < N := hk.trans hkN
  have hq : 0 < 1 - k / N := by
    rw [sub_pos, div_lt_one hN]
    exact hkN
  have h1 := mul_le_mul_of_nonneg_left (log_ratio hp (div_pos hk hN)) hk.le
  have h2 := mul_le_mul_of_nonneg_left (log_ratio (sub_pos.2 hp1) hq) (sub_pos.2 hkN).le
  have e1 : k * (p / (k / N)) = N * p := by field_simp
  have hNk : N - k ≠ 0 := (sub_pos.2 hkN).ne'
  have e2 : (N - k) * ((1 - p) / (1 - k / N)) = N * (1 - p) := by
    have : 1 - k / N = (N - k) / N := by field_simp
    rw [this]
    field_simp
  nlinarith

theorem sumZ_bounds {d : List ℤ} {c : ℤ} (h : ∀ x ∈ d, 0 ≤ x ∧ x ≤ c) :
    0 ≤ d.sum ∧ d.sum ≤ d.length * c := by
  induction d with
  | nil => simp
  | cons x d ih =>
    have h1 := h x (by simp)
    have h2 := ih (fun y hy => h y (by simp [hy]))
    rw [List.sum_cons, List.length_cons]
    push_cast
    constructor
    · omega
    · nlinarith

theorem sumZ_zero {d : List ℤ} (h : ∀ x ∈ d, 0 ≤ x) (hs : d.sum = 0) : ∀ x ∈ d, x = 0 := by
  intro x hx
  have := List.single_le_sum h x hx
  have := h x hx
  omega

theorem sumZ_full {d : List ℤ} {c : ℤ} (h : ∀ x ∈ d, x ≤ c) (hs : d.sum = d.length * c) :
    ∀ x ∈ d, x = c := by
  have hz : (d.map fun x => c - x).sum = 0 := by
    have : ∀ l : List ℤ, (l.map fun x => c - x).sum = l.length * c - l.sum := by
      intro l
      induction l with
      | nil => simp
      | cons x l ih =>
        rw [List.map_cons, List.sum_cons, ih, List.length_cons, List.sum_cons]
        push_cast
        ring
    rw [this, hs]
    ring
  intro x hx
  have := sumZ_zero (d := d.map fun x => c - x) (by
    simp only [List.mem_map]
    rintro _ ⟨y, hy, rfl⟩
    have := h y hy
    omega) hz (c - x) (List.mem_map.2 ⟨x, hx, rfl⟩)
  omega

/-- **C78**, binomial with a given positive number of trials. -/
theorem C78_binomial {d : List ℤ} {n : ℕ} (hn : 0 < n) (hne : d ≠ []) (h01 : ∀ x ∈ d, 0 ≤ x ∧ x ≤ n) :
    ∃ r : ℝ, binomial d n = .ok (r : Num) ∧
      IsGreatest (likelihoods (fun p : ℝ => 0 ≤ p ∧ p ≤ 1) (binomialPmf n) d) r := by
  have hlen : 0 < d.length := List.length_pos_iff.2 hne
  have hNr : (0 : ℝ) < d.length * n := by positivity
  obtain ⟨hb0, hb1⟩ := sumZ_bounds h01
  have hany : d.any (fun x => decide (x < 0 ∨ (n : ℤ) < x)) = false := by
    rw [List.any_eq_false]
    intro x hx
    have := h01 x hx
    simp
    omega
  have hemp : ¬ (d = [] ∨ n = 0) := by
    rintro (h | h)
    · exact hne h
    · omega
  have bd : ∀ p : ℝ, 0 ≤ p → p ≤ 1 → ∀ x ∈ d, 0 ≤ binomialPmf n p x ∧ binomialPmf n p x ≤ 1 := by
    intro p hp0 hp1 x hx
    have hx' := h01 x hx
    unfold binomialPmf
    rw [if_pos hx']
    have hq : 0 ≤ 1 - p := sub_nonneg.2 hp1
    constructor
    · positivity
    · have h2 := add_pow p (1 - p) n
      rw [add_sub_cancel, one_pow] at h2
      have hm : x.toNat ∈ Finset.range (n + 1) := Finset.mem_range.2 (by omega)
      have h3 := Finset.single_le_sum (f := fun m => p ^ m * (1 - p) ^ (n - m) * (n.choose m : ℝ))
        (fun i _ => by positivity) hm
      rw [← h2] at h3
      linarith
  have hpq : ((d.sum : ℝ) / (d.length * n) = 0 ↔ d.sum = 0) := by
    rw [div_eq_zero_iff]
    constructor
    · rintro (h | h)
      · exact_mod_cast h
      · exact absurd h hNr.ne'
    · intro h
      left
      exact_mod_cast h
  have hpq1 : ((d.sum : ℝ) / (d.length * n) = 1 ↔ d.sum = d.length * n) := by
    rw [div_eq_one_iff_eq hNr.ne']
    exact_mod_cast Iff.rfl
  by_cases hz : d.sum = 0
  · have hall := sumZ_zero (fun x hx => (h01 x hx).1) hz
    refine ⟨1, ?_, ⟨0, ⟨le_refl _, zero_le_one⟩, ?_⟩, ?_⟩
    · have ha : d.all (fun x => decide (x = 0)) = true := by
        rw [List.all_eq_true]
        intro x hx
        simpa using hall x hx
      unfold binomial
      simp only [hany, hemp, hpq.2 hz, ha, bind, Except.bind, pure, Except.pure, if_false,
        Bool.false_eq_true, true_or, if_true]
      rfl
    · rw [likelihood_eq_one]
      intro x hx
      rw [hall x hx]
      simp [binomialPmf]
    · rintro L ⟨p, ⟨hp0, hp1⟩, rfl⟩
      exact likelihood_le_one (bd p hp0 hp1)
  by_cases hf : d.sum = d.length * n
  · have hall := sumZ_full (fun x hx => (h01 x hx).2) hf
    refine ⟨1, ?_, ⟨1, ⟨zero_le_one, le_refl _⟩, ?_⟩, ?_⟩
    · have ha : d.all (fun x => decide (x = (n : ℤ))) = true := by
        rw [List.all_eq_true]
        intro x hx
        simpa using hall x hx
      unfold binomial
      simp only [hany, hemp, hpq1.2 hf, ha, bind, Except.bind, pure, Except.pure, if_false,
        Bool.false_eq_true, or_true, if_true]
      rfl
    · rw [likelihood_eq_one]
      intro x hx
      rw [hall x hx]
      simp [binomialPmf]
    · rintro L ⟨p, ⟨hp0, hp1⟩, rfl⟩
      exact likelihood_le_one (bd p hp0 hp1)
  have hk : (0 : ℝ) < d.sum := by exact_mod_cast lt_of_le_of_ne hb0 (Ne.symm hz)
  have hkN : (d.sum : ℝ) < d.length * n := by exact_mod_cast lt_of_le_of_ne hb1 hf
  have hp : 0 < (d.sum : ℝ) / (d.length * n) := div_pos hk hNr
  have hp1 : (d.sum : ℝ) / (d.length * n) < 1 := (div_lt_one hNr).2 hkN
  have ppos : ∀ p : ℝ, 0 < p → p < 1 → ∀ x ∈ d, 0 < binomialPmf n p x := by
    intro p h1 h2 x hx
    unfold binomialPmf
    rw [if_pos (h01 x hx)]
    have := h01 x hx
    have : (0 : ℝ) < n.choose x.toNat := by exact_mod_cast Nat.choose_pos (by omega)
    have := sub_pos.2 h2
    positivity
  have hlog : ∀ p : ℝ, 0 < p → p < 1 → ∀ x ∈ d, Real.log (binomialPmf n p x) =
      Real.log (n.choose x.toNat) + x * Real.log p + (n - x) * Real.log (1 - p) := by
    intro p h1 h2 x hx
    have hx' := h01 x hx
    unfold binomialPmf
    have hc : (0 : ℝ) < n.choose x.toNat := by exact_mod_cast Nat.choose_pos (by omega)
    have hq := sub_pos.2 h2
    have e1 : ((x.toNat : ℕ) : ℝ) = (x : ℝ) := by
      exact_mod_cast (congrArg (Int.cast (R := ℝ)) (Int.toNat_of_nonneg hx'.1))
    have e2 : ((n - x.toNat : ℕ) : ℝ) = n - x := by
      rw [Nat.cast_sub (by omega), e1]
    rw [if_pos hx', Real.log_mul (by positivity) (by positivity), Real.log_mul hc.ne' (by positivity),
      Real.log_pow, Real.log_pow, e1, e2]
  have hsum : ∀ p : ℝ, 0 < p → p < 1 → (d.map fun x => Real.log (binomialPmf n p x)).sum =
      (d.map fun x => Real.log (n.choose x.toNat)).sum +
        (d.sum * Real.log p + (d.length * n - d.sum) * Real.log (1 - p)) := by
    intro p h1 h2
    rw [sum_eq_lin (fun x : ℤ => Real.log (n.choose x.toNat)) (fun x : ℤ => (x : ℝ)) 1
      (Real.log p - Real.log (1 - p)) (n * Real.log (1 - p)), cast_sum]
    · ring
    · intro x hx
      rw [hlog p h1 h2 x hx]
      ring
  refine ⟨likelihood (binomialPmf n ((d.sum : ℝ) / (d.length * n))) d, ?_, ⟨_, ⟨hp.le, hp1.le⟩, rfl⟩, ?_⟩
  · unfold binomial
    have hno : ¬ ((d.sum : ℝ) / (d.length * n) = 0 ∨ (d.sum : ℝ) / (d.length * n) = 1) := by
      rintro (h | h)
      · exact hp.ne' h
      · exact hp1.ne h
    simp only [hany, hemp, hno, bind, Except.bind, pure, Except.pure, if_false, Bool.false_eq_true,
      mathLog_pos hp, mathLog_pos (sub_pos.2 hp1)]
    rw [← exp_sum_log (ppos _ hp hp1), List.map_congr_left (hlog _ hp hp1)]
  · rintro L ⟨p, ⟨h0, h1⟩, rfl⟩
    rcases eq_or_lt_of_le h0 with h | h
    · subst h
      obtain ⟨x, hx, hx0⟩ : ∃ x ∈ d, x ≠ 0 := by
        by_contra hcon
        push Not at hcon
        exact hz (List.sum_eq_zero hcon)
      rw [likelihood_zero hx]
      · exact (likelihood_pos (ppos _ hp hp1)).le
      · unfold binomialPmf
        have := h01 x hx
        rw [if_pos this, zero_pow (by omega)]
        ring
    rcases eq_or_lt_of_le h1 with h' | h'
    · subst h'
      obtain ⟨x, hx, hx0⟩ : ∃ x ∈ d, x ≠ n := by
        by_contra hcon
        push Not at hcon
        apply hf
        rw [List.eq_replicate_of_mem hcon]
        simp
      rw [likelihood_zero hx]
      · exact (likelihood_pos (ppos _ hp hp1)).le
      · unfold binomialPmf
        have := h01 x hx
        rw [if_pos this, sub_self, zero_pow (by omega)]
        ring
    apply likelihood_le (ppos p h h') (ppos _ hp hp1)
    rw [hsum p h h', hsum _ hp hp1]
    exact add_le_add_right (gibbs hk hkN h h') _

example : (0 < 3) ∧ [(1 : ℤ), 3, 0] ≠ [] ∧ ∀ x ∈ [(1 : ℤ), 3, 0], 0 ≤ x ∧ x ≤ ((3 : ℕ) : ℤ) := by decide

theorem bernoulli_eq_binomial {p : ℝ} {x : ℤ} (hx : 0 ≤ x ∧ x ≤ (1 : ℕ)) :
    bernoulliPmf p x = binomialPmf 1 p x := by
  obtain ⟨h1, h2⟩ := hx
  have : x = 0 ∨ x = 1 := by omega
  rcases this with rfl | rfl <;> simp [bernoulliPmf, binomialPmf]

/-- **C78**, Bernoulli. -/
theorem C78_bernoulli {d : List ℤ} (hne : d ≠ []) (h01 : ∀ x ∈ d, x = 0 ∨ x = 1) :
    ∃ r : ℝ, bernoulli d = .ok (r : Num) ∧
      IsGreatest (likelihoods (fun p : ℝ => 0 ≤ p ∧ p ≤ 1) bernoulliPmf d) r := by
  have h01' : ∀ x ∈ d, 0 ≤ x ∧ x ≤ ((1 : ℕ) : ℤ) := by
    intro x hx
    rcases h01 x hx with rfl | rfl <;> simp
  obtain ⟨r, hr, hg⟩ := C78_binomial one_pos hne h01'
  have hset : likelihoods (fun p : ℝ => 0 ≤ p ∧ p ≤ 1) bernoulliPmf d =
      likelihoods (fun p : ℝ => 0 ≤ p ∧ p ≤ 1) (binomialPmf 1) d := by
    ext L
    unfold likelihoods
    simp only [Set.mem_setOf_eq]
    constructor <;> rintro ⟨p, hp, rfl⟩ <;> refine ⟨p, hp, ?_⟩
    · exact likelihood_congr fun x hx => bernoulli_eq_binomial (h01' x hx)
    · exact (likelihood_congr fun x hx => bernoulli_eq_binomial (h01' x hx)).symm
  rw [hset]
  have hlen : 0 < d.length := List.length_pos_iff.2 hne
  have hNr : (0 : ℝ) < d.length := by positivity
  obtain ⟨hb0, hb1⟩ := sumZ_bounds h01'
  have hall : (d.all fun x => decide (x = 0 ∨ x = 1)) = true := by
    rw [List.all_eq_true]
    intro x hx
    simpa using h01 x hx
  have hany : d.any (fun x => decide (x < 0 ∨ ((1 : ℕ) : ℤ) < x)) = false := by
    rw [List.any_eq_false]
    intro x hx
    have := h01' x hx
    simp
    omega
  by_cases hd : (d.sum : ℝ) / d.length = 0 ∨ (d.sum : ℝ) / d.length = 1
  · refine ⟨1, ?_, ?_⟩
    · unfold bernoulli
      simp only [hall, not_true, hne, hd, bind, Except.bind, pure, Except.pure, if_false, if_true]
      rfl
    · have e : r = 1 := by
        have ha : d.all (fun x => decide (x = 0)) = true ∨
            d.all (fun x => decide (x = ((1 : ℕ) : ℤ))) = true := by
          rcases hd with h | h
          · left
            rw [div_eq_zero_iff, or_iff_left hNr.ne'] at h
            rw [List.all_eq_true]
            intro x hx
            simpa using sumZ_zero (fun x hx => (h01' x hx).1) (by exact_mod_cast h) x hx
          · right
            rw [div_eq_one_iff_eq hNr.ne'] at h
            rw [List.all_eq_true]
            intro x hx
            have := sumZ_full (fun x hx => (h01' x hx).2) (by push_cast; rw [mul_one]; exact_mod_cast h) x hx
            simpa using this
        unfold binomial at hr
        have hd' : (d.sum : ℝ) / (d.length * ((1 : ℕ) : ℝ)) = 0 ∨
            (d.sum : ℝ) / (d.length * ((1 : ℕ) : ℝ)) = 1 := by
          rw [Nat.cast_one, mul_one]
          exact hd
        simp only [hany, hne, hd', ha, bind, Except.bind, pure, Except.pure, if_false, if_true,
          Bool.false_eq_true, false_or, one_ne_zero, Except.ok.injEq] at hr
        exact_mod_cast hr.symm
      exact e ▸ hg
  · push Not at hd
    have hk : (0 : ℝ) < d.sum := by
      have h0 : (d.sum : ℝ) ≠ 0 := fun h => hd.1 (by rw [h, zero_div])
      exact lt_of_le_of_ne (by exact_mod_cast hb0) (Ne.symm h0)
    have hk1 : (d.sum : ℝ) < d.length := by
      have h0 : (d.sum : ℝ) ≠ d.length := fun h => hd.2 (by rw [h, div_self hNr.ne'])
      refine lt_of_le_of_ne ?_ h0
      have : d.sum ≤ d.length := by simpa using hb1
      exact_mod_cast this
    have hp : 0 < (d.sum : ℝ) / d.length := div_pos hk hNr
    have hp1 : (d.sum : ℝ) / d.length < 1 := (div_lt_one hNr).2 hk1
    refine ⟨r, ?_, hg⟩
    rw [← hr]
    unfold bernoulli binomial
    have hno : ¬ ((d.sum : ℝ) / d.length = 0 ∨ (d.sum : ℝ) / d.length = 1) := by
      rintro (h | h)
      · exact hd.1 h
      · exact hd.2 h
    rw [hany]
    simp only [hall, not_true, hne, hno, Nat.cast_one, mul_one, bind, Except.bind, pure,
      Except.pure, if_false, Bool.false_eq_true, false_or, one_ne_zero, mathLog_pos hp,
      mathLog_pos (sub_pos.2 hp1)]
    rw [sum_eq_lin (fun x : ℤ => (x : ℝ)) (fun _ => 0)
      (Real.log ((d.sum : ℝ) / d.length) - Real.log (1 - (d.sum : ℝ) / d.length)) 0
      (Real.log (1 - (d.sum : ℝ) / d.length)), cast_sum]
    · congr 3
      ring
    · intro x hx
      have hc : ((1 : ℕ).choose x.toNat : ℝ) = 1 := by
        rcases h01 x hx with rfl | rfl <;> simp
      rw [hc, Real.log_one]
      ring

example : [(1 : ℤ), 0, 0] ≠ [] ∧ ∀ x ∈ [(1 : ℤ), 0, 0], x = 0 ∨ x = 1 := by decide

/-- **C78**, Poisson, when some count is positive. -/
theorem C78_poisson_partial {d : List ℤ} (h0 : ∀ x ∈ d, 0 ≤ x) (h1 : ∃ x ∈ d, x ≠ 0) :
    ∃ r : ℝ, poisson d = .ok (r : Num) ∧
      IsGreatest (likelihoods (fun lam : ℝ => 0 ≤ lam) poissonPmf d) r := by
  obtain ⟨y, hy, hy0⟩ := h1
  have hne : d ≠ [] := List.ne_nil_of_mem hy
  have hlen : 0 < d.length := List.length_pos_iff.2 hne
  have hn : (0 : ℝ) < d.length := by positivity
  have hk : (0 : ℝ) < d.sum := by
    have := List.single_le_sum h0 y hy
    have := h0 y hy
    exact_mod_cast (by omega : 0 < d.sum)
  have hl : 0 < (d.sum : ℝ) / d.length := div_pos hk hn
  have ppos : ∀ lam : ℝ, 0 < lam → ∀ x ∈ d, 0 < poissonPmf lam x := by
    intro lam h x hx
    unfold poissonPmf
    rw [if_pos (h0 x hx)]
    positivity
  have hlog : ∀ lam : ℝ, 0 < lam → ∀ x ∈ d, Real.log (poissonPmf lam x) =
      x * Real.log lam - lam - Real.log (x.toNat.factorial) := by
    intro lam h x hx
    have e1 : ((x.toNat : ℕ) : ℝ) = (x : ℝ) := by
      exact_mod_cast (congrArg (Int.cast (R := ℝ)) (Int.toNat_of_nonneg (h0 x hx)))
    unfold poissonPmf
    rw [if_pos (h0 x hx), Real.log_div (by positivity) (by positivity), Real.log_mul (by positivity)
      (by positivity), Real.log_exp, Real.log_pow, e1]
    ring
  have hsum : ∀ lam : ℝ, 0 < lam → (d.map fun x => Real.log (poissonPmf lam x)).sum =
      d.sum * Real.log lam - lam * d.length - (d.map fun x => Real.log (x.toNat.factorial)).sum := by
    intro lam h
    rw [sum_eq_lin (fun x : ℤ => (x : ℝ)) (fun x : ℤ => Real.log (x.toNat.factorial)) (Real.log lam) (-1) (-lam),
      cast_sum]
    · ring
    · intro x hx
      rw [hlog lam h x hx]
      ring
  refine ⟨likelihood (poissonPmf ((d.sum : ℝ) / d.length)) d, ?_, ⟨_, hl.le, rfl⟩, ?_⟩
  · have hany : d.any (fun x => decide (x < 0)) = false := by
      rw [List.any_eq_false]
      intro x hx
      simpa using h0 x hx
    unfold poisson
    simp only [hany, hne, bind, Except.bind, pure, Except.pure, if_false, Bool.false_eq_true, mathLog_pos hl]
    rw [← exp_sum_log (ppos _ hl), List.map_congr_left (hlog _ hl)]
  · rintro L ⟨lam, hlam, rfl⟩
    rcases eq_or_lt_of_le hlam with h | h
    · subst h
      rw [likelihood_zero hy]
      · exact (likelihood_pos (ppos _ hl)).le
      · unfold poissonPmf
        have := h0 y hy
        rw [if_pos this, zero_pow (by omega)]
        ring
    · apply likelihood_le (ppos _ h) (ppos _ hl)
      rw [hsum _ h, hsum _ hl]
      have h2 := mul_le_mul_of_nonneg_left (log_ratio h hl) hk.le
      have e1 : (d.sum : ℝ) * (lam / (d.sum / d.length)) = lam * d.length := by field_simp
      have e2 : (d.sum : ℝ) / d.length * d.length = d.sum := div_mul_cancel₀ _ hn.ne'
      rw [e2]
      linarith

example : (∀ x ∈ [(2 : ℤ), 0, 5], 0 ≤ x) ∧ ∃ x ∈ [(2 : ℤ), 0, 5], x ≠ 0 := by decide

/-- **C78, refuted** for Poisson counts that are all zero: the largest likelihood is 1 (at mean
0), but the function raises `ValueError`. -/
theorem C78_refuted_poisson {d : List ℤ} (hne : d ≠ []) (h0 : ∀ x ∈ d, x = 0) :
    poisson d = .error .valueError ∧
      IsGreatest (likelihoods (fun lam : ℝ => 0 ≤ lam) poissonPmf d) 1 := by
  refine ⟨?_, ⟨0, le_refl _, ?_⟩, ?_⟩
  · have hany : d.any (fun x => decide (x < 0)) = false := by
      rw [List.any_eq_false]
      intro x hx
      simp [h0 x hx]
    have hz : d.sum = 0 := List.sum_eq_zero h0
    unfold poisson
    simp [hany, hne, hz, mathLog, bind, Except.bind]
  · rw [likelihood_eq_one]
    intro x hx
    simp [h0 x hx, poissonPmf]
  · rintro L ⟨lam, hlam, rfl⟩
    apply likelihood_le_one
    intro x hx
    rw [h0 x hx]
    simp only [poissonPmf, le_refl, if_true, Int.toNat_zero, pow_zero, mul_one, Nat.factorial_zero,
      Nat.cast_one, div_one]
    exact ⟨(Real.exp_pos _).le, Real.exp_le_one_iff.2 (by linarith)⟩

example : [(0 : ℤ), 0] ≠ [] ∧ ∀ x ∈ [(0 : ℤ), 0], x = 0 := by decide

/-- **C78**, geometric, when some observation exceeds 1. -/
theorem C78_geometric_partial {d : List ℤ} (h0 : ∀ x ∈ d, 1 ≤ x) (h1 : ∃ x ∈ d, x ≠ 1) :
    ∃ r : ℝ, geometric d = .ok (r : Num) ∧
      IsGreatest (likelihoods (fun p : ℝ => 0 < p ∧ p ≤ 1) geometricPmf d) r := by
  obtain ⟨y, hy, hy0⟩ := h1
  have hne : d ≠ [] := List.ne_nil_of_mem hy
  have hlen : 0 < d.length := List.length_pos_iff.2 hne
  have hn : (0 : ℝ) < d.length := by positivity
  have hlt : (d.length : ℝ) < d.sum := by
    have key : ∀ l : List ℤ, (∀ x ∈ l, 1 ≤ x) → (l.length : ℤ) ≤ l.sum ∧ (∀ z ∈ l, z ≠ 1 → (l.length : ℤ) < l.sum) := by
      intro l
      induction l with
      | nil => simp
      | cons x l ih =>
        intro h
        have h1 := h x (by simp)
        obtain ⟨h2, h3⟩ := ih (fun z hz => h z (by simp [hz]))
        rw [List.length_cons, List.sum_cons]
        push_cast
        refine ⟨by omega, fun z hz hz1 => ?_⟩
        rcases List.mem_cons.1 hz with e | hz'
        · subst e
          omega
        · have := h3 z hz' hz1
          omega
    exact_mod_cast (key d h0).2 y hy hy0
  have hs : (0 : ℝ) < d.sum := hn.trans hlt
  have hp : 0 < (d.length : ℝ) / d.sum := div_pos hn hs
  have hp1 : (d.length : ℝ) / d.sum < 1 := (div_lt_one hs).2 hlt
  have ppos : ∀ p : ℝ, 0 < p → p < 1 → ∀ x ∈ d, 0 < geometricPmf p x := by
    intro p h h' x hx
    unfold geometricPmf
    rw [if_pos (h0 x hx)]
    have := sub_pos.2 h'
    positivity
  have hsum : ∀ p : ℝ, 0 < p → p < 1 → (d.map fun x => Real.log (geometricPmf p x)).sum =
      d.length * Real.log p + (d.sum - d.length) * Real.log (1 - p) := by
    intro p h h'
    rw [sum_eq_lin (fun x : ℤ => (x : ℝ)) (fun _ => 0) (Real.log (1 - p)) 0 (Real.log p - Real.log (1 - p)),
      cast_sum]
    · ring
    · intro x hx
      have hx1 := h0 x hx
      have e1 : ((x.toNat - 1 : ℕ) : ℝ) = (x : ℝ) - 1 := by
        have : ((x.toNat - 1 : ℕ) : ℤ) = x - 1 := by omega
        exact_mod_cast (congrArg (Int.cast (R := ℝ)) this)
      have := sub_pos.2 h'
      unfold geometricPmf
      rw [if_pos hx1, Real.log_mul (by positivity) h.ne', Real.log_pow, e1]
      ring
  refine ⟨likelihood (geometricPmf ((d.length : ℝ) / d.sum)) d, ?_, ⟨_, ⟨hp, hp1.le⟩, rfl⟩, ?_⟩
  · have hany : d.any (fun x => decide (x < 1)) = false := by
      rw [List.any_eq_false]
      intro x hx
      have := h0 x hx
      simp
      omega
    unfold geometric
    simp only [hany, hne, bind, Except.bind, pure, Except.pure, if_false, Bool.false_eq_true,
      mathLog_pos hp, mathLog_pos (sub_pos.2 hp1)]
    rw [← exp_sum_log (ppos _ hp hp1), hsum _ hp hp1]
  · rintro L ⟨p, ⟨h, h'⟩, rfl⟩
    rcases eq_or_lt_of_le h' with e | e
    · subst e
      rw [likelihood_zero hy]
      · exact (likelihood_pos (ppos _ hp hp1)).le
      · unfold geometricPmf
        have := h0 y hy
        rw [if_pos this, sub_self, zero_pow (by omega)]
        ring
    · apply likelihood_le (ppos _ h e) (ppos _ hp hp1)
      rw [hsum _ h e, hsum _ hp hp1]
      exact gibbs hn hlt h e

example : (∀ x ∈ [(2 : ℤ), 1, 5], 1 ≤ x) ∧ ∃ x ∈ [(2 : ℤ), 1, 5], x ≠ 1 := by decide

/-- **C78, refuted** for geometric observations that are all 1: the largest likelihood is 1 (at
`p = 1`), but the function raises `ValueError`. -/
theorem C78_refuted_geometric {d : List ℤ} (hne : d ≠ []) (h0 : ∀ x ∈ d, x = 1) :
    geometric d = .error .valueError ∧
      IsGreatest (likelihoods (fun p : ℝ => 0 < p ∧ p ≤ 1) geometricPmf d) 1 := by
  have hlen : 0 < d.length := List.length_pos_iff.2 hne
  refine ⟨?_, ⟨1, ⟨one_pos, le_refl _⟩, ?_⟩, ?_⟩
  · have hany : d.any (fun x => decide (x < 1)) = false := by
      rw [List.any_eq_false]
      intro x hx
      simp [h0 x hx]
    have hz : d.sum = d.length := by
      rw [List.eq_replicate_of_mem h0]
      simp
    have hn : (0 : ℝ) < d.length := by positivity
    unfold geometric
    have e : (0 : ℝ) < (d.length : ℝ) / (d.length : ℝ) := div_pos hn hn
    simp only [hany, hne, hz, Int.cast_natCast, mathLog_pos e, bind, Except.bind, if_false,
      Bool.false_eq_true]
    rw [div_self hn.ne', sub_self]
    simp [mathLog]
  · rw [likelihood_eq_one]
    intro x hx
    simp [h0 x hx, geometricPmf]
  · rintro L ⟨p, ⟨hp, hp1⟩, rfl⟩
    apply likelihood_le_one
    intro x hx
    rw [h0 x hx]
    simp only [geometricPmf, le_refl, if_true, Int.toNat_one, Nat.sub_self, pow_zero, one_mul]
    exact ⟨hp.le, hp1⟩

example : [(1 : ℤ), 1] ≠ [] ∧ ∀ x ∈ [(1 : ℤ), 1], x = 1 := by decide

end Pysatl.Props
