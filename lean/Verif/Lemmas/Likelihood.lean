import Verif.Model.Likelihood
import Verif.Spec.Likelihood
import Verif.Lemmas.GraphStat

/-! # Lemmas about likelihoods -/

namespace Pysatl.Likelihood

open Pysatl Pysatl.Graph Pysatl.Spec

theorem mathLog_pos {x : ℝ} (h : 0 < x) : mathLog x = .ok (Real.log x) := by
  unfold mathLog
  rw [if_neg (not_le.2 h)]

theorem foldlM_logs {pdf : ℝ → ℝ} : ∀ (d : List ℝ) (acc : ℝ), (∀ x ∈ d, 0 < pdf x) →
    d.foldlM (fun acc x => (do
      let l ← mathLog (pdf x)
      return acc + l : Except PyErr ℝ)) acc = .ok (acc + (d.map fun x => Real.log (pdf x)).sum)
  | [], acc, _ => by simp; rfl
  | x :: d, acc, h => by
    rw [List.foldlM_cons, mathLog_pos (h x (by simp))]
    have := foldlM_logs d (acc + Real.log (pdf x)) (fun y hy => h y (by simp [hy]))
    simp only [List.map_cons, List.sum_cons]
    rw [← add_assoc]
    exact this

theorem sumLogs_ok {pdf : ℝ → ℝ} {d : List ℝ} (h : ∀ x ∈ d, 0 < pdf x) :
    sumLogs pdf d = .ok (d.map fun x => Real.log (pdf x)).sum := by
  unfold sumLogs
  rw [foldlM_logs d 0 h, zero_add]

theorem exp_sum_log {α : Type} {f : α → ℝ} : ∀ {d : List α}, (∀ x ∈ d, 0 < f x) →
    Real.exp (d.map fun x => Real.log (f x)).sum = likelihood f d
  | [], _ => by simp [likelihood]
  | x :: d, h => by
    have ih := exp_sum_log (d := d) (fun y hy => h y (by simp [hy]))
    unfold likelihood at ih ⊢
    simp only [List.map_cons, List.sum_cons, List.prod_cons]
    rw [Real.exp_add, ih, Real.exp_log (h x (by simp))]

theorem likelihood_pos {α : Type} {f : α → ℝ} {d : List α} (h : ∀ x ∈ d, 0 < f x) :
    0 < likelihood f d := by
  rw [← exp_sum_log h]
  exact Real.exp_pos _

theorem likelihood_zero {α : Type} {f : α → ℝ} {d : List α} {x : α} (hx : x ∈ d) (h : f x = 0) :
    likelihood f d = 0 := by
  unfold likelihood
  exact List.prod_eq_zero (List.mem_map.2 ⟨x, hx, h⟩)

theorem likelihood_congr {α : Type} {f g : α → ℝ} {d : List α} (h : ∀ x ∈ d, f x = g x) :
    likelihood f d = likelihood g d := by
  unfold likelihood
  rw [List.map_congr_left h]

theorem likelihood_le {α : Type} {f g : α → ℝ} {d : List α} (hf : ∀ x ∈ d, 0 < f x)
    (hg : ∀ x ∈ d, 0 < g x)
    (h : (d.map fun x => Real.log (f x)).sum ≤ (d.map fun x => Real.log (g x)).sum) :
    likelihood f d ≤ likelihood g d := by
  rw [← exp_sum_log hf, ← exp_sum_log hg]
  exact Real.exp_le_exp.2 h

/-- Sum of a linear combination of two functions and a constant. -/
theorem sum_lin {α : Type} (f g : α → ℝ) (a b c : ℝ) : ∀ d : List α,
    (d.map fun x => a * f x + b * g x + c).sum = a * (d.map f).sum + b * (d.map g).sum + c * d.length
  | [] => by simp
  | x :: d => by
    simp only [List.map_cons, List.sum_cons, sum_lin f g a b c d, List.length_cons]
    push_cast
    ring

theorem sum_eq_lin {α : Type} {h : α → ℝ} {d : List α} (f g : α → ℝ) (a b c : ℝ)
    (e : ∀ x ∈ d, h x = a * f x + b * g x + c) :
    (d.map h).sum = a * (d.map f).sum + b * (d.map g).sum + c * d.length := by
  rw [List.map_congr_left e, sum_lin]

/-- `log t ≤ t - 1` in the form used for scale parameters. -/
theorem log_ratio {a b : ℝ} (ha : 0 < a) (hb : 0 < b) : Real.log a ≤ Real.log b + (a / b - 1) := by
  have := Real.log_le_sub_one_of_pos (div_pos ha hb)
  rw [Real.log_div ha.ne' hb.ne'] at this
  linarith

theorem sum_sq_expand (d : List ℝ) (m : ℝ) :
    (d.map fun x => (x - m) ^ 2).sum = (d.map fun x => x ^ 2).sum - 2 * m * d.sum + m ^ 2 * d.length := by
  have := sum_eq_lin (d := d) (h := fun x => (x - m) ^ 2) (fun x => x ^ 2) (fun x => x) 1 (-2 * m) (m ^ 2)
    (fun x _ => by ring)
  rw [this]
  simp only [List.map_id']
  ring

/-- The mean minimises the sum of squares. -/
theorem sum_sq_mean {d : List ℝ} (hne : d ≠ []) (m : ℝ) :
    (d.map fun x => (x - m) ^ 2).sum =
      (d.map fun x => (x - d.sum / d.length) ^ 2).sum + d.length * (d.sum / d.length - m) ^ 2 := by
  have hn : (d.length : ℝ) ≠ 0 := by
    have := List.length_pos_iff.2 hne
    positivity
  rw [sum_sq_expand, sum_sq_expand]
  field_simp
  ring

theorem sum_sq_nonneg (d : List ℝ) (m : ℝ) : 0 ≤ (d.map fun x => (x - m) ^ 2).sum :=
  List.sum_nonneg (by simp only [List.mem_map]; rintro _ ⟨x, _, rfl⟩; positivity)

/-- The Gaussian log-likelihood is largest at the mean and variance of the data. -/
theorem gauss_bound {d : List ℝ} (hne : d ≠ []) {v : ℝ}
    (hv : v = (d.map fun x => (x - d.sum / d.length) ^ 2).sum / d.length) (hv0 : 0 < v) (m v' : ℝ)
    (hv' : 0 < v') :
    -(d.length / 2 * Real.log v') - (d.map fun x => (x - m) ^ 2).sum / (2 * v') ≤
      -(d.length / 2 * Real.log v) - (d.map fun x => (x - d.sum / d.length) ^ 2).sum / (2 * v) := by
  have hn : (0 : ℝ) < d.length := by exact_mod_cast List.length_pos_iff.2 hne
  have hS : (d.map fun x => (x - d.sum / d.length) ^ 2).sum = d.length * v := by
    rw [hv, mul_div_cancel₀ _ hn.ne']
  rw [sum_sq_mean hne m, hS]
  have h1 := log_ratio hv0 hv'
  have h2 : 0 ≤ d.length * (d.sum / d.length - m) ^ 2 / (2 * v') := by positivity
  have e1 : (d.length * v + d.length * (d.sum / d.length - m) ^ 2) / (2 * v') =
      d.length / 2 * (v / v') + d.length * (d.sum / d.length - m) ^ 2 / (2 * v') := by
    field_simp
  have e2 : d.length * v / (2 * v) = (d.length : ℝ) / 2 := by
    field_simp
  rw [e1, e2]
  have h3 := mul_le_mul_of_nonneg_left h1 (by positivity : (0 : ℝ) ≤ d.length / 2)
  nlinarith

theorem min?_spec {d : List ℝ} (hne : d ≠ []) : ∃ m, d.min? = some m ∧ m ∈ d ∧ ∀ x ∈ d, m ≤ x := by
  cases h : d.min? with
  | none => exact absurd (List.min?_eq_none_iff.1 h) hne
  | some m =>
    have := List.min?_eq_some_iff.1 h
    exact ⟨m, rfl, this.1, fun x hx => this.2 x hx⟩

theorem max?_spec {d : List ℝ} (hne : d ≠ []) : ∃ m, d.max? = some m ∧ m ∈ d ∧ ∀ x ∈ d, x ≤ m := by
  cases h : d.max? with
  | none => exact absurd (List.max?_eq_none_iff.1 h) hne
  | some m =>
    have := List.max?_eq_some_iff.1 h
    exact ⟨m, rfl, this.1, fun x hx => this.2 x hx⟩

theorem min?_specZ {d : List ℤ} (hne : d ≠ []) : ∃ m, d.min? = some m ∧ m ∈ d ∧ ∀ x ∈ d, m ≤ x := by
  cases h : d.min? with
  | none => exact absurd (List.min?_eq_none_iff.1 h) hne
  | some m =>
    have := List.min?_eq_some_iff.1 h
    exact ⟨m, rfl, this.1, fun x hx => this.2 x hx⟩

theorem max?_specZ {d : List ℤ} (hne : d ≠ []) : ∃ m, d.max? = some m ∧ m ∈ d ∧ ∀ x ∈ d, x ≤ m := by
  cases h : d.max? with
  | none => exact absurd (List.max?_eq_none_iff.1 h) hne
  | some m =>
    have := List.max?_eq_some_iff.1 h
    exact ⟨m, rfl, this.1, fun x hx => this.2 x hx⟩

/-- Reversing the order does not change a sum over indices. -/
theorem sum_rev (s : List ℝ) (f : ℝ → ℝ) :
    ∑ i : Fin s.length, f (s[i]) = ∑ i : Fin s.length, f (s[Fin.rev i]) :=
  (Equiv.sum_comp Fin.revPerm (fun i : Fin s.length => f (s[i]))).symm

/-- The median minimises the sum of absolute deviations. -/
theorem median_min {d : List ℝ} (hne : d ≠ []) (c : ℝ) :
    (d.map fun x => |x - median d|).sum ≤ (d.map fun x => |x - c|).sum := by
  have hp := sort_perm d
  have hs := sort_pairwise d
  rw [← (hp.map fun x => |x - median d|).sum_eq, ← (hp.map fun x => |x - c|).sum_eq]
  have hpos : 0 < (sort d).length := by
    rw [hp.length_eq]
    exact List.length_pos_iff.2 hne
  unfold median
  generalize sort d = s at hs hpos
  simp only
  have key : ∀ m : ℝ, (s.map fun x => |x - m|).sum = ∑ i : Fin s.length, |s[i] - m| := fun m => by
    rw [← List.sum_ofFn]
    congr 1
    apply List.ext_getElem <;> simp
  rw [key, key]
  have dbl : ∀ m : ℝ, 2 * ∑ i : Fin s.length, |s[i] - m| =
      ∑ i : Fin s.length, (|s[i] - m| + |s[Fin.rev i] - m|) := fun m => by
    rw [Finset.sum_add_distrib, ← sum_rev s (fun x => |x - m|)]
    ring
  have : 2 * ∑ i : Fin s.length, |s[i] - (at' s ((s.length - 1) / 2) + at' s (s.length / 2)) / 2| ≤
      2 * ∑ i : Fin s.length, |s[i] - c| := by
    rw [dbl, dbl]
    apply Finset.sum_le_sum
    intro i _
    have hmono : ∀ (a b : ℕ) (ha : a < s.length) (hb : b < s.length), a ≤ b → s[a] ≤ s[b] := by
      intro a b ha hb hab
      rcases hab.lt_or_eq with h | h
      · exact List.pairwise_iff_getElem.1 hs a b ha hb h
      · subst h; exact le_refl _
    have hl : (s.length - 1) / 2 < s.length := by omega
    have hr : s.length / 2 < s.length := by omega
    have e1 : at' s ((s.length - 1) / 2) = s[(s.length - 1) / 2] := by
      unfold at'; rw [List.getD_eq_getElem _ _ hl]
    have e2 : at' s (s.length / 2) = s[s.length / 2] := by
      unfold at'; rw [List.getD_eq_getElem _ _ hr]
    rw [e1, e2]
    have hi := i.isLt
    have hv : (Fin.rev i : ℕ) = s.length - (i + 1) := Fin.val_rev i
    have tri : ∀ x y m : ℝ, |y - x| ≤ |x - m| + |y - m| := fun x y m => by
      have := abs_sub_le y m x
      rw [abs_sub_comm m x] at this
      linarith
    have eq1 : ∀ x y m : ℝ, x ≤ m → m ≤ y → |x - m| + |y - m| = |y - x| := fun x y m h1 h2 => by
      rw [abs_of_nonpos (by linarith), abs_of_nonneg (by linarith), abs_of_nonneg (by linarith)]
      ring
    have t := tri (s[i]) (s[Fin.rev i]) c
    rcases le_total (i : ℕ) (Fin.rev i : ℕ) with h | h
    · have a1 : s[(i : ℕ)] ≤ s[(s.length - 1) / 2] := hmono _ _ _ _ (by omega)
      have a2 : s[(s.length - 1) / 2] ≤ s[s.length / 2] := hmono _ _ _ _ (by omega)
      have a3 : s[s.length / 2] ≤ s[(Fin.rev i : ℕ)] := hmono _ _ _ _ (by omega)
      have e := eq1 (s[(i : ℕ)]) (s[(Fin.rev i : ℕ)]) ((s[(s.length - 1) / 2] + s[s.length / 2]) / 2)
        (by linarith) (by linarith)
      simp only [Fin.getElem_fin] at e t ⊢
      rw [e]
      exact t
    · have a1 : s[(Fin.rev i : ℕ)] ≤ s[(s.length - 1) / 2] := hmono _ _ _ _ (by omega)
      have a2 : s[(s.length - 1) / 2] ≤ s[s.length / 2] := hmono _ _ _ _ (by omega)
      have a3 : s[s.length / 2] ≤ s[(i : ℕ)] := hmono _ _ _ _ (by omega)
      have e := eq1 (s[(Fin.rev i : ℕ)]) (s[(i : ℕ)]) ((s[(s.length - 1) / 2] + s[s.length / 2]) / 2)
        (by linarith) (by linarith)
      simp only [Fin.getElem_fin] at e t ⊢
      rw [add_comm, e, abs_sub_comm]
      exact t
  linarith

end Pysatl.Likelihood
