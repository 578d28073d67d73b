import Verif.Model.Sampling
import Verif.Props.GeneratorLaws

/-! # C121: the sampling functions reject the parameters their documentation excludes -/

namespace Pysatl.Props

open Pysatl Pysatl.Gen Pysatl.Spec Pysatl.Decision
open MeasureTheory ProbabilityTheory

theorem rvs_error {d : Scipy} (h : ¬(d.argcheck ∧ 0 ≤ d.scale)) : d.rvs = .error .valueError := by
  rw [Scipy.rvs, if_neg h]

/-- Parameters on the border of the documented domain, where the claim fails: a scale of zero, a rate
of zero, and a scale of the contaminated component that is never looked at. -/
def Border : Sampler → Prop
  | .cauchy _ s | .laplace _ s | .logistic _ s | .gumbel _ s | .rice _ s => s = 0
  | .expon lam => lam = 0
  | .gamma _ b => b = 0
  | .gompertz eta b => 0 < eta ∧ b = 0
  | .invgauss mu lam => 0 < mu ∧ lam = 0
  | .uniform a b => a = b
  | .mixConNorm p _ _ | .scaleConNorm p _ => 0 ≤ p ∧ p ≤ 1
  | _ => False

theorem mixLoop_invalid {p : ℝ} (hp : ¬(0 ≤ p ∧ p ≤ 1)) (d₁ d₂ : Scipy) (choice : ℕ → Bool) (n : ℕ) :
    mixLoop p d₁ d₂ choice n = .error .valueError := by
  unfold mixLoop
  cases n with
  | zero => rfl
  | succ n =>
    simp only [if_neg hp]
    rw [List.range_succ_eq_map, List.mapM_cons]
    rfl

/-- **C121** away from the border: invalid parameters raise `ValueError`, whatever the size and the
random choices. -/
theorem C121_invalid_partial {c : Sampler} (hi : c.DocumentedInvalid) (hb : ¬Border c) (choice : ℕ → Bool)
    (n : ℕ) : sample c choice n = .error .valueError := by
  have neg : ∀ {x : ℝ}, x ≤ 0 → x ≠ 0 → ¬0 ≤ x := fun h h' h'' => h' (le_antisymm h h'')
  cases c with
  | beta a b =>
    rw [sample, rvs_error fun h => by rcases hi with h' | h' <;> [exact h'.not_gt h.1.1; exact h'.not_gt h.1.2]]
    rfl
  | cauchy t s => rw [sample, rvs_error fun h => neg hi hb h.2]; rfl
  | chi2 df => rw [sample, rvs_error (by exact fun h => not_lt_of_ge hi h.1)]; rfl
  | expon lam =>
    have hl : lam < 0 := lt_of_le_of_ne hi hb
    simp only [sample, pyInv, if_neg hl.ne]
    simp only [bind, Except.bind]
    rw [rvs_error fun h => (one_div_neg.2 hl).not_ge h.2]
    rfl
  | gamma alfa beta =>
    have hb' : beta ≠ 0 := hb
    simp only [sample, pyInv, if_neg hb']
    simp only [bind, Except.bind]
    rw [rvs_error]
    · rfl
    · rintro ⟨h1, h2⟩
      rcases hi with h | h
      · exact not_lt_of_ge h h1
      · exact (one_div_neg.2 (lt_of_le_of_ne h hb')).not_ge h2
  | gompertz eta b =>
    rw [sample, rvs_error]
    · rfl
    · rintro ⟨h1, h2⟩
      rcases hi with h | h
      · exact not_lt_of_ge h h1
      · exact neg h (fun h0 => hb ⟨h1, h0⟩) h2
  | gumbel mu beta => rw [sample, rvs_error fun h => neg hi hb h.2]; rfl
  | invgauss mu lam =>
    rw [sample, rvs_error]
    · rfl
    · rintro ⟨h1, h2⟩
      rcases hi with h | h
      · exact not_lt_of_ge h h1
      · exact neg h (fun h0 => hb ⟨h1, h0⟩) h2
  | laplace t s => rw [sample, rvs_error fun h => neg hi hb h.2]; rfl
  | loConNorm p a => exact mixLoop_invalid hi _ _ _ _
  | logistic t s => rw [sample, rvs_error fun h => neg hi hb h.2]; rfl
  | lognorm mu s => rw [sample, rvs_error (by exact fun h => lt_asymm hi h.1)]; rfl
  | mixConNorm p a b => exact mixLoop_invalid hb _ _ _ _
  | norm mean var =>
    have : npSqrt var = none := if_pos hi
    rw [sample, this]
    rfl
  | rice nu sigma => rw [sample, rvs_error fun h => neg hi hb h.2]; rfl
  | scaleConNorm p b => exact mixLoop_invalid hb _ _ _ _
  | student df => rw [sample, rvs_error (by exact fun h => not_lt_of_ge hi h.1)]; rfl
  | truncnorm mean var a b =>
    rw [sample, npSqrt]
    split_ifs with hv
    · rfl
    · rw [rvsNan, rvs_error (by exact fun h => not_lt_of_ge (hi.resolve_left hv) h.1)]
      rfl
  | tukey lam => exact hi.elim
  | uniform a b =>
    rw [sample, rvs_error fun h => neg (sub_nonpos.2 hi) (fun h0 => hb (sub_eq_zero.1 h0).symm) h.2]
    rfl
  | weibull a k => exact hi.elim

/-- What the documentation does not say: further parameters that are rejected. -/
def Undocumented : Sampler → Prop
  | .lognorm _ s => s = 0
  | .rice nu _ => nu < 0
  | .weibull a k => a ≤ 0 ∨ k ≤ 0
  | _ => False

theorem mixLoop_valid {p : ℝ} (hp : 0 ≤ p ∧ p ≤ 1) {d₁ d₂ : Scipy} {m₁ m₂ : Measure ℝ} {choice : ℕ → Bool}
    {n : ℕ} (hn : n ≠ 0) (h₁ : (∃ i < n, choice i = true) → d₁.rvs = .ok m₁) (h₂ : d₂.rvs = .ok m₂) :
    mixLoop p d₁ d₂ choice n = .ok ((List.range n).map fun i => if choice i then m₁ else m₂) := by
  have key : ∀ l : List ℕ, (∀ i ∈ l, choice i = true → d₁.rvs = .ok m₁) →
      l.mapM (fun i => if 0 ≤ p ∧ p ≤ 1 then (if choice i then d₁.rvs else d₂.rvs) else .error .valueError) =
        (.ok (l.map fun i => if choice i then m₁ else m₂) : Except PyErr _) := by
    intro l
    induction l with
    | nil => intro _; rfl
    | cons i l ih =>
      intro h
      rw [List.mapM_cons, ih fun j hj => h j (by simp [hj]), if_pos hp]
      cases hc : choice i with
      | true => simp only [hc, if_true, h i (by simp) hc, List.map_cons]; rfl
      | false => simp only [hc, h₂, List.map_cons]; rfl
  unfold mixLoop
  rw [key _ fun i hi hc => h₁ ⟨i, List.mem_range.1 hi, hc⟩]
  simp only [bind, Except.bind]
  rw [if_neg (by simpa using hn)]
  rfl

/-- **C121**: all other parameters give a sample of the requested (positive) size. -/
theorem C121_valid {c : Sampler} (hi : ¬c.DocumentedInvalid) (hu : ¬Undocumented c) (choice : ℕ → Bool)
    {n : ℕ} (hn : n ≠ 0) : ∃ l, sample c choice n = .ok l ∧ l.length = n := by
  have all : ∀ {d : Scipy}, d.argcheck → 0 ≤ d.scale →
      ∃ l, d.rvs.map (List.replicate n) = .ok l ∧ l.length = n := by
    intro d h1 h2
    rw [rvs_ok h1 h2]
    exact ⟨_, rfl, List.length_replicate⟩
  have std : ({ name := "norm" } : Scipy).rvs = _ := rvs_ok trivial (zero_le_one (α := ℝ))
  cases c with
  | beta a b => exact all (by have := not_or.1 hi; exact ⟨not_le.1 this.1, not_le.1 this.2⟩) (zero_le_one (α := ℝ))
  | cauchy t s => exact all trivial (not_le.1 hi).le
  | chi2 df => exact all (not_le.1 hi) (zero_le_one (α := ℝ))
  | expon lam =>
    have h : 0 < lam := not_le.1 hi
    simp only [sample, pyInv, if_neg h.ne']
    exact all trivial (one_div_pos.2 h).le
  | gamma alfa beta =>
    have h := not_or.1 hi
    have hb : 0 < beta := not_le.1 h.2
    simp only [sample, pyInv, if_neg hb.ne']
    exact all (not_le.1 h.1) (one_div_pos.2 hb).le
  | gompertz eta b => exact all (not_le.1 (not_or.1 hi).1) (not_le.1 (not_or.1 hi).2).le
  | gumbel mu beta => exact all trivial (not_le.1 hi).le
  | invgauss mu lam => exact all (not_le.1 (not_or.1 hi).1) (not_le.1 (not_or.1 hi).2).le
  | laplace t s => exact all trivial (not_le.1 hi).le
  | loConNorm p a =>
    exact ⟨_, mixLoop_valid (not_not.1 hi) hn (fun _ => rvs_ok trivial (zero_le_one (α := ℝ))) std, by simp⟩
  | logistic t s => exact all trivial (not_le.1 hi).le
  | lognorm mu s => exact all (lt_of_le_of_ne (not_lt.1 hi) (Ne.symm hu)) (Real.exp_pos _).le
  | mixConNorm p a b =>
    have h := not_or.1 hi
    exact ⟨_, mixLoop_valid (not_not.1 h.1) hn (fun _ => rvs_ok trivial (not_le.1 h.2).le) std, by simp⟩
  | norm mean var =>
    have : npSqrt var = some √var := if_neg hi
    rw [sample, this]
    exact all trivial (Real.sqrt_nonneg _)
  | rice nu sigma => exact all (not_lt.1 hu) (not_le.1 hi).le
  | scaleConNorm p b =>
    have h := not_or.1 hi
    exact ⟨_, mixLoop_valid (not_not.1 h.1) hn (fun _ => rvs_ok trivial (not_lt.1 h.2)) std, by simp⟩
  | student df => exact all (not_le.1 hi) (zero_le_one (α := ℝ))
  | truncnorm mean var a b =>
    have h := not_or.1 hi
    have : npSqrt var = some √var := if_neg h.1
    rw [sample, this]
    exact all (not_le.1 h.2) (Real.sqrt_nonneg _)
  | tukey lam => exact all trivial (zero_le_one (α := ℝ))
  | uniform a b => exact all trivial (sub_pos.2 (not_le.1 hi)).le
  | weibull a k => exact all ⟨not_le.1 (not_or.1 hu).1, not_le.1 (not_or.1 hu).2⟩ (zero_le_one (α := ℝ))

/-- **C121**, further rejected parameters. -/
theorem C121_undocumented {c : Sampler} (hu : Undocumented c) (choice : ℕ → Bool) (n : ℕ) :
    sample c choice n = .error .valueError := by
  cases c with
  | lognorm mu s => rw [sample, rvs_error fun h => (h.1 : 0 < s).ne' hu]; rfl
  | rice nu sigma => rw [sample, rvs_error (by exact fun h => not_le_of_gt hu h.1)]; rfl
  | weibull a k =>
    rw [sample, rvs_error fun h => by rcases hu with h' | h' <;> [exact h'.not_gt h.1.1; exact h'.not_gt h.1.2]]
    rfl
  | _ => exact hu.elim

/-- **C121** is false at scale zero: the functions return a sample without an exception. -/
theorem C121_refuted_scale (choice : ℕ → Bool) (n : ℕ) :
    ∀ c ∈ ([.cauchy 1 0, .laplace 1 0, .logistic 1 0, .gumbel 1 0, .rice 1 0, .gompertz 1 0, .invgauss 1 0,
      .uniform 1 1] : List Sampler), c.DocumentedInvalid ∧ ∃ l, sample c choice n = .ok l ∧ l.length = n := by
  intro c hc
  have all : ∀ {d : Scipy}, d.argcheck → 0 ≤ d.scale →
      ∃ l, d.rvs.map (List.replicate n) = .ok l ∧ l.length = n := by
    intro d h1 h2
    rw [rvs_ok h1 h2]
    exact ⟨_, rfl, List.length_replicate⟩
  simp only [List.mem_cons, List.not_mem_nil, or_false] at hc
  rcases hc with rfl | rfl | rfl | rfl | rfl | rfl | rfl | rfl
  · exact ⟨le_refl (0 : ℝ), all trivial (le_refl (0 : ℝ))⟩
  · exact ⟨le_refl (0 : ℝ), all trivial (le_refl (0 : ℝ))⟩
  · exact ⟨le_refl (0 : ℝ), all trivial (le_refl (0 : ℝ))⟩
  · exact ⟨le_refl (0 : ℝ), all trivial (le_refl (0 : ℝ))⟩
  · exact ⟨le_refl (0 : ℝ), all (zero_le_one (α := ℝ)) (le_refl (0 : ℝ))⟩
  · exact ⟨Or.inr (le_refl (0 : ℝ)), all (zero_lt_one (α := ℝ)) (le_refl (0 : ℝ))⟩
  · exact ⟨Or.inr (le_refl (0 : ℝ)), all (zero_lt_one (α := ℝ)) (le_refl (0 : ℝ))⟩
  · exact ⟨le_refl (1 : ℝ), all trivial (by simp)⟩

/-- **C121** is false at rate zero: the exception is a `ZeroDivisionError`. -/
theorem C121_refuted_rate (alfa : ℝ) (choice : ℕ → Bool) (n : ℕ) :
    sample (.expon 0) choice n = .error .zeroDivisionError ∧
    sample (.gamma alfa 0) choice n = .error .zeroDivisionError := by
  simp only [sample, pyInv]
  exact ⟨rfl, rfl⟩

/-- **C121** is false of the contaminated normal laws: a negative scale is only noticed when the
component is drawn.  With `p < 1` it is possible (with probability `(1 - p)^n`) that the first
component is never drawn, and a sample of standard normal observations is returned. -/
theorem C121_refuted_mixture {p b : ℝ} (hp : 0 ≤ p ∧ p < 1) (hb : b < 0) (a : ℝ) {n : ℕ} (hn : n ≠ 0) :
    (Sampler.mixConNorm p a b).DocumentedInvalid ∧ (Sampler.scaleConNorm p b).DocumentedInvalid ∧
    (∃ choice, sample (.mixConNorm p a b) choice n = .ok (List.replicate n (gaussianReal 0 1))) ∧
    ∃ choice, sample (.scaleConNorm p b) choice n = .ok (List.replicate n (gaussianReal 0 1)) := by
  have std : ({ name := "norm" } : Scipy).rvs = .ok (gaussianReal 0 1) := by
    rw [rvs_ok (d := { name := "norm" }) trivial (zero_le_one (α := ℝ))]
    show Except.ok ((gaussianReal 0 1).map fun z => 0 + 1 * z) = _
    rw [gaussian_affine]; simp
  refine ⟨Or.inr hb.le, Or.inr hb, ⟨fun _ => false, ?_⟩, ⟨fun _ => false, ?_⟩⟩ <;>
  · rw [sample, mixLoop_valid ⟨hp.1, hp.2.le⟩ hn (m₁ := gaussianReal 0 1) (fun h => by simp at h) std]
    simp

/-- **C121** is false of the distribution functions: for a negative variance or rate they return NaN
instead of raising `ValueError`, and for rate zero they raise `ZeroDivisionError`. -/
theorem C121_refuted_cdf (x mean var lam : ℝ) (hv : var < 0) (hl : lam < 0) :
    cdfNorm x mean var = none ∧ pdfNorm x mean var = none ∧ cdfExpon x lam = .ok none ∧
    cdfExpon x 0 = .error .zeroDivisionError := by
  refine ⟨?_, ?_, ?_, ?_⟩
  · rw [cdfNorm, npSqrt, if_pos hv]; rfl
  · rw [pdfNorm, npSqrt, if_pos hv]; rfl
  · simp only [cdfExpon, pyInv, if_neg hl.ne]
    simp only [bind, Except.bind, Scipy.cdfAt]
    rw [if_neg fun h => (one_div_neg.2 hl).not_gt h.2]
    rfl
  · simp only [cdfExpon, pyInv, if_true]; rfl

example : sample (.norm 0 (-1)) (fun _ => true) 5 = .error .valueError :=
  C121_invalid_partial (c := .norm 0 (-1)) (by norm_num [Sampler.DocumentedInvalid]) id _ _

example : ∃ l, sample (.truncnorm 0 1 (-2) 2) (fun _ => true) 5 = .ok l ∧ l.length = 5 :=
  C121_valid (c := .truncnorm 0 1 (-2) 2) (by norm_num [Sampler.DocumentedInvalid]) id _ (by norm_num)

example : sample (.rice (-1) 2) (fun _ => true) 5 = .error .valueError :=
  C121_undocumented (c := .rice (-1) 2) (by norm_num [Undocumented]) _ _

end Pysatl.Props
